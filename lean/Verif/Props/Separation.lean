import Verif.Lemmas.Separation
import Verif.Props.Convex

/-!
# C20, C22: contours of a multicontour and holes of a polygon touch at most at one vertex
-/

set_option linter.unusedSectionVars false

namespace HG

open Strategy Spec

section
variable {K : Type} [CommRing K] [LinearOrder K] [IsStrictOrderedRing K]

/-- Two contours meet in at most one point, even with their convex hulls, and then in a common
vertex that is an endpoint of every edge through it. -/
structure Spec.ContoursTouch (a b : Contour K) : Prop where
  hulls : HullsTouch a.vertices b.vertices
  edges : ∀ i j p, OnSeg (edge a.vertices i) p → OnSeg (edge b.vertices j) p →
    IsEnd (edge a.vertices i) p ∧ IsEnd (edge b.vertices j) p ∧
      ∀ q, OnSeg (edge a.vertices i) q → OnSeg (edge b.vertices j) q → q = p

theorem Separated.contours {a b : Contour K} (h : Separated a.vertices b.vertices)
    (ha : a.vertices ≠ []) (hb : b.vertices ≠ []) : ContoursTouch a b :=
  ⟨h.touch, fun i j p h1 h2 => h.noCross ha hb i j p h1 h2⟩

end

section
variable {K : Type} [LinearOrder K] [Zero K] [Add K] [Sub K] [Predicates K]

theorem multicontour_separated {env : Env K} {x : Strategy K} {y : Option (Strategy K)} {lo : Int}
    {hi : Option Int} {clo : Int} {chi : Option Int} (h3 : 3 ≤ lo * clo) {cs : List (Contour K)}
    (h : (toMulticontourStrategy env x y lo hi clo chi).val cs) :
    cs.Pairwise fun a b => Separated a.vertices b.vertices := by
  obtain ⟨h, -⟩ := h
  simp only [val_bind', val_mapE] at h
  obtain ⟨pts, hp, r, -, h⟩ := h
  exact multicontourLoop_sep _ (C35_distinct x y _ _ h3 pts hp).1 (by simp) h

end

section
variable {K : Type} [CommRing K] [LinearOrder K] [IsStrictOrderedRing K]

/-- C20: two different contours of a multicontour have convex hulls with at most one common
point, which is then a vertex of both; an edge of one and an edge of the other have at most one
common point, which is an endpoint of both. -/
theorem C20_multicontours (env : Env K) (x : Strategy K) (y : Option (Strategy K)) (lo : Int)
    (hi : Option Int) (clo : Int) (chi : Option Int) (s : Made (List (Contour K)))
    (hs : multicontours env x y lo hi clo chi = .ok s) (l : List (Contour K)) (h : s.2.val l) :
    l.Pairwise ContoursTouch := by
  have hsz := C19_multicontour_sizes env x y lo hi clo chi s hs l h
  simp only [multicontours, exc_bind_ok, exc_pure_ok, validate_ok] at hs
  obtain ⟨w, -, w', -, rfl⟩ := hs
  have h1 : 2 ≤ max lo 2 := le_max_right _ _
  have h2 : 3 ≤ max clo 3 := le_max_right _ _
  have hsep := multicontour_separated (by nlinarith) h
  have hne : ∀ c ∈ l, c.vertices ≠ [] := by
    intro c hc hnil
    have := (hsz.2 c hc).1
    rw [hnil] at this
    simp at this
  exact hsep.imp_of_mem fun ha hb hab => hab.contours (hne _ ha) (hne _ hb)

/-- Non-vacuity for C20: the two triangles of `sample_multicontours`. -/
example : ContoursTouch (⟨[⟨0, 0⟩, ⟨1, 1⟩, ⟨2, 4⟩]⟩ : Contour ℤ) ⟨[⟨3, 2⟩, ⟨4, 2⟩, ⟨5, 4⟩]⟩ := by
  obtain ⟨s, hs, h⟩ := sample_multicontours
  have := C20_multicontours _ _ _ _ _ _ _ s hs _ h
  exact (List.pairwise_cons.1 this).1 _ (by simp)

end

section
variable {K : Type} [LinearOrder K] [Zero K] [Add K] [Sub K] [Predicates K]

theorem toPolygon_holes_separated {env : Env K} (hset : ∀ l, (env.setOrder l).Perm l)
    {pts : List (Point K)} (hn : pts.Nodup) {bs : Int} {hss : List Int} {ch : Nat → Bool}
    {p : Polygon K} (h : toPolygon env pts bs hss ch = .ok p) :
    p.holes.Pairwise fun a b => Separated a.vertices b.vertices := by
  simp only [toPolygon, exc_bind_ok] at h
  obtain ⟨⟨m, t⟩, hd, es, hes, hst, hh, cs, hcs, s, hs, bd, hbd, h⟩ := h
  split at h
  · simp only [exc_pure_ok] at h
    subst h
    refine holeLoop_sep _ ?_ (by simp) (by simp) (by simp) hh
    exact (hset _).nodup_iff.2 (hn.filter _)
  · simp only [exc_throw_ok] at h

theorem polygon_holes_separated {env : Env K} (hset : ∀ l, (env.setOrder l).Perm l)
    {x : Strategy K} {y : Option (Strategy K)} {z : PolygonSizes}
    (h3 : 3 ≤ z.minSize + z.minHoleSize * z.minHoleCount) {p : Polygon K}
    (h : (toPolygonStrategy env x y z).val p) :
    p.holes.Pairwise fun a b => Separated a.vertices b.vertices := by
  obtain ⟨h, -⟩ := h
  simp only [val_bind', val_filter] at h
  obtain ⟨pts, ⟨hp, -⟩, h⟩ := h
  simp only [pointsToPolygonStrategy, val_mapE] at h
  obtain ⟨r, -, h⟩ := h
  exact toPolygon_holes_separated hset (C35_distinct x y _ _ h3 pts hp).1 h

end

section
variable {K : Type} [CommRing K] [LinearOrder K] [IsStrictOrderedRing K]

/-- C22: two different holes of a polygon have convex hulls with at most one common point, which
is then a vertex of both; an edge of one and an edge of the other have at most one common point,
which is an endpoint of both. -/
theorem C22_holes (env : Env K) (hset : ∀ l, (env.setOrder l).Perm l) (x : Strategy K)
    (y : Option (Strategy K)) (lo : Int) (hi : Option Int) (nlo : Int) (nhi : Option Int)
    (hlo : Int) (hhi : Option Int) (s : Made (Polygon K))
    (hs : polygons env x y lo hi nlo nhi hlo hhi = .ok s) (p : Polygon K) (h : s.2.val p) :
    p.holes.Pairwise ContoursTouch := by
  have hsz := C21_polygon_sizes env x y lo hi nlo nhi hlo hhi s hs p h
  simp only [polygons, exc_bind_ok, exc_pure_ok, validate_ok] at hs
  obtain ⟨w, -, w', -, w'', -, rfl⟩ := hs
  have h1 : 3 ≤ max lo 3 := le_max_right _ _
  have h2 : 0 ≤ max nlo 0 := le_max_right _ _
  have h3 : 3 ≤ max hlo 3 := le_max_right _ _
  have hsep := polygon_holes_separated hset (by dsimp only; nlinarith) h
  have hne : ∀ c ∈ p.holes, c.vertices ≠ [] := by
    intro c hc hnil
    have := (hsz.2.2 c hc).1
    rw [hnil] at this
    simp at this
  exact hsep.imp_of_mem fun ha hb hab => hab.contours (hne _ ha) (hne _ hb)

end
end HG
