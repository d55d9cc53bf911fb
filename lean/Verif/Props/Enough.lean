import Verif.Props.ConvexBox

/-!
# Vertices need as many coordinates (C70)
-/

set_option linter.unusedSectionVars false

namespace HG

open Strategy Spec

section
variable {K : Type} [LinearOrder K] [Zero K] [Add K] [_root_.Sub K] [Predicates K]

/-- There is a prime number, at least five and at least `n`, such that both coordinate strategies
have as many different values. -/
def Spec.Enough (x : Strategy K) (y : Option (Strategy K)) (n : ℕ) : Prop :=
  ∃ p : ℕ, p.Prime ∧ 5 ≤ p ∧ n ≤ p ∧
    (∃ l : List K, l.Nodup ∧ l.length = p ∧ ∀ a ∈ l, x.val a) ∧
    ∃ l : List K, l.Nodup ∧ l.length = p ∧ ∀ a ∈ l, (y.getD x).val a

/-- The number of different points of a list of vertices. -/
def Spec.distinctPoints (l : List (Point K)) : ℕ := l.toFinset.card

/-- Any part of points drawn in general position needs as many coordinates. -/
theorem generalPosition_enough {x : Strategy K} {y : Option (Strategy K)} {lo : Int}
    {hi : Option Int} (h3 : 3 ≤ lo) {pts : List (Point K)}
    (h : (toGeneralPositionStrategy x y lo hi).val pts) {n : ℕ} (hn : n ≤ pts.length) :
    Enough x y n := by
  obtain ⟨p, s, swap, xs, ys, hp, h5, -, -, hs, hx, hy, vx, vy, lx, ly, rfl⟩ :=
    generalPosition_val h3 h
  rw [List.length_map, List.length_map, intRange_length] at hn
  refine ⟨p, hp, h5, by simpa using hn, ⟨xs.take p, ?_, ?_, ?_⟩, ⟨ys.take p, ?_, ?_, ?_⟩⟩
  · exact (hx.imp fun h => ne_of_lt h).sublist (List.take_sublist _ _)
  · rw [List.length_take]; omega
  · exact fun a ha => vx a (List.mem_of_mem_take ha)
  · exact (hy.imp fun h => ne_of_lt h).sublist (List.take_sublist _ _)
  · rw [List.length_take]; omega
  · intro a ha
    have := vy a (List.mem_of_mem_take ha)
    cases y <;> exact this

theorem enough_of_subset {x : Strategy K} {y : Option (Strategy K)} {lo : Int}
    {hi : Option Int} (h3 : 3 ≤ lo) {pts : List (Point K)}
    (h : (toGeneralPositionStrategy x y lo hi).val pts) {l : List (Point K)}
    (hl : ∀ p ∈ l, p ∈ pts) : Enough x y (distinctPoints l) := by
  refine generalPosition_enough h3 h ((Finset.card_le_card (t := pts.toFinset) ?_).trans
    (List.toFinset_card_le _))
  intro p hp
  exact List.mem_toFinset.2 (hl p (List.mem_toFinset.1 hp))

/-- A nodup list has as many points as its length. -/
theorem distinctPoints_of_nodup {l : List (Point K)} (h : l.Nodup) :
    distinctPoints l = l.length := List.toFinset_card_of_nodup h

/-- C70 for `concave_contours` and `star_contours`. -/
theorem C70_contours (env : Env K) (x : Strategy K) (y : Option (Strategy K)) (lo : Int)
    (hi : Option Int) (c : Contour K) :
    (∀ s, concaveContours env x y lo hi = .ok s → s.2.val c →
      Enough x y (distinctPoints c.vertices)) ∧
    (∀ s, starContours env x y lo hi = .ok s → s.2.val c →
      Enough x y (distinctPoints c.vertices)) := by
  have star : ∀ {lo : Int} {hi : Option Int} {vs : List (Point K)}, 3 ≤ lo →
      (toStarStrategy env x y lo hi).val vs → Enough x y (distinctPoints vs) := by
    intro lo hi vs h3 h
    obtain ⟨⟨pts, hp, rfl⟩, hs⟩ := h
    exact enough_of_subset h3 hp fun p hpv => (toStar_subperm env pts).subset hpv
  refine ⟨?_, ?_⟩ <;> intro s h hc
  all_goals
    simp only [starContours, concaveContours, exc_bind_ok, exc_pure_ok, validate_ok] at h
    obtain ⟨w, -, rfl⟩ := h
    obtain ⟨vs, hvs, rfl⟩ := hc
  · have h3 : 3 ≤ max lo 4 := le_trans (by norm_num) (le_max_right _ _)
    rcases hvs.1 with h | h
    · exact star h3 h
    · obtain ⟨h, -⟩ := h
      simp only [val_mapE, val_bind', val_prod, val_just, val_integers] at h
      obtain ⟨⟨pts, n⟩, ⟨pts', hp, h1, h2⟩, h⟩ := h
      dsimp only at h h1
      subst h1
      exact enough_of_subset h3 hp (toVertexSequence_mem h)
  · exact star (le_max_right _ _) hvs

/-- C70 for `multicontours`: all vertices of all contours together. -/
theorem C70_multicontours (env : Env K) (x : Strategy K) (y : Option (Strategy K)) (lo : Int)
    (hi : Option Int) (clo : Int) (chi : Option Int) (s : Made (List (Contour K)))
    (hs : multicontours env x y lo hi clo chi = .ok s) (l : List (Contour K)) (h : s.2.val l) :
    Enough x y (distinctPoints (l.flatMap Contour.vertices)) := by
  simp only [multicontours, exc_bind_ok, exc_pure_ok, validate_ok] at hs
  obtain ⟨w, -, w', -, rfl⟩ := hs
  have h1 : 2 ≤ max lo 2 := le_max_right _ _
  have h2 : 3 ≤ max clo 3 := le_max_right _ _
  obtain ⟨h, -⟩ := h
  simp only [val_bind', val_mapE] at h
  obtain ⟨pts, hp, r, -, h⟩ := h
  refine enough_of_subset (by nlinarith) hp fun p hpv => ?_
  obtain ⟨c, hc, hpv⟩ := List.mem_flatMap.1 hpv
  exact multicontourLoop_mem _ h c hc p hpv

/-- C70 for `polygons`: all vertices of the border and of the holes together. -/
theorem C70_polygons (env : Env K) (hset : ∀ l, (env.setOrder l).Perm l) (x : Strategy K)
    (y : Option (Strategy K)) (lo : Int) (hi : Option Int) (nlo : Int) (nhi : Option Int)
    (hlo : Int) (hhi : Option Int) (s : Made (Polygon K))
    (hs : polygons env x y lo hi nlo nhi hlo hhi = .ok s) (p : Polygon K) (h : s.2.val p) :
    Enough x y (distinctPoints (polygonVertices p)) := by
  simp only [polygons, exc_bind_ok, exc_pure_ok, validate_ok] at hs
  obtain ⟨w, -, w', -, w'', -, rfl⟩ := hs
  have h1 : 3 ≤ max lo 3 := le_max_right _ _
  have h2 : 0 ≤ max nlo 0 := le_max_right _ _
  have h3 : 3 ≤ max hlo 3 := le_max_right _ _
  obtain ⟨h, -⟩ := h
  simp only [val_bind', val_filter] at h
  obtain ⟨pts, ⟨hp, -⟩, h⟩ := h
  simp only [pointsToPolygonStrategy, val_mapE] at h
  obtain ⟨r, -, h⟩ := h
  obtain ⟨m1, m2⟩ := toPolygon_mem hset h
  refine enough_of_subset (by nlinarith) hp fun v hv => ?_
  rcases List.mem_append.1 hv with hv | hv
  · exact m1 v hv
  · obtain ⟨c, hc, hv⟩ := List.mem_flatMap.1 hv
    exact m2 c hc v hv

/-- C70 for `multipolygons`: each polygon, its holes included. -/
theorem C70_multipolygons (env : Env K) (hset : ∀ l, (env.setOrder l).Perm l) (x : Strategy K)
    (y : Option (Strategy K)) (lo : Int) (hi : Option Int) (blo : Int) (bhi : Option Int)
    (nlo : Int) (h0 : 0 ≤ nlo) (nhi : Option Int) (hlo : Int) (hhi : Option Int)
    (s : Made (List (Polygon K)))
    (hs : multipolygons env x y lo hi blo bhi nlo nhi hlo hhi = .ok s) (l : List (Polygon K))
    (h : s.2.val l) : ∀ p ∈ l, Enough x y (distinctPoints (polygonVertices p)) := by
  rcases C57_multipolygons env x y lo hi blo bhi nlo h0 nhi hlo hhi s hs l h with
    ⟨t, ht, hp⟩ | ⟨rfl, hn, t, ht, hp⟩
  · exact fun p hm => C70_polygons env hset x y _ _ _ _ _ _ t ht p (hp p hm)
  · intro p hm
    obtain ⟨q, h1, h2, h3, h4⟩ := C70_multicontours env x y lo hi blo bhi t ht _ hp
    refine ⟨q, h1, h2, le_trans (Finset.card_le_card fun v hv => ?_) h3, h4⟩
    rw [List.mem_toFinset] at hv ⊢
    simp only [polygonVertices, hn p hm, List.flatMap_nil, List.append_nil] at hv
    exact List.mem_flatMap.2 ⟨p.border, List.mem_map_of_mem hm, hv⟩

/-- C70 for `mixes`: each polygon of the mix. -/
theorem C70_mixes (env : Env K) (hset : ∀ l, (env.setOrder l).Perm l) (x : Strategy K)
    (y : Option (Strategy K)) (a : MixArgs) (s : Made (Mix K)) (hs : mixes env x y a = .ok s)
    (g : Mix K) (h : s.2.val g) :
    ∀ p ∈ mixPolygons g, Enough x y (distinctPoints (polygonVertices p)) := by
  obtain ⟨-, -, t, ht, hp⟩ := C57_mixes env x y a s hs g h
  exact fun p hm => C70_polygons env hset x y _ _ _ _ _ _ t ht p (hp p hm)

end

section
variable {K : Type} [CommRing K] [LinearOrder K] [IsStrictOrderedRing K]

/-- C70 for `convex_contours` with more than four vertices. -/
theorem C70_convex_contours (env : Env K) (hhull : ∀ pts, HullOk (env.convexHull pts) pts)
    (x : Strategy K) (y : Option (Strategy K)) (lo : Int) (hi : Option Int)
    (s : Made (Contour K)) (hs : convexContours env x y lo hi = .ok s)
    (c : Contour K) (h : s.2.val c) (h4 : 4 < c.vertices.length) :
    Enough x y c.vertices.length := by
  simp only [convexContours, exc_bind_ok, exc_pure_ok, validate_ok] at hs
  obtain ⟨w, -, rfl⟩ := hs
  obtain ⟨vs, hv, rfl⟩ := h
  rcases convexStrategy_cases hv with h | h | ⟨pts, r, cand, hgp, hr, hc, rfl⟩
  · exfalso
    simp only [toTriangularStrategy, val_map, val_filter] at h
    obtain ⟨⟨a, b, d⟩, -, rfl⟩ := h
    simp only [toCcwTriplet] at h4
    split at h4 <;> simp at h4
  · exfalso
    simp only [toRectangularStrategy, val_map] at h
    obtain ⟨b, -, rfl⟩ := h
    simp [boxVertices] at h4
  · have hle := (List.subperm_of_subset (hhull cand).convex.1 (hhull cand).sub).length_le
    obtain ⟨vs, a, b, a', b', hl, -, -, -, -, -, -, -, -, rfl⟩ := candidates_spec hr hc
    rw [List.length_map, chainPositions_length, hl] at hle
    exact generalPosition_enough (le_max_right _ _) hgp hle

/-- C70 for `contours` with more than four vertices. -/
theorem C70_all_contours (env : Env K) (hhull : ∀ pts, HullOk (env.convexHull pts) pts)
    (x : Strategy K) (y : Option (Strategy K)) (lo : Int) (hi : Option Int)
    (s : Made (Contour K)) (hs : contours env x y lo hi = .ok s)
    (c : Contour K) (h : s.2.val c) (h4 : 4 < distinctPoints c.vertices) :
    Enough x y (distinctPoints c.vertices) := by
  simp only [contours, exc_bind_ok, exc_pure_ok] at hs
  obtain ⟨w, hw, rfl⟩ := hs
  obtain ⟨vs, hvs, rfl⟩ := h
  rcases hvs with hvs | hvs
  · have hle : distinctPoints vs ≤ vs.length := List.toFinset_card_le _
    obtain ⟨q, h1, h2, h3, h5⟩ := C70_convex_contours env hhull x y lo hi
      (w, (toConvexStrategy env x y (max lo 3) hi).map Contour.mk) (by
        simp only [convexContours, exc_bind_ok, exc_pure_ok]
        exact ⟨w, hw, rfl⟩) ⟨vs⟩ ⟨vs, hvs, rfl⟩ (lt_of_lt_of_le h4 hle)
    exact ⟨q, h1, h2, hle.trans h3, h5⟩
  · rcases hvs with ⟨⟨pts, hp, rfl⟩, -⟩ | ⟨h, -⟩
    · exact enough_of_subset (le_max_right _ _) hp
        fun p hpv => (toStar_subperm env pts).subset hpv
    · simp only [val_mapE, val_bind', val_prod, val_just, val_integers] at h
      obtain ⟨⟨pts, n⟩, ⟨pts', hp, h1, h2⟩, h⟩ := h
      dsimp only at h h1
      subst h1
      exact enough_of_subset (le_max_right _ _) hp (toVertexSequence_mem h)

end

section
open Sample

/-- Non-vacuity for C70: a polygon with seven vertices. -/
example : Enough (K := ℤ) (sampledFrom (coords 7)) none 7 := by
  obtain ⟨s, hs, h⟩ := sample_polygons
  exact C70_polygons env (fun l => List.Perm.refl l) _ _ _ _ _ _ _ _ s hs _ h

/-- Six coordinates are not enough for six vertices. -/
example : ¬ Enough (K := ℤ) (sampledFrom [0, 1, 2, 3, 4, 5]) none 6 := by
  rintro ⟨p, hp, -, h6, ⟨l, h1, h2, h3⟩, -⟩
  have hle := (List.subperm_of_subset h1 fun a ha => h3 a ha).length_le
  simp only [List.length_cons, List.length_nil] at hle
  have : p = 6 := by omega
  subst this
  exact absurd hp (by decide)

end
end HG
