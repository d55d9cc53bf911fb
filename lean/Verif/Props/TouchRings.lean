import Verif.Props.Separation
import Verif.Props.Parts

/-!
# C72: touching contours and touching holes form no rings

C20 and C22 are about two contours of a multicontour and two holes of a polygon.  Three contours that
touch each other pairwise in single vertices can still enclose a piece of the plane, and three such
holes cut a polygon into two.  This does not happen: of a contour, all points in common with contours
later in the list are one and the same vertex.
-/

set_option linter.unusedSectionVars false

namespace HG

open Strategy Spec

section
variable {K : Type} [LinearOrder K] [Zero K] [Add K] [Sub K] [Predicates K]

/-- Each contour is separated from all later ones taken together. -/
def SepChain : List (Contour K) → Prop
  | [] => True
  | c :: cs => Separated c.vertices (cs.flatMap Contour.vertices) ∧ SepChain cs

theorem multicontourLoop_chain {env : Env K} (l : List (Int × Bool)) {pts : List (Point K)}
    {prior : Option Bool} (hn : pts.Nodup)
    (hp : ∀ k', prior = some k' → pts.Pairwise (keyOrder k')) {cs : List (Contour K)}
    (h : multicontourLoop env pts prior l = .ok cs) : SepChain cs := by
  induction l generalizing pts prior cs with
  | nil =>
    simp only [multicontourLoop, exc_pure_ok] at h
    subst h; trivial
  | cons a l ih =>
    obtain ⟨size, key⟩ := a
    simp only [multicontourLoop, exc_bind_ok] at h
    obtain ⟨vs, hvs, h⟩ := h
    obtain ⟨hs, hnd⟩ := keyOrder_sortedBy (k := key) hn hp
    generalize (if prior ≠ some key then sortByKey key pts else pts) = ps at hs hnd h hvs
    have hv := toVertexSequence_mem hvs
    split at h
    · rename_i h3
      simp only [exc_bind_ok, exc_pure_ok] at h
      obtain ⟨b, -, r, hr, rfl⟩ := h
      have hpos : 0 < size.toNat := by
        rcases Nat.eq_zero_or_pos size.toNat with h0 | h0
        · exfalso
          obtain ⟨v, hvm⟩ := List.exists_mem_of_length_pos (l := vs) (by omega)
          have := hv v hvm
          rw [h0] at this
          simp at this
        · exact h0
      have hb := b2i_cases b
      refine ⟨?_, ih (hnd.sublist (List.drop_sublist _ _)) ?_ hr⟩
      · refine (sorted_cut hs hpos (j := (size - b2i b).toNat) (by omega)).mono hv ?_
        intro v hvm
        obtain ⟨c, hc, hvc⟩ := List.mem_flatMap.1 hvm
        exact multicontourLoop_mem l hr c hc v hvc
      · intro k' hk'
        cases hk'
        exact hs.sublist (List.drop_sublist _ _)
    · refine ih hnd ?_ h
      intro k' hk'
      cases hk'
      exact hs

theorem holeLoop_chain {env : Env K} (l : List (Int × Bool)) {s s' : HoleState K}
    {prior : Option Bool} (hn : s.innerPoints.Nodup)
    (hp : ∀ k', prior = some k' → s.innerPoints.Pairwise (keyOrder k'))
    (h : holeLoop env s prior l = .ok s') :
    ∃ new, s'.holes = s.holes ++ new ∧ SepChain new ∧
      ∀ c ∈ new, ∀ v ∈ c.vertices, v ∈ s.innerPoints := by
  induction l generalizing s prior with
  | nil =>
    simp only [holeLoop, exc_pure_ok] at h
    subst h; exact ⟨[], by simp, trivial, by simp⟩
  | cons a l ih =>
    obtain ⟨size, key⟩ := a
    simp only [holeLoop, exc_bind_ok] at h
    obtain ⟨vs, hvs, h⟩ := h
    obtain ⟨hs, hnd⟩ := keyOrder_sortedBy (k := key) hn hp
    have hmem : ∀ v ∈ (if prior ≠ some key then sortByKey key s.innerPoints else s.innerPoints),
        v ∈ s.innerPoints := by
      intro v hv
      split at hv
      · exact (sortByKey_perm key _).mem_iff.1 hv
      · exact hv
    generalize (if prior ≠ some key then sortByKey key s.innerPoints else s.innerPoints) = ps
      at hs hnd h hvs hmem
    have hv := toVertexSequence_mem hvs
    split at h
    · rename_i h3
      split at h
      · simp only [exc_throw_ok] at h
      · simp only [exc_bind_ok] at h
        obtain ⟨b, -, h⟩ := h
        have hb := b2i_cases b
        obtain ⟨new, e, hc, hnew⟩ := ih (by exact hnd.sublist (List.drop_sublist _ _))
          (by intro k' hk'; cases hk'; exact hs.sublist (List.drop_sublist _ _)) h
        refine ⟨⟨reverseVertices vs⟩ :: new, by rw [e]; simp, ⟨?_, hc⟩, ?_⟩
        · have hpl : 0 < (ps.take size.toNat).length := by
            obtain ⟨v, hvm⟩ := List.exists_mem_of_length_pos (l := vs) (by omega)
            exact List.length_pos_of_mem (hv v hvm)
          have hlen : (ps.take size.toNat).length ≤ size.toNat := List.length_take_le _ _
          have ht : ps.take (ps.take size.toNat).length = ps.take size.toNat := by
            rw [List.length_take]
            rcases le_total size.toNat ps.length with hle | hle
            · rw [min_eq_left hle]
            · rw [min_eq_right hle, List.take_length, List.take_of_length_le hle]
          refine (sorted_cut hs hpl (j := (((ps.take size.toNat).length : Int) - b2i b).toNat)
            (by omega)).mono ?_ ?_
          · intro v hvm
            rw [ht]
            exact hv v (mem_reverseVertices.1 hvm)
          · intro v hvm
            obtain ⟨c, hc, hvc⟩ := List.mem_flatMap.1 hvm
            exact hnew c hc v hvc
        · intro c hc v hvc
          rcases List.mem_cons.1 hc with rfl | hc
          · exact hmem v (List.mem_of_mem_take (hv v (mem_reverseVertices.1 hvc)))
          · exact hmem v (List.mem_of_mem_drop (hnew c hc v hvc))
    · obtain ⟨new, e, hc, hnew⟩ := ih (by exact hnd) (by intro k' hk'; cases hk'; exact hs) h
      exact ⟨new, e, hc, fun c hc v hvc => hmem v (hnew c hc v hvc)⟩

theorem multicontour_chain {env : Env K} {x : Strategy K} {y : Option (Strategy K)} {lo : Int}
    {hi : Option Int} {clo : Int} {chi : Option Int} (h3 : 3 ≤ lo * clo) {cs : List (Contour K)}
    (h : (toMulticontourStrategy env x y lo hi clo chi).val cs) : SepChain cs := by
  obtain ⟨h, -⟩ := h
  simp only [val_bind', val_mapE] at h
  obtain ⟨pts, hp, r, -, h⟩ := h
  exact multicontourLoop_chain _ (C35_distinct x y _ _ h3 pts hp).1 (by simp) h

theorem toPolygon_chain {env : Env K} (hset : ∀ l, (env.setOrder l).Perm l)
    {pts : List (Point K)} (hn : pts.Nodup) {bs : Int} {hss : List Int} {ch : Nat → Bool}
    {p : Polygon K} (h : toPolygon env pts bs hss ch = .ok p) : SepChain p.holes := by
  simp only [toPolygon, exc_bind_ok] at h
  obtain ⟨⟨m, t⟩, hd, es, hes, hst, hh, cs, hcs, s, hs, bd, hbd, h⟩ := h
  split at h
  · simp only [exc_pure_ok] at h
    subst h
    obtain ⟨new, e, hc, -⟩ := holeLoop_chain _ ((hset _).nodup_iff.2 (hn.filter _)) (by simp) hh
    rw [List.nil_append] at e
    rw [e]; exact hc
  · simp only [exc_throw_ok] at h

theorem polygon_chain {env : Env K} (hset : ∀ l, (env.setOrder l).Perm l)
    {x : Strategy K} {y : Option (Strategy K)} {z : PolygonSizes}
    (h3 : 3 ≤ z.minSize + z.minHoleSize * z.minHoleCount) {p : Polygon K}
    (h : (toPolygonStrategy env x y z).val p) : SepChain p.holes := by
  obtain ⟨h, -⟩ := h
  simp only [val_bind', val_filter] at h
  obtain ⟨pts, ⟨hp, -⟩, h⟩ := h
  simp only [pointsToPolygonStrategy, val_mapE] at h
  obtain ⟨r, -, h⟩ := h
  exact toPolygon_chain hset (C35_distinct x y _ _ h3 pts hp).1 h

end

section
variable {K : Type} [CommRing K] [LinearOrder K] [IsStrictOrderedRing K]

/-- A ring of contours: a closed walk over contours of the list in which neighbours are different
contours and have a common point, the points of consecutive steps being different.  "Common" is meant
for the convex hulls, so it includes contours that touch, cross or contain each other.
`i j` is the place in the list of the `j`-th contour of the walk, `t j` is a point of the `j`-th
and the next contour, and the walk repeats after `k` steps. -/
structure Spec.Ring (l : List (Contour K)) (k : ℕ) (i : ℕ → ℕ) (t : ℕ → Point K) : Prop where
  pos : 0 < k
  back : ∀ j, i (j + k) = i j
  differ : ∀ j, i j ≠ i (j + 1)
  common : ∀ j, ∃ a b : Contour K, l[i j]? = some a ∧ l[i (j + 1)]? = some b ∧
    InHull a.vertices (t j) ∧ InHull b.vertices (t j)
  move : ∀ j, t j ≠ t (j + 1)

/-- No contours of the list form a ring. -/
def Spec.NoRings (l : List (Contour K)) : Prop := ∀ k i t, ¬ Ring l k i t

/-- All points that a contour has in common with contours later in the list, even in the convex
hulls, are one and the same vertex of it. -/
def Spec.OneTouch (l : List (Contour K)) : Prop :=
  ∀ (i j j' : ℕ) (a b b' : Contour K), i < j → i < j' → l[i]? = some a → l[j]? = some b → l[j']? = some b' →
    ∀ p q, InHull a.vertices p → InHull b.vertices p → InHull a.vertices q → InHull b'.vertices q →
      p = q ∧ p ∈ a.vertices ∧ p ∈ b.vertices

theorem SepChain.oneTouch {l : List (Contour K)} (h : SepChain l) : OneTouch l := by
  induction l with
  | nil => intro i j j' a b b' _ _ ha; simp at ha
  | cons c l ih =>
    obtain ⟨h1, h2⟩ := h
    rintro (_ | i) j j' a b b' hj hj' ha hb hb' p q p1 p2 q1 q2
    · obtain ⟨j, rfl⟩ := Nat.exists_eq_add_of_lt hj
      obtain ⟨j', rfl⟩ := Nat.exists_eq_add_of_lt hj'
      simp only [Nat.zero_add, List.getElem?_cons_zero, List.getElem?_cons_succ, Option.some.injEq]
        at ha hb hb'
      subst ha
      have up : ∀ {d : Contour K} {r : Point K}, d ∈ l → InHull d.vertices r →
          InHull (l.flatMap Contour.vertices) r :=
        fun hd hr => inHull_mono hr fun v hv => List.mem_flatMap.2 ⟨_, hd, hv⟩
      have mb := List.mem_of_getElem? hb
      have ht := h1.touch
      have hs : Separated c.vertices b.vertices :=
        h1.mono (fun _ => id) fun v hv => List.mem_flatMap.2 ⟨_, mb, hv⟩
      exact ⟨ht.unique p q p1 (up mb p2) q1 (up (List.mem_of_getElem? hb') q2),
        hs.touch.vertex p p1 p2⟩
    · obtain ⟨j, rfl⟩ : ∃ n, j = n + 1 := ⟨j - 1, by omega⟩
      obtain ⟨j', rfl⟩ : ∃ n, j' = n + 1 := ⟨j' - 1, by omega⟩
      simp only [List.getElem?_cons_succ] at ha hb hb'
      exact ih h2 i j j' a b b' (by omega) (by omega) ha hb hb' p q p1 p2 q1 q2

/-- What `OneTouch` means: there are no rings.  At the first contour of a ring, the points in common
with both neighbours are the same. -/
theorem Spec.OneTouch.noRings {l : List (Contour K)} (h : OneTouch l) : NoRings l := by
  rintro k i t ⟨pos, back, differ, common, move⟩
  obtain ⟨m, hm⟩ : ∃ m, ∀ j, i m ≤ i j := by
    have hne : ∃ n, ∃ j, i j = n := ⟨i 0, 0, rfl⟩
    classical
    obtain ⟨m, e⟩ := Nat.find_spec hne
    exact ⟨m, fun j => by rw [e]; exact Nat.find_min' hne ⟨j, rfl⟩⟩
  have e0 : m + k - 1 + 1 = m + k := by omega
  obtain ⟨a, b, ha, hb, h1, h2⟩ := common (m + k - 1)
  obtain ⟨c, d, hc, hd, h3, h4⟩ := common (m + k)
  have d1 := differ (m + k - 1)
  have d2 := differ (m + k)
  have m1 := hm (m + k - 1)
  have m2 := hm (m + k + 1)
  have mv := move (m + k - 1)
  rw [e0] at hb d1 mv
  have hbc : b = c := Option.some.inj (hb.symm.trans hc)
  subst hbc
  rw [back m] at hb hc d1 d2
  exact mv (h (i m) (i (m + k - 1)) (i (m + k + 1)) b a d (by omega) (by omega) hb ha hd _ _ h2 h1
    h3 h4).1

/-- C72: contours of a multicontour touch later ones only in one vertex and form no rings. -/
theorem C72_multicontours (env : Env K) (x : Strategy K) (y : Option (Strategy K)) (lo : Int)
    (hi : Option Int) (clo : Int) (chi : Option Int) (s : Made (List (Contour K)))
    (hs : multicontours env x y lo hi clo chi = .ok s) (l : List (Contour K)) (h : s.2.val l) :
    OneTouch l ∧ NoRings l := by
  simp only [multicontours, exc_bind_ok, exc_pure_ok, validate_ok] at hs
  obtain ⟨w, -, w', -, rfl⟩ := hs
  have h1 : 2 ≤ max lo 2 := le_max_right _ _
  have h2 : 3 ≤ max clo 3 := le_max_right _ _
  have hc := (multicontour_chain (by nlinarith) h).oneTouch
  exact ⟨hc, hc.noRings⟩

/-- C72: holes of a polygon touch later ones only in one vertex and form no rings. -/
theorem C72_holes (env : Env K) (hset : ∀ l, (env.setOrder l).Perm l) (x : Strategy K)
    (y : Option (Strategy K)) (lo : Int) (hi : Option Int) (nlo : Int) (nhi : Option Int)
    (hlo : Int) (hhi : Option Int) (s : Made (Polygon K))
    (hs : polygons env x y lo hi nlo nhi hlo hhi = .ok s) (p : Polygon K) (h : s.2.val p) :
    OneTouch p.holes ∧ NoRings p.holes := by
  simp only [polygons, exc_bind_ok, exc_pure_ok, validate_ok] at hs
  obtain ⟨w, -, w', -, w'', -, rfl⟩ := hs
  have h1 : 3 ≤ max lo 3 := le_max_right _ _
  have h2 : 0 ≤ max nlo 0 := le_max_right _ _
  have h3 : 3 ≤ max hlo 3 := le_max_right _ _
  have hc := (polygon_chain hset (by dsimp only; nlinarith) h).oneTouch
  exact ⟨hc, hc.noRings⟩

/-- C72: the same for the holes of each polygon of a multipolygon. -/
theorem C72_multipolygon_holes (env : Env K) (hset : ∀ l, (env.setOrder l).Perm l) (x : Strategy K)
    (y : Option (Strategy K)) (lo : Int) (hi : Option Int) (blo : Int) (bhi : Option Int)
    (nlo : Int) (h0 : 0 ≤ nlo) (nhi : Option Int) (hlo : Int) (hhi : Option Int)
    (s : Made (List (Polygon K)))
    (hs : multipolygons env x y lo hi blo bhi nlo nhi hlo hhi = .ok s) (l : List (Polygon K))
    (h : s.2.val l) : ∀ p ∈ l, OneTouch p.holes ∧ NoRings p.holes := by
  intro p hm
  rcases C57_multipolygons env x y lo hi blo bhi nlo h0 nhi hlo hhi s hs l h with
    ⟨t, ht, hp⟩ | ⟨rfl, hn, t, ht, hp⟩
  · exact C72_holes env hset x y _ _ _ _ _ _ t ht p (hp p hm)
  · have : OneTouch p.holes := by rw [hn p hm]; intro i j j' a b b' _ _ ha; simp at ha
    exact ⟨this, this.noRings⟩

/-- C72: the same for the holes of each polygon of a mix. -/
theorem C72_mix_holes (env : Env K) (hset : ∀ l, (env.setOrder l).Perm l) (x : Strategy K)
    (y : Option (Strategy K)) (a : MixArgs) (s : Made (Mix K)) (hs : mixes env x y a = .ok s)
    (g : Mix K) (h : s.2.val g) : ∀ p ∈ mixPolygons g, OneTouch p.holes ∧ NoRings p.holes := by
  obtain ⟨-, -, t, ht, hp⟩ := C57_mixes env x y a s hs g h
  exact fun p hm => C72_holes env hset x y _ _ _ _ _ _ t ht p (hp p hm)

/-- Non-vacuity for C72: the two triangles of `sample_multicontours`. -/
example : NoRings [(⟨[⟨0, 0⟩, ⟨1, 1⟩, ⟨2, 4⟩]⟩ : Contour ℤ), ⟨[⟨3, 2⟩, ⟨4, 2⟩, ⟨5, 4⟩]⟩] := by
  obtain ⟨s, hs, h⟩ := sample_multicontours
  exact (C72_multicontours _ _ _ _ _ _ _ s hs _ h).2

/-- Rings exist: three triangles around a triangle, each touching the next one in a vertex.  By C72
they are neither a multicontour nor the holes of a polygon, although each two of them touch in one
vertex only. -/
example : ∃ k i t, Ring [(⟨[⟨0, 0⟩, ⟨2, 0⟩, ⟨1, -1⟩]⟩ : Contour ℤ), ⟨[⟨2, 0⟩, ⟨1, 1⟩, ⟨2, 1⟩]⟩,
    ⟨[⟨1, 1⟩, ⟨0, 0⟩, ⟨0, 1⟩]⟩] k i t := by
  refine ⟨3, fun j => j % 3, fun j => [⟨2, 0⟩, ⟨1, 1⟩, ⟨0, 0⟩].getD (j % 3) ⟨0, 0⟩, by decide,
    fun j => by simp, fun j => ?_, fun j => ?_, fun j => ?_⟩
  · omega
  · have : j % 3 = 0 ∧ (j + 1) % 3 = 1 ∨ j % 3 = 1 ∧ (j + 1) % 3 = 2 ∨
        j % 3 = 2 ∧ (j + 1) % 3 = 0 := by omega
    rcases this with ⟨h1, h2⟩ | ⟨h1, h2⟩ | ⟨h1, h2⟩ <;> rw [h1, h2] <;>
      exact ⟨_, _, rfl, rfl, inHull_of_mem (by simp), inHull_of_mem (by simp)⟩
  · have : j % 3 = 0 ∧ (j + 1) % 3 = 1 ∨ j % 3 = 1 ∧ (j + 1) % 3 = 2 ∨
        j % 3 = 2 ∧ (j + 1) % 3 = 0 := by omega
    rcases this with ⟨h1, h2⟩ | ⟨h1, h2⟩ | ⟨h1, h2⟩ <;> rw [h1, h2] <;> simp

end
end HG
