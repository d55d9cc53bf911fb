import Verif.Delaunay.HoleFree
import Verif.Props.Borders

/-!
# C24: the holes of a generated polygon lie inside its border
-/

set_option linter.unusedSectionVars false

namespace HG

open Strategy Spec

section
variable {K : Type} [CommRing K] [LinearOrder K] [IsStrictOrderedRing K]

/-- Border and holes of a polygon are apart: an edge of the border and an edge of a hole have no
common point, on the coordinate grid or off it, and the border goes exactly once counterclockwise
around every point of a hole edge. -/
structure Spec.HolesInside (p : Polygon K) : Prop where
  apart : ∀ c ∈ p.holes, ∀ i j, ¬ Meets (edge p.border.vertices i) (edge c.vertices j)
  inside : ∀ c ∈ p.holes, ∀ j q, OnSeg (edge c.vertices j) q → winding p.border.vertices q = 1

theorem PolyRun.holesInside {env : Env K} (near : FindsNearest env.nearestSegment)
    (hset : ∀ l, (env.setOrder l).Perm l) {pts : List (Point K)} (hn : pts.Nodup) {hss : List Int}
    {ch : Nat → Bool} {p : Polygon K} (h : PolyRun env pts hss ch p)
    (hne : ∀ c ∈ p.holes, c.vertices ≠ []) : HolesInside p :=
  ⟨fun c hc i j => (h.around near hset hn c hc _ (mem_contourEdges (hne c hc) j)).1 i,
    fun c hc j => (h.around near hset hn c hc _ (mem_contourEdges (hne c hc) j)).2⟩

/-- What `Meets` says about points: segments with a common point meet. -/
theorem Spec.meets_common {s t : Segment K} {p : Point K} (hs : OnSeg s p) (ht : OnSeg t p) :
    Meets s t := meets_of_common hs ht

/-- C24: border and holes of a generated polygon do not meet, and the holes are inside. -/
theorem C24_holes_inside (env : Env K) (hcoin : Sums env.coinChange)
    (near : FindsNearest env.nearestSegment) (hset : ∀ l, (env.setOrder l).Perm l) (x : Strategy K)
    (y : Option (Strategy K)) (lo : Int) (hi : Option Int) (nlo : Int) (nhi : Option Int)
    (hlo : Int) (hhi : Option Int) (s : Made (Polygon K))
    (hs : polygons env x y lo hi nlo nhi hlo hhi = .ok s) (p : Polygon K) (h : s.2.val p) :
    HolesInside p := by
  have hsz := C21_polygon_sizes env x y lo hi nlo nhi hlo hhi s hs p h
  simp only [polygons, exc_bind_ok, exc_pure_ok, validate_ok] at hs
  obtain ⟨w, -, w', -, w'', -, rfl⟩ := hs
  have h1 : 3 ≤ max lo 3 := le_max_right _ _
  have h2 : 0 ≤ max nlo 0 := le_max_right _ _
  have h3 : 3 ≤ max hlo 3 := le_max_right _ _
  obtain ⟨pts, hss, ch, hn, -, hr⟩ := polygon_run hcoin (by dsimp only; nlinarith) h
  refine hr.holesInside near hset hn fun c hc hnil => ?_
  have := (hsz.2.2 c hc).1
  rw [hnil] at this
  simp at this

/-- C24 for one polygon of the polygon strategy. -/
theorem polygon_holesInside {env : Env K} (hcoin : Sums env.coinChange)
    (near : FindsNearest env.nearestSegment) (hset : ∀ l, (env.setOrder l).Perm l) {x : Strategy K}
    {y : Option (Strategy K)} {z : PolygonSizes} (h1 : 3 ≤ z.minHoleSize)
    (h3 : 3 ≤ z.minSize + z.minHoleSize * z.minHoleCount) {p : Polygon K}
    (h : (toPolygonStrategy env x y z).val p) : HolesInside p := by
  obtain ⟨pts, hss, ch, hn, -, hr⟩ := polygon_run hcoin h3 h
  refine hr.holesInside near hset hn fun c hc hnil => ?_
  have := ((polygon_sizes h).2.2 c hc).1
  rw [hnil] at this
  simp only [List.length_nil] at this
  omega

/-- C24: the same for the polygons of a multipolygon. -/
theorem C24_multipolygon_holes (env : Env K) (hcoin : Sums env.coinChange)
    (near : FindsNearest env.nearestSegment) (hset : ∀ l, (env.setOrder l).Perm l) (x : Strategy K)
    (y : Option (Strategy K)) (lo : Int) (hi : Option Int) (blo : Int) (bhi : Option Int)
    (nlo : Int) (hnlo : 0 ≤ nlo) (nhi : Option Int) (hlo : Int) (hhi : Option Int)
    (s : Made (List (Polygon K)))
    (hs : multipolygons env x y lo hi blo bhi nlo nhi hlo hhi = .ok s) (l : List (Polygon K))
    (h : s.2.val l) : ∀ p ∈ l, HolesInside p := by
  simp only [multipolygons, exc_bind_ok, exc_pure_ok, validate_ok] at hs
  obtain ⟨w, -, w', -, w'', -, w''', -, s, hs, rfl⟩ := hs
  have h1 : 3 ≤ max blo 3 := le_max_right _ _
  have h3 : 3 ≤ max hlo 3 := le_max_right _ _
  have key : ∀ x y p, (toPolygonStrategy env x y
      { minSize := max blo 3, maxSize := bhi, minHoleCount := nlo, maxHoleCount := nhi,
        minHoleSize := max hlo 3, maxHoleSize := hhi }).val p → HolesInside p :=
    fun x y p hp => polygon_holesInside hcoin near hset h3 (by dsimp only; nlinarith) hp
  by_cases h0 : nlo = 0
  · simp only [toMultipolygonStrategy, exc_bind_ok] at hs
    obtain ⟨mp, -, hs⟩ := hs
    rw [if_pos h0] at hs
    simp only [exc_pure_ok] at hs
    subst hs
    rcases h with h | h
    · simp only [val_map] at h
      obtain ⟨cs, -, rfl⟩ := h
      intro p hp
      obtain ⟨c, -, rfl⟩ := List.mem_map.1 hp
      exact ⟨by simp, by simp⟩
    · rcases h with ⟨cs, -, h⟩ | ⟨cs, -, h⟩
      all_goals
        simp only [coordsToPolygons, val_bind] at h
        obtain ⟨n, -, h⟩ := h
        exact slabLoop_polygons key _ _ h
  · exact multipolygon_polygons (by dsimp only; omega) key hs h

end

/-! ## Non-vacuity -/

theorem Sample.properCross_iff (s t : Segment ℤ) : segmentsProperCross s t = true ↔ ProperCross s t := by
  have key : ∀ a b c d : Point ℤ, (orient a b c ≠ .collinear ∧ orient a b d ≠ .collinear ∧
      orient a b c ≠ orient a b d) ↔ area2 a b c * area2 a b d < 0 := by
    intro a b c d
    refine ⟨fun ⟨h1, h2, h3⟩ => ?_, orient_ne_of⟩
    rw [Ne, orient_col_iff, cross_area2] at h1 h2
    rcases lt_or_gt_of_ne h1 with k1 | k1 <;> rcases lt_or_gt_of_ne h2 with k2 | k2
    · exact absurd (((orient_cw_iff a b c).2 (by rw [cross_area2]; exact k1)).trans
        ((orient_cw_iff a b d).2 (by rw [cross_area2]; exact k2)).symm) h3
    · exact mul_neg_of_neg_of_pos k1 k2
    · exact mul_neg_of_pos_of_neg k1 k2
    · exact absurd (((orient_ccw_iff a b c).2 (by rw [cross_area2]; exact k1)).trans
        ((orient_ccw_iff a b d).2 (by rw [cross_area2]; exact k2)).symm) h3
  unfold segmentsProperCross ProperCross
  rw [← key, ← key]
  simp only [Bool.and_eq_true, bne_iff_ne]
  tauto

theorem Sample.onSegment_iff (s : Segment ℤ) (p : Point ℤ) : Sample.onSegment s p = true ↔ OnSeg s p := by
  unfold Sample.onSegment OnSeg Collinear
  rw [cross_area2]
  simp only [Bool.and_eq_true, decide_eq_true_eq]

theorem Sample.meet_iff (s t : Segment ℤ) : Sample.meet s t = true ↔ Meets s t := by
  unfold Sample.meet Meets
  simp only [Bool.or_eq_true, Sample.properCross_iff, Sample.onSegment_iff]
  tauto

theorem Sample.nearest_finds : FindsNearest Sample.nearest := by
  intro l s hl
  unfold Sample.nearest
  cases hf : l.find? (Sample.meet s) with
  | some n =>
    have h1 := List.find?_some hf
    exact ⟨List.mem_of_find?_eq_some hf, fun _ => (Sample.meet_iff s n).1 h1⟩
  | none =>
    rw [List.find?_eq_none] at hf
    refine ⟨?_, fun ⟨t, ht, hm⟩ => absurd ((Sample.meet_iff s t).2 hm) (hf t ht)⟩
    cases l with
    | nil => exact absurd rfl hl
    | cons a l => simp

/-- C24 applied to `sample_polygons`: the triangle is inside the quadrangle. -/
example : HolesInside
    (⟨⟨[⟨0, 0⟩, ⟨6, 1⟩, ⟨5, 4⟩, ⟨2, 4⟩]⟩, [⟨[⟨1, 1⟩, ⟨3, 2⟩, ⟨4, 2⟩]⟩]⟩ : Polygon ℤ) := by
  obtain ⟨s, hs, h⟩ := sample_polygons
  exact C24_holes_inside _ Sample.coins_sums Sample.nearest_finds (fun l => List.Perm.refl _) _ _ _ _ _ _
    _ _ s hs _ h

/-- The specification is not vacuous: it fails when the hole sticks out. -/
example : ¬ HolesInside
    (⟨⟨[⟨0, 0⟩, ⟨6, 1⟩, ⟨5, 4⟩, ⟨2, 4⟩]⟩, [⟨[⟨1, 1⟩, ⟨3, 2⟩, ⟨8, 2⟩]⟩]⟩ : Polygon ℤ) := by
  intro h
  have := h.inside _ (List.mem_singleton.2 rfl) 1 ⟨8, 2⟩ (by
    unfold OnSeg Collinear; decide)
  revert this; decide

end HG
