import Verif.Props.StarSimple

/-!
# Star contours and concave contours over the rationals: concrete cases (C15, C18, C46, C66, C73–C75)

An environment over the rationals that meets all hypotheses: exact centroids, hulls and angles.
-/

set_option linter.unusedSectionVars false

namespace HG

open Strategy Spec

namespace Sample

/-- The angle function over the rationals orders by the polar angle. -/
theorem angleQ_polarOk : PolarOk angleQ := by
  intro x y x' y' h h' hlt
  have pos : ∀ a b : ℚ, (a ≠ 0 ∨ b ≠ 0) → 0 < |a| + |b| := by
    intro a b h
    have h1 := abs_nonneg a
    have h2 := abs_nonneg b
    rcases h with h | h
    · have := abs_pos.2 h; linarith
    · have := abs_pos.2 h; linarith
  -- the values on the four parts of the plane
  have low : ∀ a b : ℚ, b < 0 → angleQ b a < 0 := by
    intro a b hb
    unfold angleQ
    rw [if_neg (not_le.2 hb), sub_neg, div_lt_one (pos a b (.inr hb.ne))]
    have := abs_pos.2 hb.ne
    have := le_abs_self a
    linarith
  have right : ∀ a b : ℚ, b = 0 → 0 < a → angleQ b a = 0 := by
    rintro a b rfl ha
    unfold angleQ
    simp [abs_of_pos ha, ha.ne']
  have high : ∀ a b : ℚ, 0 < b → 0 < angleQ b a ∧ angleQ b a < 2 := by
    intro a b hb
    have hp := pos a b (.inr hb.ne')
    have := abs_pos.2 hb.ne'
    have := le_abs_self a
    have := neg_abs_le a
    have h1 : a / (|a| + |b|) < 1 := by
      rw [div_lt_one hp]; linarith
    have h2 : -1 < a / (|a| + |b|) := by
      rw [lt_div_iff₀ hp]; linarith
    unfold angleQ
    rw [if_pos hb.le]
    constructor <;> linarith
  have left : ∀ a b : ℚ, b = 0 → a < 0 → angleQ b a = 2 := by
    rintro a b rfl ha
    unfold angleQ
    simp only [le_refl, if_true, abs_of_neg ha, abs_zero, add_zero]
    rw [div_neg, div_self ha.ne]; norm_num
  have ab : ∀ a a' : ℚ, a * |a'| ≤ a' * |a| ∨ 0 < a ∧ a' < 0 := by
    intro a a'
    rcases le_or_gt a 0 with ha | ha <;> rcases le_or_gt 0 a' with ha' | ha'
    · left; nlinarith [abs_nonneg a, abs_nonneg a', mul_nonneg ha' (abs_nonneg a),
        mul_nonneg (neg_nonneg.2 ha) (abs_nonneg a')]
    · left; rw [abs_of_nonpos ha, abs_of_neg ha']; exact le_of_eq (by ring)
    · left; rw [abs_of_pos ha, abs_of_nonneg ha']; exact le_of_eq (by ring)
    · right; exact ⟨ha, ha'⟩
  have ox : y = 0 → x ≠ 0 := fun hy => h.resolve_right (by simp [hy])
  have ox' : y' = 0 → x' ≠ 0 := fun hy => h'.resolve_right (by simp [hy])
  simp only at hlt
  rcases lt_trichotomy y 0 with hy | hy | hy <;> rcases lt_trichotomy y' 0 with hy' | hy' | hy'
  · have hcr : 0 < x * y' - y * x' := by
      rcases hlt with hlt | hlt
      · exfalso; rcases hlt.2 with h | h <;> linarith
      · exact hlt.2
    unfold angleQ
    rw [if_neg (not_le.2 hy), if_neg (not_le.2 hy')]
    have : x / (|x| + |y|) < x' / (|x'| + |y'|) := by
      rw [div_lt_div_iff₀ (pos _ _ (.inr hy.ne)) (pos _ _ (.inr hy'.ne)), abs_of_neg hy,
        abs_of_neg hy']
      rcases ab x x' with hab | ⟨ha, ha'⟩
      · nlinarith
      · exfalso; nlinarith
    linarith
  · have hl := low x y hy
    rcases lt_or_gt_of_ne (ox' hy') with hx' | hx'
    · rw [left x' y' hy' hx']; linarith
    · rw [right x' y' hy' hx']; linarith
  · have := low x y hy
    have := (high x' y' hy').1
    linarith
  · exfalso
    have no : ¬ (0 < y' ∨ y' = 0 ∧ x' < 0) := fun h => h.elim (fun h => by linarith)
      fun h => by linarith [h.1]
    rcases hlt with hlt | hlt
    · exact no hlt.2
    · rcases lt_or_gt_of_ne (ox hy) with hx | hx
      · exact no (hlt.1.1 (.inr ⟨hy, hx⟩))
      · rw [hy] at hlt; nlinarith [hlt.2]
  · have hcr : ¬ 0 < x * y' - y * x' := by simp [hy, hy']
    rcases hlt with hlt | hlt
    · have hx : 0 < x := lt_of_le_of_ne (not_lt.1 fun hx => hlt.1 (.inr ⟨hy, hx⟩)) (ox hy).symm
      have hx' : x' < 0 := hlt.2.elim (fun h => absurd h (by rw [hy']; exact lt_irrefl _)) And.right
      rw [right x y hy hx, left x' y' hy' hx']; norm_num
    · exact absurd hlt.2 hcr
  · have hh := high x' y' hy'
    rcases lt_or_gt_of_ne (ox hy) with hx | hx
    · exfalso
      rcases hlt with hlt | hlt
      · exact hlt.1 (.inr ⟨hy, hx⟩)
      · rw [hy] at hlt; nlinarith [hlt.2]
    · rw [right x y hy hx]; exact hh.1
  · exfalso
    have no : ¬ (0 < y' ∨ y' = 0 ∧ x' < 0) := fun h => h.elim (fun h => by linarith)
      fun h => by linarith [h.1]
    rcases hlt with hlt | hlt
    · exact no hlt.2
    · exact no (hlt.1.1 (.inl hy))
  · have hh := high x y hy
    have hx' : x' < 0 := by
      have : 0 < y' ∨ y' = 0 ∧ x' < 0 := by
        rcases hlt with hlt | hlt
        · exact hlt.2
        · exact hlt.1.1 (.inl hy)
      exact this.elim (fun h => absurd h (by rw [hy']; exact lt_irrefl _)) And.right
    rw [left x' y' hy' hx']; exact hh.2
  · have hcr : 0 < x * y' - y * x' := by
      rcases hlt with hlt | hlt
      · exact absurd (.inl hy) hlt.1
      · exact hlt.2
    unfold angleQ
    rw [if_pos hy.le, if_pos hy'.le]
    have : x' / (|x'| + |y'|) < x / (|x| + |y|) := by
      rw [div_lt_div_iff₀ (pos _ _ (.inr hy'.ne')) (pos _ _ (.inr hy.ne')), abs_of_pos hy,
        abs_of_pos hy']
      rcases ab x' x with hab | ⟨ha, ha'⟩
      · nlinarith
      · exfalso; nlinarith
    linarith

/-- The sums of the moments in the order of the edges. -/
theorem foldl_moments (es : List (Point ℚ × Point ℚ)) (s : ℚ × ℚ × ℚ) :
    es.foldl (fun s e =>
      let d := e.1.x * e.2.y - e.1.y * e.2.x
      (s.1 + d, s.2.1 + (e.1.x + e.2.x) * d, s.2.2 + (e.1.y + e.2.y) * d)) s =
    (s.1 + (es.map fun e => e.1.x * e.2.y - e.1.y * e.2.x).sum,
      s.2.1 + (es.map fun e => (e.1.x * e.2.y - e.1.y * e.2.x) * (e.1.x + e.2.x)).sum,
      s.2.2 + (es.map fun e => (e.1.x * e.2.y - e.1.y * e.2.x) * (e.1.y + e.2.y)).sum) := by
  induction es generalizing s with
  | nil => simp
  | cons e es ih =>
    rw [List.foldl_cons, ih]
    simp only [List.map_cons, List.sum_cons, Prod.mk.injEq]
    refine ⟨by ring, by ring, by ring⟩

theorem zip_sum (l : List (Point ℚ)) (f : Point ℚ → Point ℚ → ℚ) :
    ((List.zip l (l.rotate 1)).map fun e => f e.1 e.2).sum =
      ∑ i ∈ Finset.range l.length, f (cyc l i) (cyc l (i + 1)) := by
  rw [Finset.sum_range, ← List.sum_ofFn]
  congr 1
  apply List.ext_getElem
  · simp
  · intro i h1 h2
    simp only [List.length_ofFn] at h2
    have h0 : 0 < l.length := by omega
    simp only [List.getElem_map, List.getElem_zip, List.getElem_rotate, List.getElem_ofFn, cyc]
    rw [List.getD_eq_getElem _ _ (Nat.mod_lt _ h0), List.getD_eq_getElem _ _ (Nat.mod_lt _ h0)]
    simp only [Nat.mod_eq_of_lt h2]

/-- The centroids of the environment over the rationals are correct. -/
theorem centroid_ok : CentroidOk centroid := by
  intro l hl
  have hm := foldl_moments (List.zip l (l.rotate 1)) (0, 0, 0)
  have hs : shoelace l = ∑ i ∈ Finset.range l.length,
      ((cyc l i).x * (cyc l (i + 1)).y - (cyc l i).y * (cyc l (i + 1)).x) := by
    rw [← zip_sum l fun p q => p.x * q.y - p.y * q.x]
    unfold shoelace
    rw [← List.map_uncurry_zip_eq_zipWith]
    congr 1
    apply List.map_congr_left
    intro e _
    simp only [Function.uncurry]; ring
  rw [hs] at hl
  have e : moments l = (List.zip l (l.rotate 1)).foldl (fun s e =>
      let d := e.1.x * e.2.y - e.1.y * e.2.x
      (s.1 + d, s.2.1 + (e.1.x + e.2.x) * d, s.2.2 + (e.1.y + e.2.y) * d)) (0, 0, 0) := rfl
  rw [← e, zip_sum l fun p q => p.x * q.y - p.y * q.x,
    zip_sum l fun p q => (p.x * q.y - p.y * q.x) * (p.x + q.x),
    zip_sum l fun p q => (p.x * q.y - p.y * q.x) * (p.y + q.y)] at hm
  unfold CentroidOf centroid
  rw [hm]
  simp only [zero_add]
  constructor <;> field_simp

/-- The test of the hull. -/
def strictPopQ (a b p : Point ℚ) : Bool := !decide (0 < cross a b p)

/-- The convex hull of rational points by a monotone scan. -/
def hullQ (pts : List (Point ℚ)) : List (Point ℚ) := hullG strictPopQ (pySort Point.leB pts).dedup

theorem hullQ_ok (pts : List (Point ℚ)) : HullOk (hullQ pts) pts := by
  have turn : ∀ a b p : Point ℚ, strictPopQ a b p = false → 0 < area2 a b p := fun a b p h => by
    simpa [strictPopQ, cross_eq_area2] using h
  have ok : PopTest strictPopQ :=
    ⟨fun a b p h => by simpa [strictPopQ, cross_eq_area2] using h, fun a b p h => (turn a b p h).le⟩
  have hmem : ∀ p, p ∈ (pySort Point.leB pts).dedup ↔ p ∈ pts := fun p => by
    rw [List.mem_dedup]; exact (pySort_perm _ _).mem_iff
  obtain ⟨A, B, h⟩ := exists_functional pts
  have h1 : (pySort Point.leB pts).dedup.Pairwise fun p q => Point.leB p q = true :=
    (pySort_sorted Point.leB leB_total leB_trans pts).sublist (List.dedup_sublist _)
  have h2 : (pySort Point.leB pts).dedup.Nodup := List.nodup_dedup _
  have h3 : (pySort Point.leB pts).dedup.Pairwise LexLt :=
    (List.Pairwise.and h1 h2).imp fun ⟨a, b⟩ => leB_lexLt a b
  have hs : (pySort Point.leB pts).dedup.Pairwise fun u v => lin A B u < lin A B v := by
    rw [List.pairwise_iff_getElem] at h3 ⊢
    intro i j hi hj hij
    exact h _ ((hmem _).1 (List.getElem_mem hi)) _ ((hmem _).1 (List.getElem_mem hj))
      (h3 i j hi hj hij)
  unfold hullQ
  by_cases hl : 2 ≤ (pySort Point.leB pts).dedup.length
  · obtain ⟨g1, g2, g3⟩ := hullG_left ok _ hl hs
    exact ⟨fun p hp => (hmem p).1 (g1 p hp), hullG_strict ok turn _ hl hs,
      fun i hi q hq => g3 i hi q ((hmem q).2 hq), fun _ _ _ _ _ => g2⟩
  · have : hullG strictPopQ (pySort Point.leB pts).dedup = [] := by
      generalize (pySort Point.leB pts).dedup = s at hl
      match s with
      | [] => rfl
      | [p] => rfl
      | _ :: _ :: _ => simp at hl
    rw [this]
    refine ⟨by simp, ⟨by simp, by simp⟩, by simp, ?_⟩
    intro p hp q hq hne
    exfalso
    have hp' := (hmem p).2 hp
    have hq' := (hmem q).2 hq
    generalize (pySort Point.leB pts).dedup = s at hl hp' hq'
    match s with
    | [] => simp at hp'
    | [r] => simp at hp' hq'; exact hne (hp'.trans hq'.symm)
    | _ :: _ :: _ => simp at hl

/-- An environment over the rationals with exact centroids, hulls and angles. -/
def exactEnv : Env ℚ := { envQ with convexHull := hullQ }

/-- The coordinates of `genXs` and `genYs`. -/
def genXsQ : List ℚ := [0, 1, 2, 3, 4, 5, 6]
/-- See `genXsQ`. -/
def genYsQ : List ℚ := [1, 10, 100, 1000, 10000, 100000, 1000000]
/-- The points `(xs[i], ys[i² mod 7])`. -/
def genPointsQ : List (Point ℚ) :=
  [⟨0, 1⟩, ⟨1, 10⟩, ⟨2, 10000⟩, ⟨3, 100⟩, ⟨4, 100⟩, ⟨5, 10000⟩, ⟨6, 10⟩]

theorem gen_genericQ : GenericCoords (sampledFrom genXsQ) (some (sampledFrom genYsQ)) := by
  have ex : genXsQ = genXs.map fun z : ℤ => (z : ℚ) := by simp [genXsQ, genXs]
  have ey : genYsQ = genYs.map fun z : ℤ => (z : ℚ) := by simp [genYsQ, genYs]
  rw [ex, ey]
  have key : ∀ p : Point ℚ, Drawn (sampledFrom (genXs.map fun z : ℤ => (z : ℚ)))
      (some (sampledFrom (genYs.map fun z : ℤ => (z : ℚ)))) p →
      ∃ q : Point ℤ, Drawn (sampledFrom genXs) (some (sampledFrom genYs)) q ∧ p = ⟨q.x, q.y⟩ := by
    rintro ⟨a, b⟩ ⟨ha, hb⟩
    obtain ⟨a', ha', rfl⟩ := List.mem_map.1 ha
    obtain ⟨b', hb', rfl⟩ := List.mem_map.1 hb
    exact ⟨⟨a', b'⟩, ⟨ha', hb'⟩, rfl⟩
  intro a b c ha hb hc hab hac hbc hcol
  obtain ⟨a, ha', rfl⟩ := key a ha
  obtain ⟨b, hb', rfl⟩ := key b hb
  obtain ⟨c, hc', rfl⟩ := key c hc
  have ne : ∀ p q : Point ℤ, (⟨p.x, p.y⟩ : Point ℚ) ≠ ⟨q.x, q.y⟩ → p ≠ q := by
    rintro p q h rfl; exact h rfl
  have := gen_generic a b c ha' hb' hc' (ne _ _ hab) (ne _ _ hac) (ne _ _ hbc) (by
    unfold Collinear area2 at hcol ⊢
    simp only at hcol
    exact_mod_cast hcol)
  simpa using this

theorem genPointsQ_drawn (lo : Int) (hi : Option Int) (p : Int) (h1 : toNextPrime lo = .ok p)
    (h2 : p ≤ 7) (h3 : leOpt 7 (maxOpt p hi)) :
    (toGeneralPositionStrategy (sampledFrom genXsQ) (some (sampledFrom genYsQ)) lo hi).val
      genPointsQ := by
  simp only [toGeneralPositionStrategy, val_bind, val_ofExcept, val_prod, val_uniqueLists]
  refine ⟨p, h1, (genXsQ, genYsQ), ⟨⟨fun a ha => ha, by decide +kernel, h2, h3⟩,
    ⟨fun a ha => ha, by decide +kernel, h2, h3⟩⟩, ?_⟩
  simp only [coordinatePairToPoints, val_bind, val_ofExcept]
  refine ⟨7, by decide +kernel, Or.inl ?_⟩
  simp only [val_mapE, val_bind', val_integersFrom, val_integers]
  exact ⟨1, ⟨0, le_refl _, by decide, by decide⟩, by decide +kernel⟩

/-- A contour with seven vertices that is not convex. -/
def concaveQ : List (Point ℚ) :=
  [⟨0, 1⟩, ⟨6, 10⟩, ⟨4, 100⟩, ⟨5, 10000⟩, ⟨2, 10000⟩, ⟨3, 100⟩, ⟨1, 10⟩]

theorem concaveQ_drawn : ∃ s, concaveContours exactEnv (sampledFrom genXsQ)
      (some (sampledFrom genYsQ)) = .ok s ∧ s.2.val ⟨concaveQ⟩ := by
  refine ⟨_, rfl, _, ⟨Or.inr ⟨?_, by decide⟩, by decide +kernel⟩, rfl⟩
  rw [val_mapE]
  exact ⟨(genPointsQ, 7), ⟨genPointsQ, genPointsQ_drawn _ none 5 (by decide +kernel) (by norm_num)
    trivial, rfl, by decide, by decide⟩, by decide +kernel⟩

theorem concaveQ_centroid : CentroidOf concaveQ (exactEnv.regionCentroid concaveQ) :=
  centroid_ok _ (by decide +kernel)

/-- Three segments, all of them edges of `concaveQ`. -/
theorem segmentsQ_drawn : ∃ s, multisegments exactEnv (sampledFrom genXsQ)
      (some (sampledFrom genYsQ)) = .ok s ∧
    s.2.val [⟨⟨4, 100⟩, ⟨5, 10000⟩⟩, ⟨⟨0, 1⟩, ⟨6, 10⟩⟩, ⟨⟨1, 10⟩, ⟨0, 1⟩⟩] := by
  refine ⟨_, rfl, Or.inl (Or.inr ?_)⟩
  refine ⟨contourEdges concaveQ, ⟨concaveQ, Or.inr (Or.inr ⟨?_, by decide⟩), rfl⟩, ?_⟩
  · rw [val_mapE]
    exact ⟨(genPointsQ, 7), ⟨genPointsQ, genPointsQ_drawn _ none 5 (by decide +kernel) (by norm_num)
      trivial, rfl, by decide, by decide⟩, by decide +kernel⟩
  · refine ⟨([⟨⟨4, 100⟩, ⟨5, 10000⟩⟩, ⟨⟨0, 1⟩, ⟨6, 10⟩⟩, ⟨⟨1, 10⟩, ⟨0, 1⟩⟩, ⟨⟨6, 10⟩, ⟨4, 100⟩⟩,
      ⟨⟨5, 10000⟩, ⟨2, 10000⟩⟩, ⟨⟨2, 10000⟩, ⟨3, 100⟩⟩, ⟨⟨3, 100⟩, ⟨1, 10⟩⟩], 3),
      ⟨?_, by decide +kernel, by decide +kernel⟩, by decide⟩
    rw [val_permutations]
    decide +kernel

/-- A mix of one point and two segments. -/
theorem mixQ_drawn : ∃ s, mixes exactEnv (sampledFrom genXsQ) (some (sampledFrom genYsQ))
      { maxPolygonsSize := some 0 } = .ok s ∧
    s.2.val ⟨.multipoint [⟨0, 1⟩], .multisegment [⟨⟨1, 1⟩, ⟨2, 10⟩⟩, ⟨⟨2, 100⟩, ⟨3, 1⟩⟩], .empty⟩ := by
  refine ⟨_, rfl, ?_⟩
  refine Or.inl ⟨[0, 1, 2, 3, 4], ⟨fun a ha => ?_, by decide +kernel, by decide +kernel,
    trivial⟩, ?_⟩
  · rw [val_sampledFrom]; revert a; decide +kernel
  simp only [coordsToMix, val_bind, val_permutations, val_pure]
  refine ⟨([1], [2, 2], []), ?_, [(.points, 1), (.segments, 2), (.segments, 2)], by decide, ?_⟩
  · simp only [toPointCounts, val_bind, val_sampledFrom, val_pure]
    refine ⟨0, ⟨by decide, by decide⟩, 0, by simp, [], by simp, 4, by decide, [1], ?_, [1, 1], ?_, rfl⟩
    · exact ⟨1, ⟨by decide, by decide⟩, [], rfl, rfl⟩
    · exact ⟨1, ⟨by decide, by decide⟩, [1], ⟨1, ⟨by decide, by decide⟩, [], rfl, rfl⟩, rfl⟩
  · refine ⟨⟨[⟨0, 1⟩], [⟨⟨1, 1⟩, ⟨2, 10⟩⟩, ⟨⟨2, 100⟩, ⟨3, 1⟩⟩], []⟩, ?_, rfl⟩
    simp only [mixLoop, val_bind]
    refine ⟨⟨[⟨0, 1⟩], [], []⟩, ?_, false, by rw [val_ofExcept]; decide +kernel,
      ⟨[⟨0, 1⟩], [⟨⟨1, 1⟩, ⟨2, 10⟩⟩], []⟩, ?_, true, by rw [val_ofExcept]; decide +kernel,
      ⟨[⟨0, 1⟩], [⟨⟨1, 1⟩, ⟨2, 10⟩⟩, ⟨⟨2, 100⟩, ⟨3, 1⟩⟩], []⟩, ?_, false,
      by rw [val_ofExcept]; decide +kernel, rfl⟩
    · simp only [runDrawer, drawPoints, val_bind, val_pure]
      refine ⟨[⟨0, 1⟩], ⟨?_, by decide, by decide, by simp⟩, rfl⟩
      simp [toPointStrategy, yOr, genYsQ]
      decide +kernel
    · simp only [runDrawer, drawSegments, val_bind, val_pure]
      refine ⟨[⟨⟨1, 1⟩, ⟨2, 10⟩⟩], ⟨⟨⟨1, 1⟩, ⟨2, 10⟩⟩, ⟨(⟨1, 1⟩, ⟨2, 10⟩), ⟨?_, by decide⟩, rfl⟩, rfl⟩, rfl⟩
      simp [toPointStrategy, yOr, genYsQ]
      decide +kernel
    · simp only [runDrawer, drawSegments, val_bind, val_pure]
      refine ⟨[⟨⟨2, 100⟩, ⟨3, 1⟩⟩], ⟨⟨⟨2, 100⟩, ⟨3, 1⟩⟩, ⟨(⟨2, 100⟩, ⟨3, 1⟩), ⟨?_, by decide⟩, rfl⟩, rfl⟩, rfl⟩
      simp [toPointStrategy, yOr, genYsQ]
      decide +kernel

end Sample

section
open Sample

/-- The clockwise triangle of `C15_star_contours_clockwise` meets the hypotheses of C66. -/
example : (StrictlyConvex [⟨0, 0⟩, ⟨3, 10⟩, (⟨7, 5⟩ : Point ℚ)] ∨
      StrictlyConvex [⟨0, 0⟩, ⟨3, 10⟩, (⟨7, 5⟩ : Point ℚ)].reverse) ∧
    SimpleContour [⟨0, 0⟩, ⟨3, 10⟩, (⟨7, 5⟩ : Point ℚ)] := by
  have hc : CentroidOf [⟨0, 0⟩, ⟨3, 10⟩, (⟨7, 5⟩ : Point ℚ)]
      (envQ.regionCentroid [⟨0, 0⟩, ⟨3, 10⟩, (⟨7, 5⟩ : Point ℚ)]) := centroid_ok _ (by decide +kernel)
  exact ⟨C66_star_convex_centroid envQ angleQ_polarOk _ _ 3 none _ rfl ⟨_⟩ ⟨_, cwStar, rfl⟩ hc,
    (C15_star_contours_partial envQ angleQ_polarOk _ _ 3 none _ rfl ⟨_⟩ ⟨_, cwStar, rfl⟩ hc).2.1⟩

/-- The point `(11/5, 5)`, on the segment from the centroid `(10/3, 5)` of this triangle to a point of
its first edge. -/
example : ¬ Collinear (⟨0, 0⟩ : Point ℚ) ⟨3, 10⟩ ⟨11 / 5, 5⟩ := by
  have e : envQ.regionCentroid [⟨0, 0⟩, ⟨3, 10⟩, (⟨7, 5⟩ : Point ℚ)] = ⟨10 / 3, 5⟩ := by decide +kernel
  have hc : CentroidOf [⟨0, 0⟩, ⟨3, 10⟩, (⟨7, 5⟩ : Point ℚ)]
      (envQ.regionCentroid [⟨0, 0⟩, ⟨3, 10⟩, (⟨7, 5⟩ : Point ℚ)]) := centroid_ok _ (by decide +kernel)
  have e0 : cyc [⟨0, 0⟩, ⟨3, 10⟩, (⟨7, 5⟩ : Point ℚ)] 0 = ⟨0, 0⟩ := rfl
  have e1 : cyc [⟨0, 0⟩, ⟨3, 10⟩, (⟨7, 5⟩ : Point ℚ)] 1 = ⟨3, 10⟩ := rfl
  exact C16_star_shaped envQ angleQ_polarOk _ _ 3 none _ rfl ⟨_⟩ ⟨_, cwStar, rfl⟩ _ rfl hc 0
    ⟨11 / 5, 5⟩ (21 / 55) (17 / 55) (17 / 55) (by norm_num) (by norm_num) (by norm_num) (by norm_num)
    (by rw [e, e0, e1]; norm_num) (by rw [e, e0, e1]; norm_num) 0 (by decide)

/-- A concave contour over the rationals meets all hypotheses. -/
example : GoodBorder concaveQ ∧ HasCorner concaveQ concaveQ ∧ TwoFarthest concaveQ concaveQ ∧
    Roomy (sampledFrom genXsQ) (some (sampledFrom genYsQ)) 7 concaveQ ∧
    ∀ r, starContours exactEnv (sampledFrom genXsQ) (some (sampledFrom genYsQ)) = .ok r →
      ¬ r.2.val ⟨concaveQ⟩ := by
  obtain ⟨s, hs, h⟩ := concaveQ_drawn
  have hc := concaveQ_centroid
  exact ⟨C15_concave_contours_centroid_partial exactEnv coins_sums angleQ_polarOk _ _ gen_genericQ _ _
      s hs _ h hc,
    C73_concave_contours_centroid exactEnv coins_sums angleQ_polarOk _ _ gen_genericQ _ _ s hs _ h hc,
    C74_concave_contours_centroid exactEnv coins_sums angleQ_polarOk _ _ gen_genericQ _ _ s hs _ h hc,
    C75_concave_contours_centroid exactEnv coins_sums angleQ_polarOk _ _ gen_genericQ _ _ s hs _ h hc,
    fun r hr => C46_concave_not_star exactEnv angleQ_polarOk _ _ _ _ s hs _ h hc _ _ _ _ r hr⟩

/-- `contours` over the rationals. -/
example : SimpleContour concaveQ := by
  refine (C15_contours_centroid_partial exactEnv coins_sums hullQ_ok angleQ_polarOk
    (sampledFrom genXsQ) (some (sampledFrom genYsQ)) gen_genericQ 3 none _ rfl ⟨concaveQ⟩
    ⟨concaveQ, Or.inr (Or.inr ⟨?_, by decide⟩), rfl⟩ concaveQ_centroid).2.1
  rw [val_mapE]
  exact ⟨(genPointsQ, 7), ⟨genPointsQ, genPointsQ_drawn _ none 5 (by decide +kernel) (by norm_num)
    trivial, rfl, by decide, by decide⟩, by decide +kernel⟩

/-- A multisegment over the rationals. -/
example : ([⟨⟨4, 100⟩, ⟨5, 10000⟩⟩, ⟨⟨0, 1⟩, ⟨6, 10⟩⟩, ⟨⟨1, 10⟩, ⟨0, 1⟩⟩] :
      List (Segment ℚ)).Pairwise NoCross ∨
    ∃ r c, starContours exactEnv (sampledFrom genXsQ) (some (sampledFrom genYsQ)) (max 0 3) none =
        .ok r ∧ r.2.val c ∧ shoelace c.vertices = 0 ∧
      ∀ t ∈ ([⟨⟨4, 100⟩, ⟨5, 10000⟩⟩, ⟨⟨0, 1⟩, ⟨6, 10⟩⟩, ⟨⟨1, 10⟩, ⟨0, 1⟩⟩] : List (Segment ℚ)),
        ∃ i < c.vertices.length, t = edge c.vertices i := by
  obtain ⟨s, hs, h⟩ := segmentsQ_drawn
  exact C18_multisegments_centroid_partial exactEnv coins_sums hullQ_ok
    (fun l _ h => absurd h (by simp [exactEnv, envQ])) angleQ_polarOk centroid_ok _ _ gen_genericQ _ _
    s hs _ h

/-- A mix over the rationals. -/
example : ([⟨⟨1, 1⟩, ⟨2, 10⟩⟩, ⟨⟨2, 100⟩, ⟨3, 1⟩⟩] : List (Segment ℚ)).Pairwise NoCross ∨
    ∃ n r c, starContours exactEnv (sampledFrom genXsQ) (some (sampledFrom genYsQ)) (max n 3) (some n) =
        .ok r ∧ r.2.val c ∧ shoelace c.vertices = 0 := by
  obtain ⟨s, hs, h⟩ := mixQ_drawn
  exact C30_segments_generic exactEnv coins_sums hullQ_ok (fun l => List.Perm.refl l)
    (fun l _ h => absurd h (by simp [exactEnv, envQ])) angleQ_polarOk centroid_ok _ _ gen_genericQ _ s hs
    _ h

/-- The turns of `concaveQ`. -/
example : (¬ StrictlyConvex concaveQ ∧ ¬ StrictlyConvex concaveQ.reverse) ∧
    (∃ i < concaveQ.length, 0 < area2 (cyc concaveQ i) (cyc concaveQ (i + 1)) (cyc concaveQ (i + 2))) ∧
    ∃ i < concaveQ.length, area2 (cyc concaveQ i) (cyc concaveQ (i + 1)) (cyc concaveQ (i + 2)) < 0 := by
  obtain ⟨s, hs, h⟩ := concaveQ_drawn
  exact ⟨C12_not_convex exactEnv _ _ _ _ s hs _ h,
    C12_left_and_right exactEnv coins_sums _ _ gen_genericQ _ _ s hs _ h⟩

end
end HG
