import Verif.Props.Generic
import Verif.Props.Simplicity
import Verif.Props.HolesInside

/-!
# C14, C15, C18, C22: concrete cases, and what fails with slanted collinear triples
-/

set_option linter.unusedSectionVars false

namespace HG

open Strategy Spec

section
variable {K : Type} [CommRing K] [LinearOrder K] [IsStrictOrderedRing K]

theorem onSeg_of_lex {a b p : Point K} (hab : LexLt a b) (hc : area2 a b p = 0)
    (h1 : p = a ∨ LexLt a p) (h2 : p = b ∨ LexLt p b) : OnSeg ⟨a, b⟩ p := by
  have x1 : a.x ≤ p.x := by
    rcases h1 with rfl | h | h
    · exact le_refl _
    · exact h.le
    · exact h.1.le
  have x2 : p.x ≤ b.x := by
    rcases h2 with rfl | h | h
    · exact le_refl _
    · exact h.le
    · exact h.1.le
  refine ⟨hc, (min_le_left _ _).trans x1, x2.trans (le_max_right _ _), ?_, ?_⟩
  all_goals
    dsimp only
    unfold area2 at hc
    rcases hab with hx | ⟨hx, hy⟩
    · have hpos := sub_pos.2 hx
      have m1 := sub_nonneg.2 x1
      have m2 := sub_nonneg.2 x2
      rcases le_total a.y b.y with hy | hy
      · have m3 := sub_nonneg.2 hy
        have e1 : 0 ≤ (b.x - a.x) * (p.y - a.y) := by
          have := mul_nonneg m3 m1; linarith
        have e2 : 0 ≤ (b.x - a.x) * (b.y - p.y) := by
          have := mul_nonneg m3 m2; nlinarith
        have f1 := nonneg_of_mul_nonneg_right e1 hpos
        have f2 := nonneg_of_mul_nonneg_right e2 hpos
        first
          | rw [min_eq_left hy]; linarith
          | rw [max_eq_right hy]; linarith
      · have m3 := sub_nonneg.2 hy
        have e1 : 0 ≤ (b.x - a.x) * (a.y - p.y) := by
          have := mul_nonneg m3 m1; linarith
        have e2 : 0 ≤ (b.x - a.x) * (p.y - b.y) := by
          have := mul_nonneg m3 m2; nlinarith
        have f1 := nonneg_of_mul_nonneg_right e1 hpos
        have f2 := nonneg_of_mul_nonneg_right e2 hpos
        first
          | rw [min_eq_right hy]; linarith
          | rw [max_eq_left hy]; linarith
    · have hpx : p.x = a.x := le_antisymm (by rw [hx]; exact x2) x1
      have y1 : a.y ≤ p.y := by
        rcases h1 with rfl | h | h
        · exact le_refl _
        · exact absurd hpx h.ne'
        · exact h.2.le
      have y2 : p.y ≤ b.y := by
        rcases h2 with rfl | h | h
        · exact le_refl _
        · exact absurd (hpx.trans hx) h.ne
        · exact h.2.le
      first
        | exact (min_le_left _ _).trans y1
        | exact y2.trans (le_max_right _ _)

theorem onSeg_of_lo_hi {s : Segment K} {p : Point K} (hs : s.start ≠ s.stop)
    (hc : area2 s.start s.stop p = 0) (h1 : p = s.lo ∨ LexLt s.lo p) (h2 : p = s.hi ∨ LexLt p s.hi) :
    OnSeg s p := by
  obtain ⟨h, ⟨e, e'⟩ | ⟨e, e'⟩⟩ := seg_lo_hi s hs
  · rw [e] at h1 h; rw [e'] at h2 h
    exact onSeg_of_lex h hc h1 h2
  · rw [e] at h1 h; rw [e'] at h2 h
    refine onSeg_swap (onSeg_of_lex h ?_ h1 h2)
    unfold area2 at *; linear_combination -hc

/-- Overlapping segments have two common points. -/
theorem overlap_cross {s t : Segment K} (hs : s.start ≠ s.stop) (ht : t.start ≠ t.stop)
    (h : segmentsOverlap s t = true) : ¬ NoCross s t := by
  unfold segmentsOverlap at h
  simp only [Bool.and_eq_true, ltB_iff, beq_iff_eq, orient_col_iff, cross_area2] at h
  obtain ⟨⟨⟨c1, c2⟩, l1⟩, l2⟩ := h
  obtain ⟨ls, es⟩ := seg_lo_hi s hs
  obtain ⟨lt, et⟩ := seg_lo_hi t ht
  have colS : ∀ q, q = s.lo ∨ q = s.hi ∨ q = t.lo ∨ q = t.hi → area2 s.start s.stop q = 0 := by
    have a1 := area2_self s.start s.stop
    have a2 := area2_self' s.start s.stop
    rintro q (rfl | rfl | rfl | rfl)
    · rcases es with ⟨e, -⟩ | ⟨e, -⟩ <;> rw [e] <;> assumption
    · rcases es with ⟨-, e⟩ | ⟨-, e⟩ <;> rw [e] <;> assumption
    · rcases et with ⟨e, -⟩ | ⟨e, -⟩ <;> rw [e] <;> assumption
    · rcases et with ⟨-, e⟩ | ⟨-, e⟩ <;> rw [e] <;> assumption
  have colT : ∀ q, area2 s.start s.stop q = 0 → area2 t.start t.stop q = 0 := fun q hq =>
    collinear_line hs c1 c2 hq
  -- the larger lower end and the smaller upper end
  obtain ⟨p, hp, p1, p2, p3, p4⟩ : ∃ p, (p = s.lo ∨ p = t.lo) ∧ (p = s.lo ∨ LexLt s.lo p) ∧
      (p = t.lo ∨ LexLt t.lo p) ∧ LexLt p s.hi ∧ LexLt p t.hi := by
    rcases lexLt_trichotomy s.lo t.lo with e | e | e
    · exact ⟨t.lo, .inr rfl, .inr e, .inl rfl, l2, lt⟩
    · exact ⟨t.lo, .inr rfl, .inl e.symm, .inl rfl, l2, lt⟩
    · exact ⟨s.lo, .inl rfl, .inl rfl, .inr e, ls, l1⟩
  obtain ⟨q, hq, q1, q2, q3⟩ : ∃ q, (q = s.hi ∨ q = t.hi) ∧ (q = s.hi ∨ LexLt q s.hi) ∧
      (q = t.hi ∨ LexLt q t.hi) ∧ LexLt p q := by
    rcases lexLt_trichotomy s.hi t.hi with e | e | e
    · exact ⟨s.hi, .inl rfl, .inl rfl, .inr e, p3⟩
    · exact ⟨s.hi, .inl rfl, .inl rfl, .inl e, p3⟩
    · exact ⟨t.hi, .inr rfl, .inr e, .inl rfl, p4⟩
  have cp := colS p (hp.elim .inl fun e => .inr (.inr (.inl e)))
  have cq := colS q (hq.elim (fun e => .inr (.inl e)) fun e => .inr (.inr (.inr e)))
  have up : ∀ {a b : Point K}, (b = a ∨ LexLt a b) → LexLt b q → q = a ∨ LexLt a q := by
    rintro a b (rfl | h) h'
    · exact .inr h'
    · exact .inr (lexLt_trans h h')
  rintro ⟨-, hun⟩
  have := hun p q (onSeg_of_lo_hi hs cp p1 (.inr p3)) (onSeg_of_lo_hi ht (colT p cp) p2 (.inr p4))
    (onSeg_of_lo_hi hs cq (up p1 q3) q1) (onSeg_of_lo_hi ht (colT q cq) (up p2 q3) q2)
  rw [this] at q3
  exact lexLt_irrefl _ q3

end

section
open Sample

/-- The check of the concrete environment is sound. -/
theorem sample_sound : SoundCheck env.segmentsCrossOrOverlap := by
  intro l
  change _ → _ → crossOrOverlap l = false
  induction l with
  | nil => intros; rfl
  | cons s l ih =>
    intro hl hp
    obtain ⟨h1, h2⟩ := List.pairwise_cons.1 hp
    rw [crossOrOverlap, Bool.or_eq_false_iff]
    refine ⟨List.any_eq_false.2 fun t ht => ?_, ih (fun t ht => hl t (List.mem_cons_of_mem _ ht)) h2⟩
    unfold segmentPairCrossOrOverlap
    rw [Bool.or_eq_true, not_or]
    exact ⟨fun h => (h1 t ht).2 ((properCross_iff _ _).1 h), fun h => overlap_cross
      (hl s (by simp)) (hl t (List.mem_cons_of_mem _ ht)) h (h1 t ht).1⟩

namespace Sample

/-- Seven abscissas. -/
def genXs : List ℤ := [0, 1, 2, 3, 4, 5, 6]
/-- Seven ordinates. -/
def genYs : List ℤ := [1, 10, 100, 1000, 10000, 100000, 1000000]
/-- The points `(xs[i], ys[i² mod 7])`. -/
def genPoints : List (Point ℤ) :=
  [⟨0, 1⟩, ⟨1, 10⟩, ⟨2, 10000⟩, ⟨3, 100⟩, ⟨4, 100⟩, ⟨5, 10000⟩, ⟨6, 10⟩]

/-- All triples of points with the coordinates of two lists. -/
def genericTest (xs ys : List ℤ) : Bool :=
  xs.all fun a => xs.all fun b => xs.all fun c => ys.all fun d => ys.all fun e => ys.all fun f =>
    (a == b && a == c) || (d == e && d == f) || (a == b && d == e) || (a == c && d == f) ||
      (b == c && e == f) || ((b - a) * (f - d) != (e - d) * (c - a))

theorem genericTest_generic {xs ys : List ℤ} (h : genericTest xs ys = true) :
    GenericCoords (sampledFrom xs) (some (sampledFrom ys)) := by
  rintro ⟨a, d⟩ ⟨b, e⟩ ⟨c, f⟩ ⟨ha, hd⟩ ⟨hb, he⟩ ⟨hc, hf⟩ hab hac hbc hcol
  simp only [genericTest, List.all_eq_true] at h
  have := h a ha b hb c hc d hd e he f hf
  simp only [Bool.or_eq_true, Bool.and_eq_true, beq_iff_eq, bne_iff_ne, ne_eq] at this
  unfold Collinear area2 at hcol
  simp only [ne_eq, Point.mk.injEq] at *
  rcases this with ((((h | h) | h) | h) | h) | h
  · exact .inl h
  · exact .inr h
  · exact absurd h hab
  · exact absurd h hac
  · exact absurd h hbc
  · exact absurd (by linear_combination hcol) h

theorem gen_generic : GenericCoords (sampledFrom genXs) (some (sampledFrom genYs)) :=
  genericTest_generic (by decide +kernel)

theorem genPoints_drawn (lo : Int) (hi : Option Int) (p : Int) (h1 : toNextPrime lo = .ok p)
    (h2 : p ≤ 7) (h3 : leOpt 7 (maxOpt p hi)) :
    (toGeneralPositionStrategy (sampledFrom genXs) (some (sampledFrom genYs)) lo hi).val
      genPoints := by
  simp only [toGeneralPositionStrategy, val_bind, val_ofExcept, val_prod, val_uniqueLists]
  refine ⟨p, h1, (genXs, genYs), ⟨⟨fun a ha => ha, by decide, h2, h3⟩,
    ⟨fun a ha => ha, by decide, h2, h3⟩⟩, ?_⟩
  simp only [coordinatePairToPoints, val_bind, val_ofExcept]
  refine ⟨7, by decide +kernel, Or.inl ?_⟩
  simp only [val_mapE, val_bind', val_integersFrom, val_integers]
  exact ⟨1, ⟨0, le_refl _, by decide, by decide⟩, by decide +kernel⟩

end Sample

/-- Non-vacuity: a contour with seven vertices that is not convex. -/
theorem sample_generic_contour : ∃ s, concaveContours env (sampledFrom genXs)
      (some (sampledFrom genYs)) = .ok s ∧
    s.2.val ⟨[⟨0, 1⟩, ⟨6, 10⟩, ⟨4, 100⟩, ⟨5, 10000⟩, ⟨2, 10000⟩, ⟨3, 100⟩, ⟨1, 10⟩]⟩ := by
  refine ⟨_, rfl, _, ⟨Or.inr ⟨?_, by decide⟩, by decide +kernel⟩, rfl⟩
  rw [val_mapE]
  exact ⟨(genPoints, 7), ⟨genPoints, genPoints_drawn _ none 5 (by decide +kernel) (by norm_num)
    trivial, rfl, by decide, by decide⟩, by decide +kernel⟩

/-- Non-vacuity: two triangles. -/
theorem sample_generic_multicontours : ∃ s, multicontours env (sampledFrom genXs)
      (some (sampledFrom genYs)) = .ok s ∧
    s.2.val [⟨[⟨0, 1⟩, ⟨1, 10⟩, ⟨3, 100⟩, ⟨2, 10000⟩]⟩, ⟨[⟨4, 100⟩, ⟨6, 10⟩, ⟨5, 10000⟩]⟩] := by
  refine ⟨_, rfl, ⟨genPoints, genPoints_drawn _ _ 7 (by decide +kernel) (by norm_num) trivial, ?_⟩,
    by decide⟩
  simp only [val_mapE, val_prod]
  refine ⟨([4, 3], fun _ => true), ⟨⟨2, ⟨by decide, by decide⟩, ?_⟩, trivial⟩, by decide +kernel⟩
  simp only [toSizes, val_bind, val_ofExcept, val_bind', val_sequence, val_permutations]
  exact ⟨[4, 3], by decide +kernel, [4, 3], by
    simp only [List.map_cons, List.map_nil, List.forall₂_cons, val_sampledFrom,
      List.forall₂_nil_left_iff]
    decide, List.Perm.refl _⟩

example : GoodBorder ([⟨0, 1⟩, ⟨1, 10⟩, ⟨3, 100⟩, ⟨2, 10000⟩] : List (Point ℤ)) := by
  obtain ⟨s, hs, h⟩ := sample_generic_multicontours
  exact C15_multicontours_partial _ coins_sums _ _ gen_generic _ _ _ _ s hs _ h _ (by simp)

/-- Non-vacuity: a trapezoid with a triangular hole. -/
theorem sample_generic_polygon : ∃ s, polygons env (sampledFrom genXs) (some (sampledFrom genYs))
      (minHolesSize := 1) = .ok s ∧
    s.2.val ⟨⟨[⟨0, 1⟩, ⟨6, 10⟩, ⟨5, 10000⟩, ⟨2, 10000⟩]⟩, [⟨[⟨1, 10⟩, ⟨3, 100⟩, ⟨4, 100⟩]⟩]⟩ := by
  refine ⟨_, rfl, ⟨genPoints, ⟨genPoints_drawn _ _ 7 (by decide +kernel) (by norm_num) trivial,
    by decide +kernel⟩, ?_⟩, by decide +kernel⟩
  simp only [pointsToPolygonStrategy, val_mapE, val_prod]
  refine ⟨(4, [3], fun _ => true), ⟨⟨by decide +kernel, by decide +kernel⟩, ?_, trivial⟩,
    by decide +kernel⟩
  simp only [toHoleSizes]
  rw [if_pos (by decide +kernel)]
  simp only [val_bind', val_integers]
  refine ⟨1, ⟨by decide +kernel, by decide +kernel⟩, ?_⟩
  simp only [toHoleSizesAux]
  rw [if_neg (show ¬ (1 : Int) = 0 by decide)]
  simp only [val_bind, val_ofExcept, val_permutations, val_sequence]
  exact ⟨[3], by decide +kernel, _, List.Perm.refl _, by
    simp only [List.map_cons, List.map_nil, List.forall₂_cons, val_sampledFrom,
      List.forall₂_nil_left_iff]
    decide⟩

example : GoodHole ([⟨1, 10⟩, ⟨3, 100⟩, ⟨4, 100⟩] : List (Point ℤ)) := by
  obtain ⟨s, hs, h⟩ := sample_generic_polygon
  exact C15_holes_partial env coins_sums (fun l => List.Perm.refl l) _ _ gen_generic _ _ _ _ _ _ s hs
    _ h _ (by simp)

/-- Non-vacuity of the hypothesis on the check. -/
example : ∃ s s', polygons env (sampledFrom genXs) (some (sampledFrom genYs))
      (minHolesSize := 1) = .ok s ∧
    polygons { env with segmentsCrossOrOverlap := fun _ => false } (sampledFrom genXs)
      (some (sampledFrom genYs)) (minHolesSize := 1) = .ok s' ∧ ∀ e, s.2.err e ↔ s'.2.err e := by
  obtain ⟨s, hs, -⟩ := sample_generic_polygon
  obtain ⟨s', hs', -, h⟩ := C22_check_partial env coins_sums (fun l => List.Perm.refl l)
    sample_sound _ _ gen_generic _ _ _ _ _ _ s hs
  exact ⟨s, s', hs, hs', h⟩

namespace Sample

/-- Thirteen coordinates each way; the first seven ordinates carry the points of `badPoints`,
scaled by four. -/
def tangledXs : List ℤ := [0, 24, 30, 40, 48, 49, 52, 55, 58, 64, 72, 75, 80]
/-- See `tangledXs`. -/
def tangledYs : List ℤ := [8, 9, 40, 41, 42, 56, 72, 73, 74, 75, 76, 77, 78]
/-- The points `(xs[i], ys[2 i² mod 13])`. -/
def tangledPoints : List (Point ℤ) :=
  [⟨0, 8⟩, ⟨24, 40⟩, ⟨30, 74⟩, ⟨40, 56⟩, ⟨48, 72⟩, ⟨49, 77⟩, ⟨52, 73⟩, ⟨55, 73⟩, ⟨58, 77⟩, ⟨64, 72⟩,
    ⟨72, 56⟩, ⟨75, 74⟩, ⟨80, 40⟩]

/-- Thirteen coordinates each way; the inner points contain the points of `badPoints`. -/
def wrappedXs : List ℤ := [-100, 0, 3, 6, 10, 11, 12, 16, 17, 18, 20, 100, 200]
/-- See `wrappedXs`. -/
def wrappedYs : List ℤ := [0, 1, 2, 3, 4, 10, 14, 18, 19, 20, 21, 400, 401]
/-- The points `(xs[i], ys[2 i² mod 13])`. -/
def wrappedPoints : List (Point ℤ) :=
  [⟨-100, 0⟩, ⟨0, 2⟩, ⟨3, 19⟩, ⟨6, 10⟩, ⟨10, 14⟩, ⟨11, 400⟩, ⟨12, 18⟩, ⟨16, 18⟩, ⟨17, 400⟩, ⟨18, 14⟩,
    ⟨20, 10⟩, ⟨100, 19⟩, ⟨200, 2⟩]

theorem thirteen_drawn {xs ys : List ℤ} {pts : List (Point ℤ)} (lo : Int) (p : Int)
    (h1 : toNextPrime lo = .ok p) (h2 : p ≤ 13) (hx : xs.Nodup) (hy : ys.Nodup)
    (hxl : xs.length = 13) (hyl : ys.length = 13)
    (h : indicesToPoints false 13 (sortCoords xs) (sortCoords ys) 2 = .ok pts) :
    (toGeneralPositionStrategy (sampledFrom xs) (some (sampledFrom ys)) lo none).val pts := by
  simp only [toGeneralPositionStrategy, val_bind, val_ofExcept, val_prod, val_uniqueLists]
  refine ⟨p, h1, (xs, ys), ⟨⟨fun a ha => ha, hx, by rw [hxl]; exact h2, trivial⟩,
    ⟨fun a ha => ha, hy, by rw [hyl]; exact h2, trivial⟩⟩, ?_⟩
  have e1 : (sortCoords xs).length = 13 := by
    rw [← hxl]; exact (sortCoords_perm _).length_eq
  have e2 : (sortCoords ys).length = 13 := by
    rw [← hyl]; exact (sortCoords_perm _).length_eq
  simp only [coordinatePairToPoints, val_bind, val_ofExcept, e1, e2]
  refine ⟨13, by decide +kernel, Or.inl ?_⟩
  simp only [val_mapE, val_bind', val_integersFrom, val_integers]
  exact ⟨2, ⟨0, le_refl _, by decide, by decide⟩, h⟩

end Sample

/-- C15 fails for `multicontours`: a generated contour may cross itself. -/
theorem C15_multicontours_not_simple : ∃ s, multicontours env (sampledFrom tangledXs)
      (some (sampledFrom tangledYs)) = .ok s ∧
    ∃ l, s.2.val l ∧ ∃ c ∈ l, ¬ SimpleContour c.vertices := by
  have hd : (toGeneralPositionStrategy (sampledFrom tangledXs) (some (sampledFrom tangledYs))
      6 none).val tangledPoints :=
    thirteen_drawn 6 7 (by decide +kernel) (by norm_num) (by decide) (by decide) rfl rfl
      (by decide +kernel)
  refine ⟨_, rfl, [⟨[⟨40, 56⟩, ⟨72, 56⟩, ⟨64, 72⟩, ⟨24, 40⟩, ⟨80, 40⟩]⟩,
    ⟨[⟨30, 74⟩, ⟨52, 73⟩, ⟨55, 73⟩, ⟨64, 72⟩, ⟨75, 74⟩, ⟨49, 77⟩]⟩],
    ⟨⟨tangledPoints, hd, ?_⟩, by decide⟩, _, List.mem_cons_self, ?_⟩
  · simp only [val_mapE, val_prod]
    refine ⟨([7, 6], fun _ => false), ⟨⟨2, ⟨by decide, by decide⟩, ?_⟩, trivial⟩, by decide +kernel⟩
    simp only [toSizes, val_bind, val_ofExcept, val_bind', val_sequence, val_permutations]
    exact ⟨[7, 6], by decide +kernel, [7, 6], by
      simp only [List.map_cons, List.map_nil, List.forall₂_cons, val_sampledFrom,
        List.forall₂_nil_left_iff]
      decide, List.Perm.refl _⟩
  · rintro ⟨-, h⟩
    have h2 := h 0 2 (by decide) (by decide) ⟨44, 56⟩ (by unfold OnSeg Collinear; decide)
      (by unfold OnSeg Collinear; decide)
    revert h2
    decide

/-- C22 fails for the internal check: drawing a polygon may end in an `AssertionError`. -/
theorem C22_polygons_assertion : ∃ s, polygons env (sampledFrom wrappedXs)
      (some (sampledFrom wrappedYs)) (minHolesSize := 1) = .ok s ∧ s.2.err .assertion := by
  have hd : (toGeneralPositionStrategy (sampledFrom wrappedXs) (some (sampledFrom wrappedYs))
      6 none).val wrappedPoints :=
    thirteen_drawn 6 7 (by decide +kernel) (by norm_num) (by decide) (by decide) rfl rfl
      (by decide +kernel)
  refine ⟨_, rfl, Or.inr ⟨wrappedPoints, ⟨hd, by decide +kernel⟩, ?_⟩⟩
  simp only [pointsToPolygonStrategy, err_mapE, val_prod]
  refine Or.inr ⟨(4, [7], fun _ => false), ⟨⟨by decide +kernel, by decide +kernel⟩, ?_, trivial⟩,
    by decide +kernel⟩
  simp only [toHoleSizes]
  rw [if_pos (by decide +kernel)]
  simp only [val_bind', val_integers]
  refine ⟨1, ⟨by decide +kernel, by decide +kernel⟩, ?_⟩
  simp only [toHoleSizesAux]
  rw [if_neg (show ¬ (1 : Int) = 0 by decide)]
  simp only [val_bind, val_ofExcept, val_permutations, val_sequence]
  exact ⟨[9], by decide +kernel, _, List.Perm.refl _, by
    simp only [List.map_cons, List.map_nil, List.forall₂_cons, val_sampledFrom,
      List.forall₂_nil_left_iff]
    decide⟩

end
end HG
