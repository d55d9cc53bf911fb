import Verif.Model.Planar
import Verif.Lemmas.Strategy
import Verif.Lemmas.Except
import Verif.Lemmas.Orient
import Verif.Spec.Geometry

/-!
# Points, multipoints, segments, boxes, rectangles and triangles (C01–C06)
-/

set_option linter.unusedSectionVars false

namespace HG

open Strategy

section
variable {K : Type} [LinearOrder K] [Zero K] [Add K] [Sub K] [Predicates K]

/-- C01: `points` raises nothing, warns about nothing and generates exactly the points with drawn
coordinates; a draw fails only if drawing a coordinate fails. -/
theorem C01_points (x : Strategy K) (y : Option (Strategy K)) :
    ∃ s, points x y = .ok ([], s) ∧
      (∀ p : Point K, s.val p ↔ x.val p.x ∧ (y.getD x).val p.y) ∧
      (∀ e, s.err e → x.err e ∨ (y.getD x).err e) := by
  refine ⟨_, rfl, ?_, ?_⟩
  · rintro ⟨a, b⟩
    simp [toPointStrategy, yOr]
  · intro e h
    simp only [toPointStrategy, yOr, err_map, err_prod] at h
    tauto

example : ∃ s, points (sampledFrom [(1 : ℤ), 2]) (some (sampledFrom [5])) = .ok ([], s) ∧
    s.val ⟨2, 5⟩ ∧ ¬ s.val ⟨5, 2⟩ := by
  obtain ⟨s, h, hs, _⟩ := C01_points (sampledFrom [(1 : ℤ), 2]) (some (sampledFrom [5]))
  exact ⟨s, h, by simp [hs], by simp [hs]⟩

/-- C02: for accepted bounds `multipoints` generates exactly the duplicate-free sequences of drawn
points with a size in the requested range. -/
theorem C02_multipoints (x : Strategy K) (y : Option (Strategy K)) (minSize : Int)
    (maxSize : Option Int) (r : Made (List (Point K)))
    (h : multipoints x y minSize maxSize = .ok r) (l : List (Point K)) :
    r.2.val l ↔ (∀ p ∈ l, x.val p.x ∧ (y.getD x).val p.y) ∧ l.Nodup ∧
      Spec.SizeIn (max minSize 1) maxSize l.length := by
  simp only [multipoints, exc_bind_ok, exc_pure_ok] at h
  obtain ⟨w, _, rfl⟩ := h
  simp only [toMultipointStrategy, toUniquePointSequenceStrategy, val_uniqueLists,
    toPointStrategy, yOr, val_map, val_prod, Spec.SizeIn]
  constructor
  · rintro ⟨h1, h2, h3, h4⟩
    refine ⟨fun p hp => ?_, h2, h3, ?_⟩
    · obtain ⟨q, hq, rfl⟩ := h1 p hp
      exact hq
    · rintro m rfl
      simpa using h4
  · rintro ⟨h1, h2, h3, h4⟩
    refine ⟨fun p hp => ⟨(p.x, p.y), h1 p hp, rfl⟩, h2, h3, ?_⟩
    cases maxSize with
    | none => simp
    | some m => simpa using h4 m rfl

example : ∃ r, multipoints (sampledFrom [(1 : ℤ), 2]) none 2 (some 3) = .ok r ∧
    r.2.val [⟨1, 1⟩, ⟨1, 2⟩] ∧ ¬ r.2.val [⟨1, 1⟩, ⟨1, 1⟩] ∧ ¬ r.2.val [⟨1, 1⟩] := by
  have h : multipoints (sampledFrom [(1 : ℤ), 2]) none 2 (some 3) =
    .ok ([], toMultipointStrategy (sampledFrom [(1 : ℤ), 2]) none (max 2 1) (some 3)) := rfl
  refine ⟨_, h, ?_, ?_, ?_⟩ <;> rw [C02_multipoints _ _ _ _ _ h] <;> simp [Spec.SizeIn]

/-- C03: `segments` generates exactly the segments with drawn coordinates and different
endpoints. -/
theorem C03_segments (x : Strategy K) (y : Option (Strategy K)) :
    ∃ s, segments x y = .ok ([], s) ∧ ∀ g : Segment K, s.val g ↔
      (x.val g.start.x ∧ (y.getD x).val g.start.y) ∧ (x.val g.stop.x ∧ (y.getD x).val g.stop.y) ∧
      g.start ≠ g.stop := by
  refine ⟨_, rfl, ?_⟩
  rintro ⟨⟨a, b⟩, ⟨c, d⟩⟩
  simp [toSegmentStrategy, toPointStrategy, yOr, and_assoc]

example : ∃ s, segments (sampledFrom [(1 : ℤ), 2]) none = .ok ([], s) ∧
    s.val ⟨⟨1, 1⟩, ⟨2, 1⟩⟩ ∧ ¬ s.val ⟨⟨1, 1⟩, ⟨1, 1⟩⟩ := by
  obtain ⟨s, h, hs⟩ := C03_segments (sampledFrom [(1 : ℤ), 2]) none
  exact ⟨s, h, by simp [hs], by simp [hs]⟩

theorem sortPair_eq {a b : K} {p : K × K} (hab : a ≠ b) (h : sortPair a b = p) :
    p.1 < p.2 ∧ ((p.1 = a ∧ p.2 = b) ∨ (p.1 = b ∧ p.2 = a)) := by
  subst h
  unfold sortPair
  split
  · simp_all
  · have : b < a := lt_of_le_of_ne (not_lt.mp ‹_›) (Ne.symm hab)
    simp [this]

theorem sortedPairs_val (x : Strategy K) (p : K × K) :
    ((uniqueLists x 2 (some 2)).mapE sortPairList).val p ↔ x.val p.1 ∧ x.val p.2 ∧ p.1 < p.2 := by
  simp only [val_mapE, val_uniqueLists, leOpt_some]
  constructor
  · rintro ⟨l, ⟨h1, h2, h3, h4⟩, h5⟩
    match l, h5 with
    | [a, b], h5 =>
      have hab : a ≠ b := by simpa using h2
      simp only [sortPairList, pure, Except.pure, Except.ok.injEq] at h5
      have ha := h1 a (by simp)
      have hb := h1 b (by simp)
      obtain ⟨h6, ⟨h7, h8⟩ | ⟨h7, h8⟩⟩ := sortPair_eq hab h5 <;> simp [h7, h8, ha, hb] <;>
        rwa [h7, h8] at h6
    | [], h5 => simp at h3
    | [_], h5 => simp at h3
    | _ :: _ :: _ :: _, h5 =>
      simp only [List.length_cons] at h4
      push_cast at h4
      omega
  · rintro ⟨h1, h2, h3⟩
    refine ⟨[p.1, p.2], ⟨?_, ?_, by simp, by simp⟩, ?_⟩
    · simp [h1, h2]
    · simp [ne_of_lt h3]
    · simp [sortPairList, sortPair, h3, pure, Except.pure]

/-- C04: `boxes` generates exactly the boxes with increasing drawn coordinates. -/
theorem C04_boxes (x : Strategy K) (y : Option (Strategy K)) :
    ∃ s, boxes x y = .ok ([], s) ∧ ∀ b : Box K, s.val b ↔
      x.val b.minX ∧ x.val b.maxX ∧ b.minX < b.maxX ∧
      (y.getD x).val b.minY ∧ (y.getD x).val b.maxY ∧ b.minY < b.maxY := by
  refine ⟨_, rfl, ?_⟩
  rintro ⟨a, b, c, d⟩
  simp only [toBoxStrategy, val_map, val_prod, sortedPairs_val, yOr]
  constructor
  · rintro ⟨⟨⟨a', b'⟩, ⟨c', d'⟩⟩, ⟨⟨h1, h2, h3⟩, h4, h5, h6⟩, h⟩
    simp only [Box.mk.injEq] at h
    obtain ⟨rfl, rfl, rfl, rfl⟩ := h
    exact ⟨h1, h2, h3, h4, h5, h6⟩
  · rintro ⟨h1, h2, h3, h4, h5, h6⟩
    exact ⟨((a, b), (c, d)), ⟨⟨h1, h2, h3⟩, h4, h5, h6⟩, rfl⟩

example : ∃ s, boxes (sampledFrom [(3 : ℤ), 1]) none = .ok ([], s) ∧
    s.val ⟨1, 3, 1, 3⟩ ∧ ¬ s.val ⟨3, 1, 1, 3⟩ := by
  obtain ⟨s, h, hs⟩ := C04_boxes (sampledFrom [(3 : ℤ), 1]) none
  exact ⟨s, h, by simp [hs], by simp [hs]⟩

/-- C05: the contours of `rectangular_contours` are exactly the counterclockwise rectangles with
drawn coordinates. -/
theorem C05_rectangular (x : Strategy K) (y : Option (Strategy K)) :
    ∃ s, rectangularContours x y = .ok ([], s) ∧ ∀ c : Contour K, s.val c ↔
      ∃ a b c' d, x.val a ∧ x.val b ∧ a < b ∧ (y.getD x).val c' ∧ (y.getD x).val d ∧ c' < d ∧
        c.vertices = [⟨a, c'⟩, ⟨b, c'⟩, ⟨b, d⟩, ⟨a, d⟩] := by
  obtain ⟨s, hs, hval⟩ := C04_boxes x y
  have hs' : s = toBoxStrategy x y := by
    have : boxes x y = .ok ([], toBoxStrategy x y) := rfl
    rw [this] at hs
    simpa using hs.symm
  refine ⟨_, rfl, ?_⟩
  rintro ⟨vs⟩
  simp only [val_map, toRectangularStrategy, ← hs', hval]
  constructor
  · rintro ⟨l, ⟨b, ⟨h1, h2, h3, h4, h5, h6⟩, rfl⟩, h⟩
    simp only [Contour.mk.injEq] at h
    exact ⟨_, _, _, _, h1, h2, h3, h4, h5, h6, h⟩
  · rintro ⟨a, b, c, d, h1, h2, h3, h4, h5, h6, h⟩
    exact ⟨vs, ⟨⟨a, b, c, d⟩, ⟨h1, h2, h3, h4, h5, h6⟩, h⟩, rfl⟩

end

section
variable {K : Type} [CommRing K] [LinearOrder K]

/-- C05: a rectangle is strictly convex and counterclockwise. -/
theorem C05_rectangular_ccw [IsStrictOrderedRing K] (x : Strategy K) (y : Option (Strategy K)) :
    ∃ s, rectangularContours x y = .ok ([], s) ∧ ∀ c : Contour K, s.val c →
      Spec.StrictlyConvex c.vertices ∧ c.vertices.length = 4 ∧
      ∀ p ∈ c.vertices, x.val p.x ∧ (y.getD x).val p.y := by
  obtain ⟨s, hs, hval⟩ := C05_rectangular x y
  refine ⟨s, hs, fun c hc => ?_⟩
  obtain ⟨a, b, c', d, h1, h2, h3, h4, h5, h6, h⟩ := (hval c).mp hc
  rw [h]
  refine ⟨⟨?_, ?_⟩, rfl, ?_⟩
  · simp [ne_of_lt h3, ne_of_lt h6, Ne.symm (ne_of_lt h3)]
  · intro i j k hij hjk hk
    simp only [List.length_cons, List.length_nil] at hk
    have hp : 0 < (b - a) * (d - c') := mul_pos (sub_pos.mpr h3) (sub_pos.mpr h6)
    have key : (i = 0 ∧ j = 1 ∧ k = 2) ∨ (i = 0 ∧ j = 1 ∧ k = 3) ∨ (i = 0 ∧ j = 2 ∧ k = 3) ∨
      (i = 1 ∧ j = 2 ∧ k = 3) := by omega
    rcases key with ⟨rfl, rfl, rfl⟩ | ⟨rfl, rfl, rfl⟩ | ⟨rfl, rfl, rfl⟩ | ⟨rfl, rfl, rfl⟩ <;>
      simp [Spec.LeftTurn, Spec.area2] <;> nlinarith
  · simp [h1, h2, h4, h5]

example : ∃ s, rectangularContours (sampledFrom [(3 : ℤ), 1]) none = .ok ([], s) ∧
    s.val ⟨[⟨1, 1⟩, ⟨3, 1⟩, ⟨3, 3⟩, ⟨1, 3⟩]⟩ := by
  obtain ⟨s, h, hs⟩ := C05_rectangular (sampledFrom [(3 : ℤ), 1]) none
  exact ⟨s, h, (hs _).mpr ⟨1, 3, 1, 3, by simp⟩⟩

theorem strict_triple (a b c : Point K) :
    areVerticesStrict [a, b, c] = true ↔ cross a b c ≠ 0 := by
  have h1 : cross a c b = - cross a b c := by unfold cross; ring
  have h2 : cross b a c = - cross a b c := by unfold cross; ring
  have h3 : cross c b a = - cross a b c := by unfold cross; ring
  simp [areVerticesStrict, contourOrientations, orient_col_iff, List.range_succ, h1, h2, h3]

/-- C06: the contours of `triangular_contours` are exactly the triangles with drawn coordinates in
strictly counterclockwise order. -/
theorem C06_triangular [IsStrictOrderedRing K] (x : Strategy K) (y : Option (Strategy K)) :
    ∃ s, triangularContours x y = .ok ([], s) ∧ ∀ t : Contour K, s.val t ↔
      ∃ a b c : Point K, (∀ p ∈ [a, b, c], x.val p.x ∧ (y.getD x).val p.y) ∧
        Spec.LeftTurn a b c ∧ t.vertices = [a, b, c] := by
  refine ⟨_, rfl, ?_⟩
  rintro ⟨vs⟩
  simp only [val_map, toTriangularStrategy, val_filter, val_prod, toPointStrategy, yOr,
    strict_triple]
  constructor
  · rintro ⟨l, ⟨⟨a, b, c⟩, ⟨⟨⟨a', ha, rfl⟩, ⟨b', hb, rfl⟩, ⟨c', hc, rfl⟩⟩, hne⟩, rfl⟩, h⟩
    simp only [Contour.mk.injEq] at h
    simp only [toCcwTriplet, orient_ccw_iff] at h
    split at h
    · refine ⟨_, _, _, ?_, ‹_›, h⟩
      simp [ha, hb, hc]
    · refine ⟨_, _, _, ?_, ?_, h⟩
      · simp [ha, hb, hc]
      · have : cross (⟨c'.1, c'.2⟩ : Point K) ⟨b'.1, b'.2⟩ ⟨a'.1, a'.2⟩
            = - cross ⟨a'.1, a'.2⟩ ⟨b'.1, b'.2⟩ ⟨c'.1, c'.2⟩ := by unfold cross; ring
        show 0 < cross _ _ _
        rw [this]
        exact neg_pos.mpr (lt_of_le_of_ne (not_lt.mp ‹_›) hne)
  · rintro ⟨a, b, c, h1, h2, h3⟩
    have h2' : 0 < cross a b c := h2
    refine ⟨vs, ⟨(a, b, c), ⟨⟨⟨(a.x, a.y), h1 a (by simp), rfl⟩, ⟨(b.x, b.y), h1 b (by simp), rfl⟩,
      ⟨(c.x, c.y), h1 c (by simp), rfl⟩⟩, ne_of_gt h2'⟩, ?_⟩, rfl⟩
    simpa [toCcwTriplet, orient_ccw_iff, h2'] using h3

example : ∃ s, triangularContours (sampledFrom [(0 : ℤ), 1]) none = .ok ([], s) ∧
    s.val ⟨[⟨0, 0⟩, ⟨1, 0⟩, ⟨0, 1⟩]⟩ := by
  obtain ⟨s, h, hs⟩ := C06_triangular (sampledFrom [(0 : ℤ), 1]) none
  exact ⟨s, h, (hs _).mpr ⟨⟨0, 0⟩, ⟨1, 0⟩, ⟨0, 1⟩, by simp, by simp [Spec.LeftTurn, Spec.area2],
    rfl⟩⟩

end
end HG
