import Verif.Model.Planar
import Verif.Lemmas.Except
import Verif.Lemmas.Primes
import Mathlib.Algebra.Order.Ring.Int

/-!
# Validation of size arguments (C31, C32)
-/

set_option linter.unusedSectionVars false

namespace HG

namespace Spec

/-- A pair of bounds that should be rejected: there is an upper bound, and it is below the minimum
of the kind, or below the lower bound, or the lower bound is negative. -/
def BadBounds (lo : Int) (hi : Option Int) (least : Int) : Prop :=
  ∃ m, hi = some m ∧ (m < least ∨ m < lo ∨ lo < 0)

/-- The warnings that should be issued for a lower bound. -/
def lowWarning (lo least : Int) (name : String) : List SizeWarning :=
  if lo < least then [⟨name⟩] else []

end Spec

open Spec

theorem validate_bad {lo : Int} {hi : Option Int} {least : Int} {name : String}
    (h : BadBounds lo hi least) : validateSizes lo hi least name = .error .valueError := by
  obtain ⟨m, rfl, h⟩ := h
  unfold validateSizes
  simp only
  by_cases h1 : m < least
  · rw [if_pos h1]; rfl
  · rw [if_neg h1]
    by_cases h2 : lo > m
    · rw [if_pos h2]; rfl
    · rw [if_neg h2, if_pos (by omega)]; rfl

theorem validate_good {lo : Int} {hi : Option Int} {least : Int} {name : String}
    (h : ¬ BadBounds lo hi least) :
    validateSizes lo hi least name = .ok (lowWarning lo least name) := by
  have key : (if lo < least then pure [⟨name⟩] else pure [] : Except Exc (List SizeWarning)) =
      .ok (lowWarning lo least name) := by
    unfold lowWarning
    split <;> rfl
  cases hi with
  | none => exact key
  | some m =>
    have h1 : ¬ m < least := fun h1 => h ⟨m, rfl, Or.inl h1⟩
    have h2 : ¬ lo > m := fun h1 => h ⟨m, rfl, Or.inr (Or.inl h1)⟩
    have h3 : ¬ lo < 0 := fun h1 => h ⟨m, rfl, Or.inr (Or.inr h1)⟩
    unfold validateSizes
    simp only [if_neg h1, if_neg h2, if_neg h3]
    exact key

theorem validate_error (lo : Int) (hi : Option Int) (least : Int) (name : String) (e : Exc) :
    validateSizes lo hi least name = .error e ↔ e = .valueError ∧ BadBounds lo hi least := by
  by_cases h : BadBounds lo hi least
  · simp [validate_bad h, h, eq_comm]
  · simp [validate_good h, h]

theorem validate_ok (lo : Int) (hi : Option Int) (least : Int) (name : String)
    (w : List SizeWarning) :
    validateSizes lo hi least name = .ok w ↔
      ¬ BadBounds lo hi least ∧ w = lowWarning lo least name := by
  by_cases h : BadBounds lo hi least
  · simp [validate_bad h, h]
  · simp [validate_good h, h, eq_comm]

/-- Outcome of a call: raises exactly when `bad`, otherwise warns as given. -/
def Validates {α : Type} (r : Except Exc (Made α)) (bad : Prop) (w : List SizeWarning) : Prop :=
  (∀ e, r = .error e ↔ e = .valueError ∧ bad) ∧ ∀ s, r = .ok s → s.1 = w

section
variable {K : Type} [LinearOrder K] [Zero K] [Add K] [Sub K] [Predicates K]

/-- C31: which calls with one pair of bounds raise, and what is warned about. -/
theorem C31_single (env : Env K) (x : Strategy K) (y : Option (Strategy K)) (lo : Int)
    (hi : Option Int) :
    Validates (multipoints x y lo hi) (BadBounds lo hi 1) (lowWarning lo 1 "min_size") ∧
    Validates (multisegments env x y lo hi) (BadBounds lo hi 2) (lowWarning lo 2 "min_size") ∧
    Validates (contours env x y lo hi) (BadBounds lo hi 3) (lowWarning lo 3 "min_size") ∧
    Validates (convexContours env x y lo hi) (BadBounds lo hi 3) (lowWarning lo 3 "min_size") ∧
    Validates (starContours env x y lo hi) (BadBounds lo hi 3) (lowWarning lo 3 "min_size") ∧
    Validates (concaveContours env x y lo hi) (BadBounds lo hi 4)
      (lowWarning lo 4 "min_size") := by
  refine ⟨⟨fun e => ?_, fun s h => ?_⟩, ⟨fun e => ?_, fun s h => ?_⟩, ⟨fun e => ?_, fun s h => ?_⟩,
    ⟨fun e => ?_, fun s h => ?_⟩, ⟨fun e => ?_, fun s h => ?_⟩, ⟨fun e => ?_, fun s h => ?_⟩⟩
  all_goals
    first
    | simp only [multipoints, multisegments, contours, convexContours, starContours,
        concaveContours, exc_bind_error, exc_pure_error, validate_error, and_false, exists_false,
        or_false]
    | (simp only [multipoints, multisegments, contours, convexContours, starContours,
        concaveContours, exc_bind_ok, exc_pure_ok, validate_ok] at h
       obtain ⟨w, ⟨_, rfl⟩, rfl⟩ := h
       rfl)

/-- C31 for the constructors without bounds: they never raise or warn. -/
theorem C31_none (x : Strategy K) (y : Option (Strategy K)) :
    Validates (points x y) False [] ∧ Validates (segments x y) False [] ∧
    Validates (boxes x y) False [] ∧ Validates (rectangularContours x y) False [] ∧
    Validates (triangularContours x y) False [] := by
  refine ⟨⟨fun e => ?_, fun s h => ?_⟩, ⟨fun e => ?_, fun s h => ?_⟩, ⟨fun e => ?_, fun s h => ?_⟩,
    ⟨fun e => ?_, fun s h => ?_⟩, ⟨fun e => ?_, fun s h => ?_⟩⟩
  all_goals
    first
    | simp [points, segments, boxes, rectangularContours, triangularContours, exc_pure_error]
    | (simp only [points, segments, boxes, rectangularContours, triangularContours,
        exc_pure_ok] at h
       rw [← h])

/-- C31 for `multicontours`. -/
theorem C31_multicontours (env : Env K) (x : Strategy K) (y : Option (Strategy K)) (lo : Int)
    (hi : Option Int) (clo : Int) (chi : Option Int) :
    Validates (multicontours env x y lo hi clo chi) (BadBounds lo hi 2 ∨ BadBounds clo chi 3)
      (lowWarning lo 2 "min_size" ++ lowWarning clo 3 "min_contour_size") := by
  constructor
  · intro e
    simp only [multicontours, exc_bind_error, exc_pure_error, validate_error, validate_ok,
      and_false, exists_false, or_false]
    by_cases h : BadBounds lo hi 2 <;> simp [h]
  · intro s h
    simp only [multicontours, exc_bind_ok, exc_pure_ok, validate_ok] at h
    obtain ⟨w, ⟨_, rfl⟩, w', ⟨_, rfl⟩, rfl⟩ := h
    rfl

/-- C31 for `polygons`. -/
theorem C31_polygons (env : Env K) (x : Strategy K) (y : Option (Strategy K)) (lo : Int)
    (hi : Option Int) (nlo : Int) (nhi : Option Int) (hlo : Int) (hhi : Option Int) :
    Validates (polygons env x y lo hi nlo nhi hlo hhi)
      (BadBounds lo hi 3 ∨ BadBounds nlo nhi 0 ∨ BadBounds hlo hhi 3)
      (lowWarning lo 3 "min_size" ++ lowWarning nlo 0 "min_holes_size" ++
        lowWarning hlo 3 "min_hole_size") := by
  constructor
  · intro e
    simp only [polygons, exc_bind_error, exc_pure_error, validate_error, validate_ok,
      and_false, exists_false, or_false]
    by_cases h : BadBounds lo hi 3 <;> by_cases h' : BadBounds nlo nhi 0 <;> simp [h, h']
  · intro s h
    simp only [polygons, exc_bind_ok, exc_pure_ok, validate_ok] at h
    obtain ⟨w, ⟨_, rfl⟩, w', ⟨_, rfl⟩, w'', ⟨_, rfl⟩, rfl⟩ := h
    rfl

theorem toMultipolygonStrategy_ok (env : Env K) (x : Strategy K) (y : Option (Strategy K))
    (lo : Int) (hi : Option Int) (z : PolygonSizes) (hz : 3 ≤ z.minSize)
    (hn : 0 ≤ z.minHoleCount) (hh : 0 ≤ z.minHoleSize) :
    ∃ s, toMultipolygonStrategy env x y lo hi z = .ok s := by
  obtain ⟨p, hp, _⟩ := toNextPrime_spec (z.minSize + z.minHoleCount * z.minHoleSize)
    (by nlinarith)
  unfold toMultipolygonStrategy
  simp only [hp, exc_bind_ok, Except.ok.injEq, exists_eq_left']
  split <;> simp [pure, Except.pure]

/-- C31 for `multipolygons` with a non-negative number of holes: no other exception is raised. -/
theorem C31_multipolygons_nonneg (env : Env K) (x : Strategy K) (y : Option (Strategy K))
    (lo : Int) (hi : Option Int) (blo : Int) (bhi : Option Int) (nlo : Int) (nhi : Option Int)
    (hlo : Int) (hhi : Option Int) (hn : 0 ≤ nlo) :
    Validates (multipolygons env x y lo hi blo bhi nlo nhi hlo hhi)
      (BadBounds lo hi 2 ∨ BadBounds blo bhi 3 ∨ BadBounds nlo nhi 0 ∨ BadBounds hlo hhi 3)
      (lowWarning lo 2 "min_size" ++ lowWarning blo 3 "min_border_size" ++
        lowWarning nlo 0 "min_holes_size" ++ lowWarning hlo 3 "min_hole_size") := by
  obtain ⟨s, hs⟩ := toMultipolygonStrategy_ok env x y (max lo 2) hi
    { minSize := max blo 3, maxSize := bhi, minHoleCount := nlo
      maxHoleCount := nhi, minHoleSize := max hlo 3, maxHoleSize := hhi }
    (le_max_right _ _) hn (le_trans (by norm_num) (le_max_right _ _))
  constructor
  · intro e
    simp only [multipolygons, exc_bind_error, exc_pure_error, validate_error, validate_ok,
      and_false, exists_false, or_false, hs, reduceCtorEq]
    by_cases h : BadBounds lo hi 2 <;> by_cases h' : BadBounds blo bhi 3 <;>
      by_cases h'' : BadBounds nlo nhi 0 <;> simp [h, h', h'']
  · intro s' h
    simp only [multipolygons, exc_bind_ok, exc_pure_ok, validate_ok, hs, Except.ok.injEq] at h
    obtain ⟨w, ⟨_, rfl⟩, w', ⟨_, rfl⟩, w'', ⟨_, rfl⟩, w''', ⟨_, rfl⟩, _, _, rfl⟩ := h
    rfl

theorem toNextPrime_error {v : Int} {e : Exc} (h : toNextPrime v = .error e) : e = .assertion := by
  rcases le_or_gt v 2 with hv | hv
  · unfold toNextPrime at h
    rw [if_neg (by omega)] at h
    exact (by simpa [throw, throwThe, MonadExceptOf.throw] using h.symm)
  · obtain ⟨p, hp, -⟩ := toNextPrime_spec v (by omega)
    rw [hp] at h
    cases h

/-- C31 for `multipolygons`: it raises `ValueError` exactly for bad bounds.  Any other exception is
the assertion for a negative `min_holes_size` without `max_holes_size`, see
`C32_multipolygons_negative`. -/
theorem C31_multipolygons (env : Env K) (x : Strategy K) (y : Option (Strategy K))
    (lo : Int) (hi : Option Int) (blo : Int) (bhi : Option Int) (nlo : Int) (nhi : Option Int)
    (hlo : Int) (hhi : Option Int) :
    (multipolygons env x y lo hi blo bhi nlo nhi hlo hhi = .error .valueError ↔
      BadBounds lo hi 2 ∨ BadBounds blo bhi 3 ∨ BadBounds nlo nhi 0 ∨ BadBounds hlo hhi 3) ∧
    (∀ e, multipolygons env x y lo hi blo bhi nlo nhi hlo hhi = .error e →
      e = .valueError ∨ (e = .assertion ∧ nlo < 0 ∧ nhi = none)) ∧
    ∀ s, multipolygons env x y lo hi blo bhi nlo nhi hlo hhi = .ok s →
      s.1 = lowWarning lo 2 "min_size" ++ lowWarning blo 3 "min_border_size" ++
        lowWarning nlo 0 "min_holes_size" ++ lowWarning hlo 3 "min_hole_size" := by
  rcases le_or_gt 0 nlo with hn | hn
  · obtain ⟨h1, h2⟩ := C31_multipolygons_nonneg env x y lo hi blo bhi nlo nhi hlo hhi hn
    exact ⟨by simpa using h1 .valueError, fun e he => .inl ((h1 e).1 he).1, h2⟩
  · have key : ∀ e, toMultipolygonStrategy env x y (max lo 2) hi
        { minSize := max blo 3, maxSize := bhi, minHoleCount := nlo
          maxHoleCount := nhi, minHoleSize := max hlo 3, maxHoleSize := hhi } = .error e →
        e = .assertion := by
      intro e he
      unfold toMultipolygonStrategy at he
      simp only [exc_bind_error] at he
      rcases he with he | ⟨p, -, he⟩
      · exact toNextPrime_error he
      · split at he <;> simp [pure, Except.pure] at he
    refine ⟨?_, ?_, ?_⟩
    · have : toMultipolygonStrategy env x y (max lo 2) hi
          { minSize := max blo 3, maxSize := bhi, minHoleCount := nlo
            maxHoleCount := nhi, minHoleSize := max hlo 3, maxHoleSize := hhi } ≠
            .error .valueError := fun h => by simpa using key _ h
      simp only [multipolygons, exc_bind_error, exc_pure_error, validate_error, validate_ok,
        and_false, exists_false, or_false, this]
      by_cases h : BadBounds lo hi 2 <;> by_cases h' : BadBounds blo bhi 3 <;>
        by_cases h'' : BadBounds nlo nhi 0 <;> simp [h, h', h'']
    · intro e he
      simp only [multipolygons, exc_bind_error, exc_pure_error, validate_error, validate_ok,
        and_false, exists_false, or_false] at he
      have hb : ¬ BadBounds nlo nhi 0 → nhi = none := by
        intro h
        cases nhi with
        | none => rfl
        | some m => exact absurd ⟨m, rfl, .inr (.inr hn)⟩ h
      rcases he with he | ⟨_, _, he | ⟨_, _, he | ⟨_, ⟨h3, _⟩, he | ⟨_, _, he⟩⟩⟩⟩
      · exact .inl he.1
      · exact .inl he.1
      · exact .inl he.1
      · exact .inl he.1
      · exact .inr ⟨key e he, hn, hb h3⟩
    · intro s' h
      simp only [multipolygons, exc_bind_ok, exc_pure_ok, validate_ok] at h
      obtain ⟨w, ⟨_, rfl⟩, w', ⟨_, rfl⟩, w'', ⟨_, rfl⟩, w''', ⟨_, rfl⟩, _, _, rfl⟩ := h
      rfl

/-- The call `multipolygons(x, y, min_holes_size=-1)` is expected to warn and to act as
`min_holes_size=0`; it raises `AssertionError` instead, while the same call of `polygons` and
`mixes` is accepted. -/
theorem C32_multipolygons_negative (env : Env K) (x : Strategy K) (y : Option (Strategy K)) :
    multipolygons env x y (minHolesSize := -1) = .error .assertion ∧
    (∃ s, multipolygons env x y (minHolesSize := 0) = .ok ([], s)) ∧
    (∃ s, polygons env x y (minHolesSize := -1) = .ok ([⟨"min_holes_size"⟩], s)) := by
  refine ⟨rfl, ?_, ⟨_, rfl⟩⟩
  obtain ⟨s, hs⟩ := toMultipolygonStrategy_ok env x y 2 none
    { minSize := 3, maxSize := none, minHoleCount := 0
      maxHoleCount := none, minHoleSize := 3, maxHoleSize := none } (by simp) (by simp) (by simp)
  refine ⟨s, ?_⟩
  simp only [multipolygons, exc_bind_ok, exc_pure_ok, validate_ok]
  refine ⟨[], ⟨?_, rfl⟩, [], ⟨?_, rfl⟩, [], ⟨?_, rfl⟩, [], ⟨?_, rfl⟩, s, ?_, rfl⟩
  · simp [BadBounds]
  · simp [BadBounds]
  · simp [BadBounds]
  · simp [BadBounds]
  · exact hs

theorem toMixStrategy_ok (env : Env K) (x : Strategy K) (y : Option (Strategy K))
    (z : MixSizes) (hz : 3 ≤ z.polygon.minSize)
    (hn : 0 ≤ z.polygon.minHoleCount) (hh : 0 ≤ z.polygon.minHoleSize) :
    ∃ s, toMixStrategy env x y z = .ok s := by
  obtain ⟨p, hp, _⟩ := toNextPrime_spec
    (z.polygon.minSize + z.polygon.minHoleCount * z.polygon.minHoleSize) (by nlinarith)
  unfold toMixStrategy
  simp only [hp, exc_bind_ok, Except.ok.injEq, exists_eq_left']
  simp [pure, Except.pure]

theorem MixArgs.branches_polygon (a : MixArgs) (z : MixSizes) (h : z ∈ a.branches) :
    z.polygon = (a.sizes 0 0 0).polygon := by
  unfold MixArgs.branches at h
  simp only at h
  split at h
  · split at h
    · split at h
      · simp only [List.mem_cons, List.not_mem_nil, or_false] at h
        rcases h with rfl | rfl | rfl <;> rfl
      · simp only [List.mem_cons, List.not_mem_nil, or_false] at h
        subst h; rfl
    · simp only [List.mem_cons, List.not_mem_nil, or_false] at h
      subst h; rfl
  · simp only [List.mem_cons, List.not_mem_nil, or_false] at h
    subst h; rfl

theorem unionMixes_ok (env : Env K) (x : Strategy K) (y : Option (Strategy K))
    (l : List MixSizes) (h : ∀ z ∈ l, 3 ≤ z.polygon.minSize ∧ 0 ≤ z.polygon.minHoleCount ∧
      0 ≤ z.polygon.minHoleSize) : ∃ s, unionMixes env x y l = .ok s := by
  induction l with
  | nil => exact ⟨_, rfl⟩
  | cons z zs ih =>
    obtain ⟨h1, h2, h3⟩ := h z (by simp)
    obtain ⟨s, hs⟩ := toMixStrategy_ok env x y z h1 h2 h3
    cases zs with
    | nil => exact ⟨s, hs⟩
    | cons z' zs =>
      obtain ⟨t, ht⟩ := ih (fun z hz => h z (by simp [hz]))
      exact ⟨s ||| t, by simp [unionMixes, hs, ht, exc_bind_ok, pure, Except.pure]⟩

/-- At least two of the three components may be non-empty. -/
def Spec.TwoComponents (a : MixArgs) : Prop :=
  let p := a.maxPointsSize ≠ some 0
  let s := a.maxSegmentsSize ≠ some 0
  let g := a.maxPolygonsSize ≠ some 0
  (p ∧ s) ∨ (p ∧ g) ∨ (s ∧ g)

theorem mayBeNonEmpty_iff (m : Option Int) : mayBeNonEmpty m = true ↔ m ≠ some 0 := by
  cases m <;> simp [mayBeNonEmpty]

theorem components_iff (a : MixArgs) :
    b2i (mayBeNonEmpty a.maxPointsSize) + b2i (mayBeNonEmpty a.maxSegmentsSize) +
      b2i (mayBeNonEmpty a.maxPolygonsSize) < 2 ↔ ¬ TwoComponents a := by
  unfold TwoComponents
  simp only [← mayBeNonEmpty_iff]
  cases mayBeNonEmpty a.maxPointsSize <;> cases mayBeNonEmpty a.maxSegmentsSize <;>
    cases mayBeNonEmpty a.maxPolygonsSize <;> simp [b2i]

/-- All pairs of bounds of `mixes`. -/
def Spec.MixBadBounds (a : MixArgs) : Prop :=
  BadBounds a.minPointsSize a.maxPointsSize 0 ∨ BadBounds a.minSegmentsSize a.maxSegmentsSize 0 ∨
  BadBounds a.minPolygonsSize a.maxPolygonsSize 0 ∨
  BadBounds a.minPolygonBorderSize a.maxPolygonBorderSize 3 ∨
  BadBounds a.minPolygonHolesSize a.maxPolygonHolesSize 0 ∨
  BadBounds a.minPolygonHoleSize a.maxPolygonHoleSize 3

/-- All warnings of `mixes`. -/
def Spec.mixWarnings (a : MixArgs) : List SizeWarning :=
  lowWarning a.minPointsSize 0 "min_points_size" ++
  lowWarning a.minSegmentsSize 0 "min_segments_size" ++
  lowWarning a.minPolygonsSize 0 "min_polygons_size" ++
  lowWarning a.minPolygonBorderSize 3 "min_polygon_border_size" ++
  lowWarning a.minPolygonHolesSize 0 "min_polygon_holes_size" ++
  lowWarning a.minPolygonHoleSize 3 "min_polygon_hole_size"

theorem mixes_union_ok (env : Env K) (x : Strategy K) (y : Option (Strategy K)) (a : MixArgs) :
    ∃ s, unionMixes env x y a.branches = .ok s := by
  apply unionMixes_ok
  intro z hz
  rw [a.branches_polygon z hz]
  exact ⟨le_max_right _ _, le_max_right _ _, le_trans (by norm_num) (le_max_right _ _)⟩

/-- C31 for `mixes`: it raises `ValueError` exactly for bad bounds or when fewer than two
components may be non-empty. -/
theorem C31_mixes (env : Env K) (x : Strategy K) (y : Option (Strategy K)) (a : MixArgs) :
    Validates (mixes env x y a) (MixBadBounds a ∨ ¬ TwoComponents a) (mixWarnings a) := by
  obtain ⟨s, hs⟩ := mixes_union_ok env x y a
  have hc := components_iff a
  constructor
  · intro e
    simp only [mixes, exc_bind_error, validate_error, validate_ok, hs]
    by_cases h7 : TwoComponents a
    · simp only [if_neg (fun h => (hc.1 h) h7)]
      simp only [exc_bind_error, exc_pure_error, MixBadBounds]
      simp only [h7, reduceCtorEq, and_false, exists_false, or_false, not_true_eq_false]
      clear hc hs s
      by_cases h1 : BadBounds a.minPointsSize a.maxPointsSize 0 <;>
      by_cases h2 : BadBounds a.minSegmentsSize a.maxSegmentsSize 0 <;>
      by_cases h3 : BadBounds a.minPolygonsSize a.maxPolygonsSize 0 <;>
      by_cases h4 : BadBounds a.minPolygonBorderSize a.maxPolygonBorderSize 3 <;>
      by_cases h5 : BadBounds a.minPolygonHolesSize a.maxPolygonHolesSize 0 <;>
      simp [h1, h2, h3, h4, h5]
    · simp only [if_pos (hc.2 h7)]
      simp only [exc_throw_error, MixBadBounds]
      simp only [h7, not_false_eq_true, or_true, and_true]
      clear hc hs s
      by_cases h1 : BadBounds a.minPointsSize a.maxPointsSize 0 <;>
      by_cases h2 : BadBounds a.minSegmentsSize a.maxSegmentsSize 0 <;>
      by_cases h3 : BadBounds a.minPolygonsSize a.maxPolygonsSize 0 <;>
      by_cases h4 : BadBounds a.minPolygonBorderSize a.maxPolygonBorderSize 3 <;>
      by_cases h5 : BadBounds a.minPolygonHolesSize a.maxPolygonHolesSize 0 <;>
      by_cases h6 : BadBounds a.minPolygonHoleSize a.maxPolygonHoleSize 3 <;>
      simp [h1, h2, h3, h4, h5, h6, eq_comm]
  · intro r h
    simp only [mixes, exc_bind_ok, validate_ok, hs] at h
    obtain ⟨w1, ⟨_, rfl⟩, w2, ⟨_, rfl⟩, w3, ⟨_, rfl⟩, w4, ⟨_, rfl⟩, w5, ⟨_, rfl⟩, w6, ⟨_, rfl⟩,
      h⟩ := h
    split at h
    · simp [exc_throw_ok] at h
    · simp only [exc_bind_ok, exc_pure_ok] at h
      obtain ⟨_, _, rfl⟩ := h
      rfl

example : BadBounds 2 (some 1) 1 ∧ BadBounds 0 (some 1) 2 ∧ BadBounds (-1) (some 1) 0 ∧
    ¬ BadBounds (-1) none 1 ∧ ¬ BadBounds 0 (some 1) 1 ∧
    lowWarning 0 1 "min_size" = [⟨"min_size"⟩] := by
  simp [BadBounds, lowWarning]

example : ¬ TwoComponents { maxPointsSize := some 0, maxSegmentsSize := some 0 } ∧
    TwoComponents { maxPointsSize := some 0 } := by
  simp [TwoComponents]

/-! ## C32: a too small lower bound acts as the minimum -/

/-- The second call is accepted without warnings about lower bounds and yields the same
strategy. -/
def SameStrategy {α : Type} (r r' : Except Exc (Made α)) : Prop :=
  ∀ s, r = .ok s → r' = .ok ([], s.2)

theorem badBounds_max {lo : Int} {hi : Option Int} {least : Int} (hl : 0 ≤ least)
    (h : ¬ BadBounds lo hi least) : ¬ BadBounds (max lo least) hi least := by
  rintro ⟨m, rfl, h'⟩
  apply h
  refine ⟨m, rfl, ?_⟩
  omega

theorem lowWarning_max (lo least : Int) (name : String) :
    lowWarning (max lo least) least name = [] := by
  simp [lowWarning]

/-- C32: raising the lower bound to the minimum of the kind changes nothing but the warnings. -/
theorem C32_single (env : Env K) (x : Strategy K) (y : Option (Strategy K)) (lo : Int)
    (hi : Option Int) :
    SameStrategy (multipoints x y lo hi) (multipoints x y (max lo 1) hi) ∧
    SameStrategy (multisegments env x y lo hi) (multisegments env x y (max lo 2) hi) ∧
    SameStrategy (contours env x y lo hi) (contours env x y (max lo 3) hi) ∧
    SameStrategy (convexContours env x y lo hi) (convexContours env x y (max lo 3) hi) ∧
    SameStrategy (starContours env x y lo hi) (starContours env x y (max lo 3) hi) ∧
    SameStrategy (concaveContours env x y lo hi) (concaveContours env x y (max lo 4) hi) := by
  refine ⟨?_, ?_, ?_, ?_, ?_, ?_⟩ <;> intro s h <;>
  · simp only [multipoints, multisegments, contours, convexContours, starContours,
      concaveContours, exc_bind_ok, exc_pure_ok, validate_ok] at h ⊢
    obtain ⟨w, ⟨hb, rfl⟩, rfl⟩ := h
    exact ⟨_, ⟨badBounds_max (by norm_num) hb, (lowWarning_max _ _ _).symm⟩,
      by simp⟩

/-- C32 for `multicontours`. -/
theorem C32_multicontours (env : Env K) (x : Strategy K) (y : Option (Strategy K)) (lo : Int)
    (hi : Option Int) (clo : Int) (chi : Option Int) :
    SameStrategy (multicontours env x y lo hi clo chi)
      (multicontours env x y (max lo 2) hi (max clo 3) chi) := by
  intro s h
  simp only [multicontours, exc_bind_ok, exc_pure_ok, validate_ok] at h ⊢
  obtain ⟨w, ⟨h1, rfl⟩, w', ⟨h2, rfl⟩, rfl⟩ := h
  exact ⟨_, ⟨badBounds_max (by norm_num) h1, (lowWarning_max _ _ _).symm⟩, _,
    ⟨badBounds_max (by norm_num) h2, (lowWarning_max _ _ _).symm⟩, by simp⟩

/-- C32 for `polygons`. -/
theorem C32_polygons (env : Env K) (x : Strategy K) (y : Option (Strategy K)) (lo : Int)
    (hi : Option Int) (nlo : Int) (nhi : Option Int) (hlo : Int) (hhi : Option Int) :
    SameStrategy (polygons env x y lo hi nlo nhi hlo hhi)
      (polygons env x y (max lo 3) hi (max nlo 0) nhi (max hlo 3) hhi) := by
  intro s h
  simp only [polygons, exc_bind_ok, exc_pure_ok, validate_ok] at h ⊢
  obtain ⟨w, ⟨h1, rfl⟩, w', ⟨h2, rfl⟩, w'', ⟨h3, rfl⟩, rfl⟩ := h
  exact ⟨_, ⟨badBounds_max (by norm_num) h1, (lowWarning_max _ _ _).symm⟩, _,
    ⟨badBounds_max (by norm_num) h2, (lowWarning_max _ _ _).symm⟩, _,
    ⟨badBounds_max (by norm_num) h3, (lowWarning_max _ _ _).symm⟩, by simp⟩

/-- C32 for the arguments of `multipolygons` other than the number of holes.  The full claim also
replaces `nlo` by `max nlo 0`; that is false (`C32_multipolygons_negative`). -/
theorem C32_multipolygons_partial (env : Env K) (x : Strategy K) (y : Option (Strategy K))
    (lo : Int) (hi : Option Int) (blo : Int) (bhi : Option Int) (nlo : Int) (nhi : Option Int)
    (hlo : Int) (hhi : Option Int) (hn : 0 ≤ nlo) :
    SameStrategy (multipolygons env x y lo hi blo bhi nlo nhi hlo hhi)
      (multipolygons env x y (max lo 2) hi (max blo 3) bhi nlo nhi (max hlo 3) hhi) := by
  intro s h
  simp only [multipolygons, exc_bind_ok, exc_pure_ok, validate_ok] at h ⊢
  obtain ⟨w, ⟨h1, rfl⟩, w', ⟨h2, rfl⟩, w'', ⟨h3, rfl⟩, w''', ⟨h4, rfl⟩, t, ht, rfl⟩ := h
  refine ⟨_, ⟨badBounds_max (by norm_num) h1, (lowWarning_max _ _ _).symm⟩, _,
    ⟨badBounds_max (by norm_num) h2, (lowWarning_max _ _ _).symm⟩, _,
    ⟨h3, rfl⟩, _,
    ⟨badBounds_max (by norm_num) h4, (lowWarning_max _ _ _).symm⟩, t, ?_, ?_⟩
  · simpa using ht
  · simp [lowWarning, not_lt.mpr hn]

/-- All lower bounds of `mixes` raised to their minima. -/
def Spec.clampMix (a : MixArgs) : MixArgs :=
  { a with
    minPointsSize := max a.minPointsSize 0
    minSegmentsSize := max a.minSegmentsSize 0
    minPolygonsSize := max a.minPolygonsSize 0
    minPolygonBorderSize := max a.minPolygonBorderSize 3
    minPolygonHolesSize := max a.minPolygonHolesSize 0
    minPolygonHoleSize := max a.minPolygonHoleSize 3 }

theorem branches_clamp (a : MixArgs) : (clampMix a).branches = a.branches := by
  simp [clampMix, MixArgs.branches, MixArgs.sizes]

/-- C32 for `mixes`. -/
theorem C32_mixes (env : Env K) (x : Strategy K) (y : Option (Strategy K)) (a : MixArgs) :
    SameStrategy (mixes env x y a) (mixes env x y (clampMix a)) := by
  intro s h
  simp only [mixes, exc_bind_ok, validate_ok] at h ⊢
  obtain ⟨w1, ⟨h1, rfl⟩, w2, ⟨h2, rfl⟩, w3, ⟨h3, rfl⟩, w4, ⟨h4, rfl⟩, w5, ⟨h5, rfl⟩, w6,
    ⟨h6, rfl⟩, h⟩ := h
  refine ⟨_, ⟨badBounds_max (by norm_num) h1, (lowWarning_max _ _ _).symm⟩, _,
    ⟨badBounds_max (by norm_num) h2, (lowWarning_max _ _ _).symm⟩, _,
    ⟨badBounds_max (by norm_num) h3, (lowWarning_max _ _ _).symm⟩, _,
    ⟨badBounds_max (by norm_num) h4, (lowWarning_max _ _ _).symm⟩, _,
    ⟨badBounds_max (by norm_num) h5, (lowWarning_max _ _ _).symm⟩, _,
    ⟨badBounds_max (by norm_num) h6, (lowWarning_max _ _ _).symm⟩, ?_⟩
  rw [branches_clamp]
  change (if b2i (mayBeNonEmpty a.maxPointsSize) + b2i (mayBeNonEmpty a.maxSegmentsSize) +
      b2i (mayBeNonEmpty a.maxPolygonsSize) < 2 then throw Exc.valueError else _) = _
  split at h
  · simp [exc_throw_ok] at h
  · rename_i hc
    rw [if_neg hc]
    simp only [exc_bind_ok, exc_pure_ok] at h ⊢
    obtain ⟨t, ht, rfl⟩ := h
    exact ⟨t, ht, by simp⟩

example (x : Strategy ℤ) :
    multipoints x none (-3) none = .ok ([⟨"min_size"⟩], toMultipointStrategy x none 1 none) ∧
    multipoints x none 1 none = .ok ([], toMultipointStrategy x none 1 none) := ⟨rfl, rfl⟩

end
end HG
