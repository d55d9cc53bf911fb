import Verif.Model.Contracts
import Mathlib.Tactic.Ring
import Mathlib.Tactic.Linarith

/-!
# Orientation lemmas
-/

set_option linter.unusedSectionVars false

namespace HG

variable {K : Type} [CommRing K] [LinearOrder K]

theorem orient_ccw_iff (a b c : Point K) :
    orient a b c = .counterclockwise ↔ 0 < cross a b c := by
  rw [orient_def]; unfold signOrientation
  split
  · simp [le_of_lt ‹_›]
  · split
    · simp [‹cross a b c = 0›]
    · simp only [true_iff]
      exact lt_of_le_of_ne (not_lt.mp ‹_›) (Ne.symm ‹_›)

theorem orient_col_iff (a b c : Point K) : orient a b c = .collinear ↔ cross a b c = 0 := by
  rw [orient_def]; unfold signOrientation
  split
  · simp [ne_of_lt ‹_›]
  · split <;> simp_all

theorem orient_cw_iff (a b c : Point K) : orient a b c = .clockwise ↔ cross a b c < 0 := by
  rw [orient_def]; unfold signOrientation
  split
  · simp_all
  · split <;> simp_all

theorem cross_rot (a b c : Point K) : cross b c a = cross a b c := by unfold cross; ring
theorem cross_rot' (a b c : Point K) : cross c a b = cross a b c := by unfold cross; ring
theorem cross_swap12 (a b c : Point K) : cross b a c = - cross a b c := by unfold cross; ring
theorem cross_swap23 (a b c : Point K) : cross a c b = - cross a b c := by unfold cross; ring
theorem cross_swap13 (a b c : Point K) : cross c b a = - cross a b c := by unfold cross; ring
@[simp] theorem cross_self12 (a b : Point K) : cross a a b = 0 := by unfold cross; ring
@[simp] theorem cross_self13 (a b : Point K) : cross a b a = 0 := by unfold cross; ring
@[simp] theorem cross_self23 (a b : Point K) : cross a b b = 0 := by unfold cross; ring

end HG
