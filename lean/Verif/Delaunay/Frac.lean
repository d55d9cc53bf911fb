import Mathlib.RingTheory.Localization.FractionRing
import Mathlib.Algebra.Order.Ring.Cone
import Mathlib.Algebra.Order.Field.Basic
import Mathlib.Tactic.Linarith
import Mathlib.Tactic.Positivity

/-!
# Every ordered integral domain embeds in an ordered field
-/

namespace HG

section
variable (K : Type) [CommRing K] [LinearOrder K] [IsStrictOrderedRing K]


/-- The fractions with non-negative numerator and positive denominator. -/
noncomputable def fracCone : RingCone (FractionRing K) where
  carrier := {z | ∃ a b : K, 0 ≤ a ∧ 0 < b ∧ z * algebraMap K (FractionRing K) b = algebraMap K _ a}
  mul_mem' := by
    rintro z w ⟨a, b, ha, hb, h⟩ ⟨c, d, hc, hd, h'⟩
    refine ⟨a * c, b * d, mul_nonneg ha hc, mul_pos hb hd, ?_⟩
    rw [map_mul, map_mul, ← h, ← h']; ring
  one_mem' := ⟨1, 1, zero_le_one, zero_lt_one, by simp⟩
  add_mem' := by
    rintro z w ⟨a, b, ha, hb, h⟩ ⟨c, d, hc, hd, h'⟩
    refine ⟨a * d + c * b, b * d, add_nonneg (mul_nonneg ha hd.le) (mul_nonneg hc hb.le), mul_pos hb hd, ?_⟩
    rw [map_mul, map_add, map_mul, map_mul, ← h, ← h']; ring
  zero_mem' := ⟨0, 1, le_refl _, zero_lt_one, by simp⟩
  eq_zero_of_mem_of_neg_mem' := by
    rintro z ⟨a, b, ha, hb, h⟩ ⟨c, d, hc, hd, h'⟩
    have inj := IsFractionRing.injective K (FractionRing K)
    have e : algebraMap K (FractionRing K) (a * d) = algebraMap K (FractionRing K) (-(c * b)) := by
      rw [map_neg, map_mul, map_mul, ← h, ← h']; ring
    have e' := inj e
    have h1 : a * d = 0 := le_antisymm (by rw [e']; have := mul_nonneg hc (le_of_lt hb); linarith)
      (mul_nonneg ha (le_of_lt hd))
    have h2 : a = 0 := (mul_eq_zero.1 h1).resolve_right (ne_of_gt hd)
    rw [h2, map_zero] at h
    refine (mul_eq_zero.1 h).resolve_right fun hb0 => ne_of_gt hb (inj (by rw [hb0, map_zero]))

instance fracTotal : HasMemOrNegMem (fracCone K) where
  mem_or_neg_mem z := by
    obtain ⟨⟨a, b⟩, h⟩ := IsLocalization.surj (nonZeroDivisors K) z
    have hb : (b : K) ≠ 0 := nonZeroDivisors.ne_zero b.2
    simp only at h
    have key : ∀ (a b : K), 0 < b → z * algebraMap K (FractionRing K) b = algebraMap K _ a →
        z ∈ fracCone K ∨ -z ∈ fracCone K := by
      intro a b hb h
      rcases le_total 0 a with ha | ha
      · exact .inl ⟨a, b, ha, hb, h⟩
      · exact .inr ⟨-a, b, by linarith, hb, by rw [map_neg, ← h]; ring⟩
    rcases lt_or_gt_of_ne hb with hb | hb
    · exact key (-a) (-b) (by linarith) (by rw [map_neg, map_neg, ← h]; ring)
    · exact key a b hb h

end

/-- Every ordered integral domain embeds in an ordered field. -/
theorem exists_field (K : Type) [CommRing K] [LinearOrder K] [IsStrictOrderedRing K] :
    ∃ (F : Type) (_ : Field F) (_ : LinearOrder F) (_ : IsStrictOrderedRing F) (f : K →+* F),
      StrictMono f := by
  classical
  let _ : DecidablePred (· ∈ fracCone K) := fun _ => Classical.propDecidable _
  let lo : LinearOrder (FractionRing K) := .mkOfAddGroupCone (fracCone K)
  have io : IsOrderedRing (FractionRing K) := .mkOfCone (fracCone K)
  have : IsStrictOrderedRing (FractionRing K) := IsOrderedRing.toIsStrictOrderedRing _
  refine ⟨FractionRing K, inferInstance, lo, inferInstance, algebraMap K _, ?_⟩
  refine Monotone.strictMono_of_injective ?_ (IsFractionRing.injective K _)
  intro x y h
  show algebraMap K _ y - algebraMap K _ x ∈ fracCone K
  exact ⟨y - x, 1, by linarith, zero_lt_one, by simp⟩

end HG
