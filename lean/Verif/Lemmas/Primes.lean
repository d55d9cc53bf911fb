import Verif.Model.Utils
import Verif.Lemmas.Except
import Mathlib.NumberTheory.Bertrand
import Mathlib.Data.Nat.Prime.Basic
import Mathlib.Tactic.Linarith
import Mathlib.Tactic.IntervalCases
import Mathlib.Tactic.NormNum.Prime

/-!
# Correctness of the prime searches of `utils.py`
-/

namespace HG

theorem prime_of_no_small {n d : ℕ} (hn : 2 ≤ n) (hno : ∀ m, 2 ≤ m → m < d → ¬ m ∣ n)
    (hd : n < d * d) : n.Prime := by
  by_contra hp
  have h1 := Nat.minFac_sq_le_self (by omega) hp
  have h2 : n.minFac < d := by
    by_contra h
    have : d * d ≤ n.minFac ^ 2 := by
      rw [sq]
      exact Nat.mul_le_mul (not_lt.mp h) (not_lt.mp h)
    omega
  exact hno _ (Nat.minFac_prime (by omega)).two_le h2 (Nat.minFac_dvd n)

theorem isPrimeLoop_iff (n : ℕ) (hn : 5 ≤ n) (h2 : ¬ 2 ∣ n) (h3 : ¬ 3 ∣ n) (fuel k : ℕ)
    (hno : ∀ m, 2 ≤ m → m < 6 * k + 5 → ¬ m ∣ n) (hf : n ≤ fuel + k) :
    isPrimeLoop (n : ℤ) fuel (6 * ((k : ℤ) + 1)) = true ↔ n.Prime := by
  induction fuel generalizing k with
  | zero =>
    simp only [isPrimeLoop, true_iff]
    refine prime_of_no_small (by omega) hno ?_
    nlinarith
  | succ fuel ih =>
    unfold isPrimeLoop
    have e1 : (6 * ((k : ℤ) + 1)) * (6 * (k + 1)) - 2 * (6 * (k + 1)) + 1
      = (((6 * k + 5) * (6 * k + 5) : ℕ) : ℤ) := by push_cast; ring
    have e2 : 6 * ((k : ℤ) + 1) - 1 = ((6 * k + 5 : ℕ) : ℤ) := by push_cast; ring
    have e3 : 6 * ((k : ℤ) + 1) + 1 = ((6 * k + 7 : ℕ) : ℤ) := by push_cast; ring
    have e4 : 6 * ((k : ℤ) + 1) + 6 = 6 * (((k + 1 : ℕ) : ℤ) + 1) := by push_cast; ring
    rw [e1, e2, e3, e4]
    split
    · rename_i hle
      have hle' : (6 * k + 5) * (6 * k + 5) ≤ n := by exact_mod_cast hle
      split
      · rename_i hd
        have hd' : (6 * k + 5) ∣ n := by
          rw [← Int.natCast_dvd_natCast]; exact Int.dvd_of_emod_eq_zero hd
        simp only [Bool.false_eq_true, false_iff]
        intro hp
        rcases (Nat.dvd_prime hp).mp hd' with h | h
        · omega
        · nlinarith
      · rename_i hd
        have hd' : ¬ (6 * k + 5) ∣ n := by
          intro h; apply hd; exact Int.emod_eq_zero_of_dvd (Int.natCast_dvd_natCast.mpr h)
        split
        · rename_i hd2
          have hd2' : (6 * k + 7) ∣ n := by
            rw [← Int.natCast_dvd_natCast]; exact Int.dvd_of_emod_eq_zero hd2
          simp only [Bool.false_eq_true, false_iff]
          intro hp
          rcases (Nat.dvd_prime hp).mp hd2' with h | h
          · omega
          · nlinarith
        · rename_i hd2
          have hd2' : ¬ (6 * k + 7) ∣ n := by
            intro h; apply hd2; exact Int.emod_eq_zero_of_dvd (Int.natCast_dvd_natCast.mpr h)
          refine ih (k + 1) ?_ (by omega)
          intro m hm2 hm hmn
          by_cases hlt : m < 6 * k + 5
          · exact hno m hm2 hlt hmn
          · have hcases : m = 6 * k + 5 ∨ m = 6 * k + 7 ∨ 2 ∣ m ∨ 3 ∣ m := by omega
            rcases hcases with rfl | rfl | h | h
            · exact hd' hmn
            · exact hd2' hmn
            · exact h2 (h.trans hmn)
            · exact h3 (h.trans hmn)
    · rename_i hle
      have hle' : n < (6 * k + 5) * (6 * k + 5) := by
        have := not_le.mp hle
        exact_mod_cast this
      simp only [true_iff]
      exact prime_of_no_small (by omega) hno hle'

/-- `_is_prime` is right on odd numbers from 5 on. -/
theorem isPrime_iff (n : ℕ) (hn : 5 ≤ n) (hodd : n % 2 = 1) :
    isPrime (n : ℤ) = true ↔ n.Prime := by
  unfold isPrime
  split
  · rename_i h
    simp only [Bool.false_eq_true, false_iff]
    intro hp
    have h3 : 3 ∣ n := by
      rw [← Int.natCast_dvd_natCast]; exact Int.dvd_of_emod_eq_zero h
    rcases (Nat.dvd_prime hp).mp h3 with h | h <;> omega
  · rename_i h
    have h3 : ¬ 3 ∣ n := by
      intro h'; apply h; exact Int.emod_eq_zero_of_dvd (Int.natCast_dvd_natCast.mpr h')
    have h2 : ¬ 2 ∣ n := by omega
    have := isPrimeLoop_iff n hn h2 h3 n 0 ?_ (by omega)
    · simpa using this
    · intro m hm2 hm hmn
      have : m = 2 ∨ m = 3 ∨ m = 4 := by omega
      rcases this with rfl | rfl | rfl
      · exact h2 hmn
      · exact h3 hmn
      · exact h2 (dvd_trans (by norm_num) hmn)

theorem isPrime_three : isPrime 3 = false := by decide
theorem isPrime_one : isPrime 1 = true := by decide

theorem nextLoop_spec (fuel : ℕ) (s q : ℕ) (hs : 5 ≤ s) (hodd : s % 2 = 1) (hq : q.Prime)
    (hsq : s ≤ q) (hf : q < s + 2 * fuel) :
    ∃ p : ℕ, nextLoop fuel (s : ℤ) = .ok (p : ℤ) ∧ p.Prime ∧ s ≤ p ∧
      ∀ r : ℕ, r.Prime → s ≤ r → p ≤ r := by
  induction fuel generalizing s with
  | zero => omega
  | succ fuel ih =>
    unfold nextLoop
    by_cases hp : s.Prime
    · exact ⟨s, by simp [(isPrime_iff s hs hodd).mpr hp, pure, Except.pure], hp, le_rfl,
        fun r _ hr => hr⟩
    · have hnp : isPrime (s : ℤ) = false := by
        rw [← Bool.not_eq_true]
        exact fun h => hp ((isPrime_iff s hs hodd).mp h)
      have hne : ∀ r : ℕ, r.Prime → s ≤ r → s + 2 ≤ r := by
        intro r hr hsr
        have h1 : r ≠ s := fun h => hp (h ▸ hr)
        have h2 : r ≠ s + 1 := by
          intro h
          have := hr.eq_one_or_self_of_dvd 2 (by omega)
          omega
        omega
      have hq' := hne q hq hsq
      obtain ⟨p, h1, h2, h3, h4⟩ := ih (s + 2) (by omega) (by omega) hq' (by omega)
      refine ⟨p, ?_, h2, by omega, fun r hr hsr => h4 r hr (hne r hr hsr)⟩
      simp only [hnp, Bool.false_eq_true, if_false]
      exact_mod_cast h1

/-- `to_next_prime` returns the least prime that is at least `max value 5`, and it is at most
twice the value. -/
theorem toNextPrime_spec (v : ℤ) (hv : 3 ≤ v) :
    ∃ p : ℕ, toNextPrime v = .ok (p : ℤ) ∧ p.Prime ∧ v ≤ p ∧ 5 ≤ p ∧ (p : ℤ) ≤ 2 * v ∧
      ∀ r : ℕ, r.Prime → v ≤ r → 5 ≤ r → p ≤ r := by
  lift v to ℕ using (by omega)
  simp only [Nat.ofNat_le_cast] at hv
  by_cases h3 : v = 3
  · subst h3
    exact ⟨5, by decide, by norm_num, by norm_num, le_rfl, by norm_num, fun r _ _ h => h⟩
  obtain ⟨q, hq, hlt, hle⟩ := Nat.exists_prime_lt_and_le_two_mul v (by omega)
  have hqodd : q % 2 = 1 := hq.eq_two_or_odd.resolve_left (by omega)
  obtain ⟨s, hs, hsv⟩ : ∃ s : ℕ, (v : ℤ) + (1 - (v : ℤ) % 2) = (s : ℤ) ∧ s = v + (1 - v % 2) :=
    ⟨v + (1 - v % 2), by push_cast; omega, rfl⟩
  obtain ⟨p, h1, h2, h3, h4⟩ := nextLoop_spec v s q (by omega) (by omega) hq (by omega) (by omega)
  refine ⟨p, ?_, h2, ?_, by omega, ?_, ?_⟩
  · unfold toNextPrime
    rw [if_pos (by omega), hs]
    simpa using h1
  · omega
  · have := h4 q hq (by omega)
    omega
  · intro r hr hvr h5
    refine h4 r hr ?_
    have : r % 2 = 1 := hr.eq_two_or_odd.resolve_left (by omega)
    omega

theorem priorLoop_spec (fuel : ℕ) (s : ℕ) (hs : 5 ≤ s) (hodd : s % 2 = 1) (hf : s ≤ 2 * fuel + 3) :
    ∃ p : ℕ, priorLoop fuel (s : ℤ) = .ok (p : ℤ) ∧ p.Prime ∧ p ≤ s ∧ 5 ≤ p ∧
      ∀ r : ℕ, r.Prime → r ≤ s → r ≤ p := by
  induction fuel generalizing s with
  | zero => omega
  | succ fuel ih =>
    unfold priorLoop
    by_cases hp : s.Prime
    · exact ⟨s, by simp [(isPrime_iff s hs hodd).mpr hp, pure, Except.pure], hp, le_rfl, hs,
        fun r _ hr => hr⟩
    · have hnp : isPrime (s : ℤ) = false := by
        rw [← Bool.not_eq_true]
        exact fun h => hp ((isPrime_iff s hs hodd).mp h)
      have h7 : 7 ≤ s := by
        have : s ≠ 5 := by rintro rfl; exact hp (by norm_num)
        omega
      obtain ⟨p, h1, h2, h3, h5, h4⟩ := ih (s - 2) (by omega) (by omega) (by omega)
      refine ⟨p, ?_, h2, by omega, h5, ?_⟩
      · simp only [hnp, Bool.false_eq_true, if_false]
        rw [← h1]
        congr 1
        omega
      · intro r hr hrs
        by_cases h : r = 2
        · omega
        · have : r % 2 = 1 := hr.eq_two_or_odd.resolve_left h
          have : r ≠ s := fun h => hp (h ▸ hr)
          exact h4 r hr (by omega)

/-- `to_prior_prime` returns the greatest prime not exceeding a value of at least 5. -/
theorem toPriorPrime_spec (v : ℤ) (hv : 5 ≤ v) :
    ∃ p : ℕ, toPriorPrime v = .ok (p : ℤ) ∧ p.Prime ∧ (p : ℤ) ≤ v ∧ 5 ≤ p ∧
      ∀ r : ℕ, r.Prime → (r : ℤ) ≤ v → r ≤ p := by
  lift v to ℕ using (by omega)
  have hv' : 5 ≤ v := by exact_mod_cast hv
  obtain ⟨s, hs, hsv⟩ : ∃ s : ℕ, (v : ℤ) + ((v : ℤ) % 2 - 1) = (s : ℤ) ∧ s = v - (1 - v % 2) :=
    ⟨v - (1 - v % 2), by push_cast; omega, rfl⟩
  obtain ⟨p, h1, h2, h3, h5, h4⟩ := priorLoop_spec v s (by omega) (by omega) (by omega)
  refine ⟨p, ?_, h2, by omega, h5, ?_⟩
  · unfold toPriorPrime
    rw [if_pos (by omega), hs]
    simpa using h1
  · intro r hr hrv
    have hrv' : r ≤ v := by exact_mod_cast hrv
    by_cases h : r = 2
    · omega
    · have : r % 2 = 1 := hr.eq_two_or_odd.resolve_left h
      exact h4 r hr (by omega)

end HG
