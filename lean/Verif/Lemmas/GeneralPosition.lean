import Verif.Lemmas.Sizes
import Verif.Lemmas.Primes
import Mathlib.Algebra.Order.Ring.Int
import Mathlib.Data.Finset.Card
import Mathlib.RingTheory.Int.Basic
import Mathlib.Tactic.LinearCombination

/-!
# Points in general position: internal lemmas
-/

set_option linter.unusedSectionVars false

namespace HG

open Strategy Spec

/-- A list of integers obtained from distinct residues by a non-degenerate quadratic polynomial
takes every value at most twice. -/
theorem quad_roots {p s b c i j k : ℤ} (hp : Prime p) (hs : ¬ p ∣ s)
    (hij : ¬ p ∣ i - j) (hik : ¬ p ∣ i - k) (hjk : ¬ p ∣ j - k)
    (hi : p ∣ s * (i * i) + b * i - c) (hj : p ∣ s * (j * j) + b * j - c)
    (hk : p ∣ s * (k * k) + b * k - c) : False := by
  have h1 : p ∣ (i - j) * (s * (i + j) + b) := by
    have := dvd_sub hi hj
    rwa [show s * (i * i) + b * i - c - (s * (j * j) + b * j - c) =
      (i - j) * (s * (i + j) + b) by ring] at this
  have h2 : p ∣ (i - k) * (s * (i + k) + b) := by
    have := dvd_sub hi hk
    rwa [show s * (i * i) + b * i - c - (s * (k * k) + b * k - c) =
      (i - k) * (s * (i + k) + b) by ring] at this
  have h1 := (hp.dvd_or_dvd h1).resolve_left hij
  have h2 := (hp.dvd_or_dvd h2).resolve_left hik
  have h3 : p ∣ s * (j - k) := by
    have := dvd_sub h1 h2
    rwa [show s * (i + j) + b - (s * (i + k) + b) = s * (j - k) by ring] at this
  exact (hp.dvd_or_dvd h3).elim hs hjk

theorem not_dvd_sub {p i j : ℤ} (hi : 0 ≤ i) (hip : i < p) (hj : 0 ≤ j) (hjp : j < p)
    (h : i ≠ j) : ¬ p ∣ i - j := by
  intro hd
  have := Int.eq_zero_of_abs_lt_dvd hd (by rw [abs_lt]; omega)
  omega

theorem count_le_two (n : ℕ) (f : ℤ → ℤ)
    (h : ∀ i j k : ℤ, 0 ≤ i → i < n → 0 ≤ j → j < n → 0 ≤ k → k < n → i ≠ j → i ≠ k → j ≠ k →
      f i = f j → f i = f k → False) (a : ℤ) :
    ((intRange n).map f).count a ≤ 2 := by
  by_contra hc
  have hc : 2 < ((intRange n).map f).count a := not_le.1 hc
  have hnd : (intRange n).Nodup := by
    unfold intRange
    exact List.Nodup.map (fun a b h => by simpa using h) List.nodup_range
  rw [List.count, List.countP_map, List.countP_eq_length_filter] at hc
  rw [← List.toFinset_card_of_nodup (hnd.filter _)] at hc
  obtain ⟨i, hi, j, hj, k, hk, h1, h2, h3⟩ := Finset.two_lt_card.1 hc
  have mem : ∀ i : ℤ, i ∈ intRange n → 0 ≤ i ∧ i < n := by
    intro i hi
    simp only [intRange, List.mem_map, List.mem_range] at hi
    obtain ⟨m, hm, rfl⟩ := hi
    simp at hm ⊢
    omega
  simp only [List.mem_toFinset, List.mem_filter, Function.comp_apply, beq_iff_eq] at hi hj hk
  obtain ⟨a1, a2⟩ := mem i hi.1
  obtain ⟨b1, b2⟩ := mem j hj.1
  obtain ⟨c1, c2⟩ := mem k hk.1
  exact h i j k a1 a2 b1 b2 c1 c2 h1 h2 h3 (by rw [hi.2, hj.2]) (by rw [hi.2, hk.2])

theorem parabola_dvd (p s i : ℤ) : p ∣ s * (i * i) - parabola p s i := by
  unfold parabola
  exact Int.dvd_self_sub_emod

theorem parabola_range (p s i : ℤ) (hp : 0 < p) : 0 ≤ parabola p s i ∧ parabola p s i < p :=
  ⟨Int.emod_nonneg _ hp.ne', Int.emod_lt_of_pos _ hp⟩

/-- The sparsity assertion holds for every prime grid size and admissible scale. -/
theorem parabola_sparse (p : ℕ) (hp : p.Prime) (s : ℤ) (hs : ¬ (p : ℤ) ∣ s) :
    indexPairSparse (intRange p) ((intRange p).map (parabola p s)) = true := by
  have hp' : Prime (p : ℤ) := Nat.prime_iff_prime_int.1 hp
  have key : ∀ (b : ℤ) (f : ℤ → ℤ), (∀ i, (p : ℤ) ∣ s * (i * i) + b * i - f i) → ∀ a,
      ((intRange p).map f).count a ≤ 2 := by
    intro b f hf a
    apply count_le_two
    intro i j k hi hi' hj hj' hk hk' hij hik hjk e1 e2
    exact quad_roots hp' hs (not_dvd_sub hi hi' hj hj' hij) (not_dvd_sub hi hi' hk hk' hik)
      (not_dvd_sub hj hj' hk hk' hjk) (hf i) (by rw [e1]; exact hf j) (by rw [e2]; exact hf k)
  have h1 : ∀ a, (intRange p).count a ≤ 2 := by
    intro a
    have : ((intRange p).map id).count a ≤ 2 := by
      apply count_le_two
      intro i j k _ _ _ _ _ _ h1 _ _ h2 _
      exact h1 h2
    simpa using this
  have h2 := key 0 (parabola p s) (fun i => by simpa using parabola_dvd p s i)
  have h3 := key 1 (fun i => i + parabola p s i) (fun i => by
    convert parabola_dvd p s i using 1
    ring)
  have h4 := key (-1) (fun i => -(i - parabola p s i)) (fun i => by
    convert parabola_dvd p s i using 1
    ring)
  have h4' : ∀ a, ((intRange p).map fun i => i - parabola p s i).count a ≤ 2 := by
    intro a
    have := h4 (-a)
    rw [show (fun i => -(i - parabola p s i)) = (fun v : ℤ => -v) ∘ (fun i => i - parabola p s i)
      from rfl, ← List.map_map, List.count_map_of_injective _ _ neg_injective] at this
    exact this
  simp only [indexPairSparse, indicesSparse, List.zipWith_map_right, List.zipWith_self,
    Bool.and_eq_true, List.all_eq_true, decide_eq_true_eq]
  exact ⟨⟨⟨fun a _ => h1 a, fun a _ => h2 a⟩, fun a _ => h3 a⟩, fun a _ => h4' a⟩

theorem mem_intRange {n i : ℤ} : i ∈ intRange n ↔ 0 ≤ i ∧ i < n := by
  simp only [intRange, List.mem_map, List.mem_range]
  constructor
  · rintro ⟨m, hm, rfl⟩
    simp
    omega
  · rintro ⟨h1, h2⟩
    exact ⟨i.toNat, by omega, by simp [h1]⟩

theorem intRange_nodup (n : ℤ) : (intRange n).Nodup := by
  unfold intRange
  exact List.Nodup.map (fun a b h => by simpa using h) List.nodup_range

theorem intRange_length (n : ℤ) : (intRange n).length = n.toNat := by simp [intRange]

theorem getE_ok {α : Type} [Inhabited α] (l : List α) (i : ℤ) (h0 : 0 ≤ i) (h : i < l.length) :
    getE l i = .ok (l.getD i.toNat default) := by
  have h' : i.toNat < l.length := by omega
  simp [getE, pyGet, h0, h', pure, Except.pure, List.getD]

theorem mapM_ok {α β : Type} (f : α → Except Exc β) (g : α → β) (l : List α)
    (h : ∀ a ∈ l, f a = .ok (g a)) : l.mapM f = .ok (l.map g) := by
  induction l with
  | nil => rfl
  | cons a l ih =>
    rw [List.mapM_cons, h a (by simp), ih (fun b hb => h b (by simp [hb]))]
    rfl

section
variable {K : Type} [LinearOrder K] [Zero K] [Add K] [Sub K] [Predicates K]

/-- The index pair of the `i`-th point. -/
def indexPair (swap : Bool) (p s i : ℤ) : ℤ × ℤ :=
  if swap then (parabola p s i, i) else (i, parabola p s i)

/-- The points of a list of index pairs. -/
def pointAt (xs ys : List K) (q : ℤ × ℤ) : Point K :=
  ⟨xs.getD q.1.toNat 0, ys.getD q.2.toNat 0⟩

theorem indicesToPoints_ok (swap : Bool) (p : ℕ) (hp : p.Prime) (s : ℤ) (hs : ¬ (p : ℤ) ∣ s)
    (xs ys : List K) (hx : p ≤ xs.length) (hy : p ≤ ys.length) :
    indicesToPoints swap p xs ys s =
      .ok (((intRange p).map (indexPair swap p s)).map (pointAt xs ys)) := by
  unfold indicesToPoints
  rw [if_pos (parabola_sparse p hp s hs)]
  rw [List.map_map]
  apply mapM_ok
  intro i hi
  obtain ⟨h0, h1⟩ := mem_intRange.1 hi
  obtain ⟨h2, h3⟩ := parabola_range p s i (by exact_mod_cast hp.pos)
  let _ : Inhabited K := ⟨0⟩
  cases swap
  · simp only [Bool.false_eq_true, if_false]
    rw [getE_ok xs i h0 (by omega), getE_ok ys _ h2 (by omega)]
    rfl
  · simp only [if_true]
    rw [getE_ok xs _ h2 (by omega), getE_ok ys i h0 (by omega)]
    rfl

theorem sortCoords_perm (l : List K) : (sortCoords l).Perm l := pySort_perm _ l

theorem sortCoords_sorted (l : List K) (h : l.Nodup) : (sortCoords l).Pairwise (· < ·) := by
  have h1 : (sortCoords l).Pairwise (fun a b => decide (a ≤ b) = true) := by
    have := List.pairwise_insertionSort (fun a b : K => decide (a ≤ b) = true) l
    exact this
  have h2 : (sortCoords l).Nodup := (sortCoords_perm l).nodup_iff.2 h
  refine (h1.and h2).imp ?_
  rintro a b ⟨hab, hne⟩
  exact lt_of_le_of_ne (by simpa using hab) hne

end
end HG
