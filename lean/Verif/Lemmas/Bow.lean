import Verif.Lemmas.OneTurn
import Mathlib.Tactic.Positivity

/-!
# Closed chains through the origin

A closed chain with an edge through the origin whose other edges turn around the origin as its
vertices turn, and whose vectors are on one side of some line for only one stretch of indices: the
edges turn left around the origin on the left of the first edge and right on its right.
-/

set_option linter.unusedSectionVars false

namespace HG

section
variable {K : Type} [CommRing K] [LinearOrder K] [IsStrictOrderedRing K]

/-- Opposite directions. -/
def Opp (a b : K × K) : Prop := vcr a b = 0 ∧ a.1 * b.1 + a.2 * b.2 < 0

theorem Opp.symm {a b : K × K} (h : Opp a b) : Opp b a :=
  ⟨by rw [vcr_swap, h.1, neg_zero], by have := h.2; linarith⟩

theorem Opp.norm {a b : K × K} (h : Opp a b) : 0 < a.1 * a.1 + a.2 * a.2 := by
  by_contra hc
  have h1 := mul_self_nonneg a.1
  have h2 := mul_self_nonneg a.2
  have e1 : a.1 = 0 := mul_self_eq_zero.1 (by linarith)
  have e2 : a.2 = 0 := mul_self_eq_zero.1 (by linarith)
  have := h.2
  rw [e1, e2] at this
  simp at this

/-- Vectors of opposite directions are on opposite sides of a line. -/
theorem Opp.side {a b : K × K} (h : Opp a b) (u : K × K) :
    (0 < vcr u a → vcr u b < 0) ∧ (vcr u a < 0 → 0 < vcr u b) ∧ (vcr u a = 0 → vcr u b = 0) := by
  have e : vcr u b * (a.1 * a.1 + a.2 * a.2) = (a.1 * b.1 + a.2 * b.2) * vcr u a := by
    have h1 := h.1
    simp only [vcr] at h1 ⊢
    linear_combination (u.1 * a.1 + u.2 * a.2) * h1
  have hn := h.norm
  have hd := h.2
  refine ⟨fun hu => ?_, fun hu => ?_, fun hu => ?_⟩
  · by_contra hc
    have := mul_nonneg (not_lt.1 hc) hn.le
    have := mul_neg_of_neg_of_pos hd hu
    linarith
  · by_contra hc
    have := mul_nonpos_of_nonpos_of_nonneg (not_lt.1 hc) hn.le
    have := mul_pos_of_neg_of_neg hd hu
    linarith
  · rw [hu, mul_zero] at e
    exact (mul_eq_zero.1 e).resolve_right hn.ne'

/-- No four indices alternate. -/
def NoAlt (n : ℕ) (P : ℕ → Prop) : Prop :=
  ∀ i j k m, i < j → j < k → k < m → m < n → ¬ (P i ∧ ¬ P j ∧ P k ∧ ¬ P m) ∧
    ¬ (¬ P i ∧ P j ∧ ¬ P k ∧ P m)

theorem NoAlt.congr {n : ℕ} {P Q : ℕ → Prop} (h : NoAlt n P) (e : ∀ i, Q i ↔ P i) : NoAlt n Q := by
  intro i j k m h1 h2 h3 h4
  simp only [e]
  exact h i j k m h1 h2 h3 h4

/-- The case of a line through the edge. -/
theorem bow_line {p : ℕ → K × K} {n : ℕ} (hn : 3 ≤ n)
    (H1 : ∀ i, i + 2 < n → 0 ≤ vcr (p i) (p (i + 1)) * vcr (p (i + 1)) (p (i + 2)))
    (H4 : ∀ i, i + 1 < n → vcr (p i) (p (i + 1)) = 0 → Opp (p i) (p (i + 1)))
    (H5 : Opp (p (n - 1)) (p 0)) (hb0 : 0 < vcr (p 0) (p 1))
    (hbn : vcr (p (n - 2)) (p (n - 1)) ≠ 0)
    (HP : NoAlt n fun i => 0 < vcr (p 0) (p i)) (HN : NoAlt n fun i => vcr (p 0) (p i) < 0)
    {i : ℕ} (hi : i + 1 < n) :
    0 ≤ vcr (p i) (p (i + 1)) * vcr (p 0) (p i) ∧
      0 ≤ vcr (p i) (p (i + 1)) * vcr (p 0) (p (i + 1)) := by
  set b : ℕ → K := fun i => vcr (p i) (p (i + 1)) with hb
  set f : ℕ → K := fun i => vcr (p 0) (p i) with hf
  change 0 ≤ b i * f i ∧ 0 ≤ b i * f (i + 1)
  have f0 : f 0 = 0 := by simp only [hf, vcr]; ring
  have f1 : 0 < f 1 := hb0
  have fn : f (n - 1) = 0 := by
    have := H5.1
    rw [vcr_swap] at this
    exact neg_eq_zero.1 this
  have H1 : ∀ i, i + 2 < n → 0 ≤ b i * b (i + 1) := H1
  have H4 : ∀ i, i + 1 < n → b i = 0 → Opp (p i) (p (i + 1)) := H4
  -- the last edge
  have hlast : (0 < f (n - 2) → 0 < b (n - 2)) ∧ (f (n - 2) < 0 → b (n - 2) < 0) ∧
      (f (n - 2) = 0 → b (n - 2) = 0) := by
    have := H5.symm.side (p (n - 2))
    have e1 : vcr (p (n - 2)) (p 0) = - f (n - 2) := vcr_swap _ _
    have e2 : vcr (p (n - 2)) (p (n - 1)) = b (n - 2) := by
      simp only [hb]; rw [show n - 2 + 1 = n - 1 by omega]
    rw [e1, e2] at this
    exact ⟨fun h => this.2.1 (by linarith), fun h => this.1 (by linarith),
      fun h => this.2.2 (by rw [h, neg_zero])⟩
  have hbn : b (n - 2) ≠ 0 := by
    simp only [hb]; rw [show n - 2 + 1 = n - 1 by omega]; exact hbn
  have step : ∀ j, j + 2 < n → 0 < b j → 0 ≤ b (j + 1) := by
    intro j hj h
    by_contra hc
    have := mul_neg_of_pos_of_neg h (not_le.1 hc)
    linarith [H1 j hj]
  -- once down, never up
  have down : ∀ j k, 1 < j → j < k → k < n → f j ≤ 0 → f k ≤ 0 := by
    intro j k h1 h2 h3 h4
    by_contra hc
    exact (HP 0 1 j k (by omega) h1 h2 h3).2
      ⟨by change ¬ 0 < f 0; rw [f0]; exact lt_irrefl _, f1, not_lt.2 h4, not_le.1 hc⟩
  have K1 : ∀ k m, k + 1 < n → (m = k ∨ m = k + 1) → 0 < b k → f m < 0 → False := by
    intro k m hk hm hbk hfm
    have hm1 : 1 < m := by
      by_contra hc
      have : m = 0 ∨ m = 1 := by omega
      rcases this with rfl | rfl
      · rw [f0] at hfm; exact lt_irrefl _ hfm
      · exact lt_asymm f1 hfm
    have hmn : m ≤ n - 2 := by
      by_contra hc
      have : m = n - 1 := by omega
      rw [this, fn] at hfm; exact lt_irrefl _ hfm
    have hend : f (n - 2) < 0 := by
      rcases hmn.eq_or_lt with h | h
      · rw [← h]; exact hfm
      · refine lt_of_le_of_ne (down m (n - 2) hm1 h (by omega) hfm.le) fun h => hbn (hlast.2.2 h)
    have neg : ∀ j, m ≤ j → j ≤ n - 2 → f j < 0 := by
      intro j h1 h2
      by_contra hc
      have : m ≠ j := fun h => hc (h ▸ hfm)
      have : j ≠ n - 2 := fun h => hc (h ▸ hend)
      exact (HN m j (n - 2) (n - 1) (by omega) (by omega) (by omega) (by omega)).1
        ⟨hfm, hc, hend, by change ¬ f (n - 1) < 0; rw [fn]; exact lt_irrefl _⟩
    have nz : ∀ j, m ≤ j → j ≤ n - 2 → b j ≠ 0 := by
      intro j h1 h2 h3
      have := (H4 j (by omega) h3).side (p 0)
      have h4 := this.2.1 (neg j h1 h2)
      rcases Nat.lt_or_ge (j + 1) (n - 1) with h | h
      · exact lt_asymm h4 (neg (j + 1) (by omega) (by omega))
      · have : j + 1 = n - 1 := by omega
        change 0 < f (j + 1) at h4
        rw [this, fn] at h4
        exact lt_irrefl _ h4
    have start : 0 < b m := by
      rcases hm with rfl | rfl
      · exact hbk
      · exact lt_of_le_of_ne (step k (by omega) hbk) (nz _ le_rfl hmn).symm
    have all : ∀ d, m + d ≤ n - 2 → 0 < b (m + d) := by
      intro d
      induction d with
      | zero => exact fun _ => start
      | succ d ih =>
        exact fun h => lt_of_le_of_ne (step (m + d) (by omega) (ih (by omega)))
          (nz _ (by omega) h).symm
    have := all (n - 2 - m) (by omega)
    rw [show m + (n - 2 - m) = n - 2 by omega] at this
    exact lt_asymm this (hlast.2.1 hend)
  have K2 : ∀ k m, k + 1 < n → (m = k ∨ m = k + 1) → b k < 0 → 0 < f m → False := by
    intro k m hk hm hbk hfm
    have pos : ∀ j, 1 ≤ j → j ≤ m → 0 < f j := by
      intro j h1 h2
      by_contra hc
      have n1 : j ≠ 1 := fun h => hc (h ▸ f1)
      have n2 : j ≠ m := fun h => hc (h ▸ hfm)
      have := down j m (by omega) (by omega) (by omega) (not_lt.1 hc)
      linarith
    have all : ∀ j, j + 1 ≤ m → 0 < b j := by
      intro j
      induction j with
      | zero => exact fun _ => hb0
      | succ j ih =>
        intro h
        refine lt_of_le_of_ne (step j (by omega) (ih (by omega))) fun h0 => ?_
        have := ((H4 (j + 1) (by omega) h0.symm).side (p 0)).1 (pos (j + 1) (by omega) (by omega))
        exact lt_asymm this (pos (j + 1 + 1) (by omega) h)
    rcases hm with rfl | rfl
    · rcases Nat.eq_zero_or_pos m with rfl | hm0
      · rw [f0] at hfm; exact lt_irrefl _ hfm
      · have := step (m - 1) (by omega) (all (m - 1) (by omega))
        rw [Nat.sub_add_cancel hm0] at this
        exact absurd hbk (not_lt.2 this)
    · exact lt_asymm (all k le_rfl) hbk
  have fin : ∀ m, (m = i ∨ m = i + 1) → 0 ≤ b i * f m := by
    intro m hm
    rcases lt_trichotomy (b i) 0 with h | h | h
    · exact mul_nonneg_of_nonpos_of_nonpos h.le (not_lt.1 fun h' => K2 i m hi hm h h')
    · rw [h, zero_mul]
    · exact mul_nonneg h.le (not_lt.1 fun h' => K1 i m hi hm h h')
  exact ⟨fin i (.inl rfl), fin (i + 1) (.inr rfl)⟩

/-- The case of a line that the edge crosses. -/
theorem bow_cross {p : ℕ → K × K} {n : ℕ} (hn : 3 ≤ n)
    (H1 : ∀ i, i + 2 < n → 0 ≤ vcr (p i) (p (i + 1)) * vcr (p (i + 1)) (p (i + 2)))
    (H2 : ∀ i, i + 2 < n → vcr (p i) (p (i + 1)) = 0 → vcr (p (i + 1)) (p (i + 2)) ≠ 0)
    (H4 : ∀ i, i + 1 < n → vcr (p i) (p (i + 1)) = 0 → Opp (p i) (p (i + 1)))
    (H5 : Opp (p (n - 1)) (p 0)) (hb0 : 0 < vcr (p 0) (p 1))
    {u : K × K} (hu : 0 < vcr u (p 0))
    (HP : NoAlt n fun i => 0 < vcr u (p i)) (HN : NoAlt n fun i => vcr u (p i) < 0)
    {i : ℕ} (hi : i + 1 < n) :
    0 ≤ vcr (p i) (p (i + 1)) * vcr (p 0) (p i) ∧
      0 ≤ vcr (p i) (p (i + 1)) * vcr (p 0) (p (i + 1)) := by
  set b : ℕ → K := fun i => vcr (p i) (p (i + 1)) with hb
  set f : ℕ → K := fun i => vcr (p 0) (p i) with hf
  set g : ℕ → K := fun i => vcr u (p i) with hg
  change 0 ≤ b i * f i ∧ 0 ≤ b i * f (i + 1)
  have f0 : f 0 = 0 := by simp only [hf, vcr]; ring
  have fn : f (n - 1) = 0 := by
    have := H5.1
    rw [vcr_swap] at this
    exact neg_eq_zero.1 this
  have g0 : 0 < g 0 := hu
  have gn : g (n - 1) < 0 := (H5.symm.side u).1 hu
  have H1 : ∀ i, i + 2 < n → 0 ≤ b i * b (i + 1) := H1
  have H2 : ∀ i, i + 2 < n → b i = 0 → b (i + 1) ≠ 0 := H2
  have H4 : ∀ i, i + 1 < n → b i = 0 → Opp (p i) (p (i + 1)) := H4
  -- first above, then on, then below the line
  have mono1 : ∀ j k, j ≤ k → k < n → g j ≤ 0 → g k ≤ 0 := by
    intro j k h1 h2 h3
    by_contra hc
    have n0 : j ≠ 0 := by rintro rfl; linarith
    have n1 : j ≠ k := by rintro rfl; exact hc h3
    have n2 : k ≠ n - 1 := by rintro rfl; exact hc gn.le
    exact (HP 0 j k (n - 1) (by omega) (by omega) (by omega) (by omega)).1
      ⟨g0, not_lt.2 h3, not_le.1 hc, not_lt.2 gn.le⟩
  have mono2 : ∀ j k, j ≤ k → k < n → g j < 0 → g k < 0 := by
    intro j k h1 h2 h3
    by_contra hc
    have n0 : j ≠ 0 := by rintro rfl; linarith
    have n1 : j ≠ k := by rintro rfl; exact hc h3
    have n2 : k ≠ n - 1 := by rintro rfl; exact hc gn
    exact (HN 0 j k (n - 1) (by omega) (by omega) (by omega) (by omega)).2
      ⟨not_lt.2 g0.le, h3, hc, gn⟩
  have step : ∀ j, j + 2 < n → 0 < b j → 0 ≤ b (j + 1) := by
    intro j hj h
    by_contra hc
    have := mul_neg_of_pos_of_neg h (not_le.1 hc)
    linarith [H1 j hj]
  have step' : ∀ j, j + 2 < n → b j < 0 → b (j + 1) ≤ 0 := by
    intro j hj h
    by_contra hc
    have := mul_neg_of_neg_of_pos h (not_le.1 hc)
    linarith [H1 j hj]
  -- turning left from the first vector above the line
  have fwd : ∀ j, j < n → (∀ k < j, 0 < b k) → 0 ≤ g j → 1 ≤ j → 0 < f j := by
    intro j
    induction j with
    | zero => intro _ _ _ h; omega
    | succ j ih =>
      intro hj hk hg' _
      rcases Nat.eq_zero_or_pos j with rfl | hj0
      · exact hb0
      · have gj : 0 ≤ g j := by
          by_contra hc
          have := mono2 j (j + 1) (by omega) hj (not_le.1 hc)
          linarith
        have h1 := ih (by omega) (fun k h => hk k (by omega)) gj hj0
        have h2 := hk j (by omega)
        have e : f (j + 1) * g j = f j * g (j + 1) + b j * g 0 := by
          simp only [hf, hg, hb, vcr]; ring
        have p1 := mul_nonneg h1.le hg'
        have p2 := mul_pos h2 g0
        exact pos_of_mul_pos_left (by rw [e]; linarith) gj
  -- turning towards the last vector below the line
  have bwd : ∀ s : K, ∀ d j, j + d = n - 1 → (∀ k, j ≤ k → k < n - 1 → 0 < s * b k) → g j ≤ 0 →
      j < n - 1 → 0 < s * vcr (p j) (p (n - 1)) := by
    intro s d
    induction d with
    | zero => intro j h1 _ _ h; omega
    | succ d ih =>
      intro j h1 hk hg' hj
      rcases Nat.lt_or_ge (j + 1) (n - 1) with h | h
      · have g1 : g (j + 1) ≤ 0 := mono1 j (j + 1) (by omega) (by omega) hg'
        have h2 := ih (j + 1) (by omega) (fun k h => hk k (by omega)) g1 h
        have h3 := hk j le_rfl hj
        have e : s * vcr (p j) (p (n - 1)) * g (j + 1) =
            s * b j * g (n - 1) + s * vcr (p (j + 1)) (p (n - 1)) * g j := by
          simp only [hg, hb, vcr]; ring
        have p1 := mul_neg_of_pos_of_neg h3 gn
        have p2 := mul_nonpos_of_nonneg_of_nonpos h2.le hg'
        by_contra hc
        have := mul_nonneg_of_nonpos_of_nonpos (not_lt.1 hc) g1
        linarith
      · have := hk j le_rfl hj
        simp only [hb] at this
        rwa [show j + 1 = n - 1 by omega] at this
  have conv : ∀ s : K, ∀ j, 0 < s * vcr (p j) (p (n - 1)) → 0 < s * f j := by
    intro s j h
    have e : (s * vcr (p j) (p (n - 1))) * ((p 0).1 * (p 0).1 + (p 0).2 * (p 0).2) =
        - (((p (n - 1)).1 * (p 0).1 + (p (n - 1)).2 * (p 0).2) * (s * f j)) := by
      have h1 := H5.1
      simp only [hf, vcr] at h1 ⊢
      linear_combination (-s * ((p j).1 * (p 0).1 + (p j).2 * (p 0).2)) * h1
    have p1 := mul_pos h H5.symm.norm
    by_contra hc
    have := mul_nonneg_of_nonpos_of_nonpos H5.2.le (not_lt.1 hc)
    linarith
  by_cases hz : ∃ m, m + 1 < n ∧ b m = 0
  · classical
    set m := Nat.find hz with hm
    obtain ⟨hm1, hm2⟩ := Nat.find_spec hz
    rw [← hm] at hm1 hm2
    have before : ∀ k < m, 0 < b k := by
      intro k
      induction k with
      | zero => exact fun _ => hb0
      | succ k ih =>
        intro h
        refine lt_of_le_of_ne (step k (by omega) (ih (by omega))) fun h0 => ?_
        exact Nat.find_min hz h ⟨by omega, h0.symm⟩
    have m0 : 1 ≤ m := by
      by_contra hc
      have : m = 0 := by omega
      rw [this] at hm2
      exact hb0.ne' hm2
    have opp := H4 m hm1 hm2
    have gm : 0 ≤ g m := by
      by_contra hc
      have := (opp.side u).2.1 (not_le.1 hc)
      have h2 := mono2 m (m + 1) (by omega) hm1 (not_le.1 hc)
      exact lt_asymm this h2
    have gm1 : g (m + 1) ≤ 0 := by
      rcases gm.eq_or_lt with h | h
      · exact ((opp.side u).2.2 h.symm).le
      · exact ((opp.side u).1 h).le
    have fm : 0 < f m := fwd m (by omega) before gm m0
    have fm1 : f (m + 1) < 0 := (opp.side (p 0)).1 fm
    have hmn : m + 1 < n - 1 := by
      by_contra hc
      rw [show m + 1 = n - 1 by omega, fn] at fm1
      exact lt_irrefl _ fm1
    have nz : ∀ k, m < k → k < n - 1 → b k ≠ 0 := by
      intro k h1 h2 h0
      have opk := H4 k (by omega) h0
      have gk := mono1 (m + 1) k (by omega) (by omega) gm1
      have gk0 : g k = 0 := by
        rcases gk.lt_or_eq with h | h
        · have := (opk.side u).2.1 h
          exact absurd this (not_lt.2 (mono2 k (k + 1) (by omega) (by omega) h).le)
        · exact h
      have gk1 : g (k + 1) = 0 := (opk.side u).2.2 gk0
      have g1 : g (m + 1) = 0 := by
        rcases gm1.lt_or_eq with h | h
        · have := mono2 (m + 1) k (by omega) (by omega) h
          linarith
        · exact h
      have g2 : g (m + 2) = 0 := by
        refine le_antisymm (mono1 (m + 1) _ (by omega) (by omega) gm1) ?_
        by_contra hc
        have := mono2 (m + 2) (k + 1) (by omega) (by omega) (not_le.1 hc)
        linarith
      refine H2 m (by omega) hm2 ?_
      have e : b (m + 1) * g 0 = f (m + 2) * g (m + 1) - f (m + 1) * g (m + 2) := by
        simp only [hb, hg, hf, vcr]; ring
      rw [g1, g2, mul_zero, mul_zero, sub_zero] at e
      exact (mul_eq_zero.1 e).resolve_right g0.ne'
    have neg1 : b (m + 1) < 0 := by
      rcases lt_trichotomy (b (m + 1)) 0 with h | h | h
      · exact h
      · exact absurd h (nz _ (by omega) hmn)
      · exfalso
        have all : ∀ d, m + 1 + d < n - 1 → 0 < b (m + 1 + d) := by
          intro d
          induction d with
          | zero => exact fun _ => h
          | succ d ih =>
            exact fun h' => lt_of_le_of_ne (step (m + 1 + d) (by omega) (ih (by omega)))
              (nz _ (by omega) h').symm
        have := conv 1 (m + 1) (bwd 1 (n - 1 - (m + 1)) (m + 1) (by omega) (fun k h1 h2 => by
          have := all (k - (m + 1)) (by omega)
          rwa [show m + 1 + (k - (m + 1)) = k by omega, ← one_mul (b k)] at this) gm1 hmn)
        rw [one_mul] at this
        exact lt_asymm this fm1
    have all : ∀ k, m < k → k < n - 1 → b k < 0 := by
      have : ∀ d, m + 1 + d < n - 1 → b (m + 1 + d) < 0 := by
        intro d
        induction d with
        | zero => exact fun _ => neg1
        | succ d ih =>
          exact fun h' => lt_of_le_of_ne (step' (m + 1 + d) (by omega) (ih (by omega)))
            (nz _ (by omega) h')
      intro k h1 h2
      have := this (k - (m + 1)) (by omega)
      rwa [show m + 1 + (k - (m + 1)) = k by omega] at this
    have flow : ∀ k, k ≤ m → 0 ≤ f k := by
      intro k h
      rcases Nat.eq_zero_or_pos k with rfl | hk
      · exact f0.ge
      · refine (fwd k (by omega) (fun j hj => before j (by omega)) ?_ hk).le
        by_contra hc
        have := mono2 k m h (by omega) (not_le.1 hc)
        linarith
    have fhigh : ∀ k, m < k → k ≤ n - 1 → f k ≤ 0 := by
      intro k h1 h2
      rcases h2.eq_or_lt with h | h
      · rw [h, fn]
      · have := conv (-1) k (bwd (-1) (n - 1 - k) k (by omega) (fun j h3 h4 => by
          have := all j (by omega) h4
          linarith) (mono1 (m + 1) k (by omega) (by omega) gm1) h)
        linarith
    rcases lt_trichotomy i m with h | h | h
    · exact ⟨mul_nonneg (before i h).le (flow i h.le), mul_nonneg (before i h).le (flow _ h)⟩
    · rw [h, hm2]; simp
    · have hb' := (all i h (by omega)).le
      exact ⟨mul_nonneg_of_nonpos_of_nonpos hb' (fhigh i h (by omega)),
        mul_nonneg_of_nonpos_of_nonpos hb' (fhigh _ (by omega) (by omega))⟩
  · push Not at hz
    have all : ∀ k, k + 1 < n → 0 < b k := by
      intro k
      induction k with
      | zero => exact fun _ => hb0
      | succ k ih =>
        exact fun h => lt_of_le_of_ne (step k (by omega) (ih (by omega))) (hz _ h).symm
    have pos : ∀ k, k < n → 0 ≤ f k := by
      intro k hk
      rcases Nat.eq_zero_or_pos k with rfl | hk0
      · exact f0.ge
      rcases lt_or_ge (g k) 0 with h | h
      · rcases Nat.lt_or_ge k (n - 1) with h' | h'
        · have := conv 1 k (bwd 1 (n - 1 - k) k (by omega) (fun j h3 h4 => by
            rw [one_mul]; exact all j (by omega)) h.le h')
          linarith
        · rw [show k = n - 1 by omega, fn]
      · exact (fwd k hk (fun j hj => all j (by omega)) h hk0).le
    exact ⟨mul_nonneg (all i hi).le (pos i (by omega)), mul_nonneg (all i hi).le (pos _ hi)⟩

theorem neg_iff_of_pos {c x : K} (hc : 0 < c) : c * x < 0 ↔ x < 0 :=
  ⟨fun h => by
    by_contra h'
    have := mul_nonneg hc.le (not_lt.1 h')
    linarith, mul_neg_of_pos_of_neg hc⟩

theorem neg_iff_of_neg {c x : K} (hc : c < 0) : (c * x < 0 ↔ 0 < x) ∧ (0 < c * x ↔ x < 0) := by
  have h1 := neg_iff_of_pos (x := x) (neg_pos.2 hc)
  have h2 := mul_pos_iff_of_pos_left (b := x) (neg_pos.2 hc)
  rw [neg_mul, neg_lt_zero] at h1
  rw [neg_mul, neg_pos] at h2
  exact ⟨h2, h1⟩

/-- Each edge turns around the origin to the side of the first edge on which it is. -/
theorem bow_signs {p : ℕ → K × K} {n : ℕ} (hn : 3 ≤ n)
    (H1 : ∀ i, i + 2 < n → 0 ≤ vcr (p i) (p (i + 1)) * vcr (p (i + 1)) (p (i + 2)))
    (H2 : ∀ i, i + 2 < n → vcr (p i) (p (i + 1)) = 0 → vcr (p (i + 1)) (p (i + 2)) ≠ 0)
    (H4 : ∀ i, i + 1 < n → vcr (p i) (p (i + 1)) = 0 → Opp (p i) (p (i + 1)))
    (H5 : Opp (p (n - 1)) (p 0)) (hb0 : vcr (p 0) (p 1) ≠ 0)
    (hbn : vcr (p (n - 2)) (p (n - 1)) ≠ 0) {u : K × K} (hu : u ≠ 0)
    (HP : NoAlt n fun i => 0 < vcr u (p i)) (HN : NoAlt n fun i => vcr u (p i) < 0)
    {i : ℕ} (hi : i + 1 < n) :
    0 ≤ vcr (p i) (p (i + 1)) * vcr (p 0) (p i) ∧
      0 ≤ vcr (p i) (p (i + 1)) * vcr (p 0) (p (i + 1)) := by
  have main : ∀ {p : ℕ → K × K} {u : K × K},
      (∀ i, i + 2 < n → 0 ≤ vcr (p i) (p (i + 1)) * vcr (p (i + 1)) (p (i + 2))) →
      (∀ i, i + 2 < n → vcr (p i) (p (i + 1)) = 0 → vcr (p (i + 1)) (p (i + 2)) ≠ 0) →
      (∀ i, i + 1 < n → vcr (p i) (p (i + 1)) = 0 → Opp (p i) (p (i + 1))) →
      Opp (p (n - 1)) (p 0) → 0 < vcr (p 0) (p 1) → vcr (p (n - 2)) (p (n - 1)) ≠ 0 → u ≠ 0 →
      (NoAlt n fun i => 0 < vcr u (p i)) → (NoAlt n fun i => vcr u (p i) < 0) →
      0 ≤ vcr (p i) (p (i + 1)) * vcr (p 0) (p i) ∧
        0 ≤ vcr (p i) (p (i + 1)) * vcr (p 0) (p (i + 1)) := by
    intro p u H1 H2 H4 H5 hb0 hbn hu HP HN
    have neg : ∀ x, vcr (-u) x = - vcr u x := fun x => by
      rw [vcr_neg_left, vcr_swap]
    rcases lt_trichotomy (vcr u (p 0)) 0 with h | h | h
    · exact bow_cross hn H1 H2 H4 H5 hb0 (u := -u) (by rw [neg]; linarith)
        (HN.congr fun i => by rw [neg, neg_pos]) (HP.congr fun i => by rw [neg, neg_lt_zero]) hi
    · have hp := H5.symm.norm
      have e : ∀ x, vcr u x * ((p 0).1 * (p 0).1 + (p 0).2 * (p 0).2) =
          (u.1 * (p 0).1 + u.2 * (p 0).2) * vcr (p 0) x := by
        intro x
        simp only [vcr] at h ⊢
        linear_combination ((p 0).1 * x.1 + (p 0).2 * x.2) * h
      have hd : u.1 * (p 0).1 + u.2 * (p 0).2 ≠ 0 := by
        intro hd
        apply hu
        have e1 : u.1 * ((p 0).1 * (p 0).1 + (p 0).2 * (p 0).2) = 0 := by
          simp only [vcr] at h
          linear_combination (p 0).1 * hd + (p 0).2 * h
        have e2 : u.2 * ((p 0).1 * (p 0).1 + (p 0).2 * (p 0).2) = 0 := by
          simp only [vcr] at h
          linear_combination (p 0).2 * hd - (p 0).1 * h
        exact Prod.ext ((mul_eq_zero.1 e1).resolve_right hp.ne')
          ((mul_eq_zero.1 e2).resolve_right hp.ne')
      have s1 : ∀ x, 0 < vcr u x ↔ 0 < (u.1 * (p 0).1 + u.2 * (p 0).2) * vcr (p 0) x := fun x => by
        rw [← e, mul_pos_iff_of_pos_right hp]
      have s2 : ∀ x, vcr u x < 0 ↔ (u.1 * (p 0).1 + u.2 * (p 0).2) * vcr (p 0) x < 0 := fun x => by
        rw [← e, mul_comm, neg_iff_of_pos hp]
      rcases lt_or_gt_of_ne hd with hd | hd
      · refine bow_line hn H1 H4 H5 hb0 hbn (HN.congr fun i => ?_) (HP.congr fun i => ?_) hi
        · rw [s2, (neg_iff_of_neg hd).1]
        · rw [s1, (neg_iff_of_neg hd).2]
      · refine bow_line hn H1 H4 H5 hb0 hbn (HP.congr fun i => ?_) (HN.congr fun i => ?_) hi
        · rw [s1, mul_pos_iff_of_pos_left hd]
        · rw [s2, neg_iff_of_pos hd]
    · exact bow_cross hn H1 H2 H4 H5 hb0 h HP HN hi
  rcases lt_or_gt_of_ne hb0 with h | h
  · have mir : ∀ a b : K × K, vcr (a.1, -a.2) (b.1, -b.2) = - vcr a b := fun a b => by
      simp only [vcr]; ring
    have opp : ∀ {a b : K × K}, Opp a b → Opp (a.1, -a.2) (b.1, -b.2) := fun {a b} h =>
      ⟨by rw [mir, h.1, neg_zero], by have := h.2; simpa using this⟩
    have := main (p := fun i => ((p i).1, -(p i).2)) (u := (u.1, -u.2))
      (fun i hi => by simp only [mir, neg_mul_neg]; exact H1 i hi)
      (fun i hi => by simp only [mir, neg_eq_zero, ne_eq]; exact H2 i hi)
      (fun i hi h => opp (H4 i hi (by simpa only [mir, neg_eq_zero] using h))) (opp H5)
      (by simp only [mir]; linarith) (by simp only [mir, neg_eq_zero, ne_eq]; exact hbn)
      (fun h => hu (by
        have h1 := congrArg Prod.fst h
        have h2 := congrArg Prod.snd h
        simp only [Prod.fst_zero, Prod.snd_zero, neg_eq_zero] at h1 h2
        exact Prod.ext h1 h2))
      (HN.congr fun i => by simp only [mir, neg_pos])
      (HP.congr fun i => by simp only [mir, neg_lt_zero])
    simpa only [mir, neg_mul_neg] using this
  · exact main H1 H2 H4 H5 h hbn hu HP HN

end
end HG
