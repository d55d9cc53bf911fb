import Verif.Lemmas.Bow
import Verif.Props.StarConvex
import Mathlib.Algebra.BigOperators.Ring.Finset
import Mathlib.Algebra.Order.BigOperators.Group.Finset

/-!
# Star contours with a true centroid are convex (C66)

The centroid of the region of a star contour is on none of the lines through two consecutive
vertices, so `C66_star_convex` applies to all contours for which the centroid is computed correctly.
-/

set_option linter.unusedSectionVars false

namespace HG

open Strategy Spec

section
variable {K : Type} [CommRing K] [LinearOrder K] [IsStrictOrderedRing K]

/-- The point `g` is the centroid of the region of the contour: its coordinates times three times the
signed area are the moments of the edges. -/
def Spec.CentroidOf (l : List (Point K)) (g : Point K) : Prop :=
  let cr := fun i => (cyc l i).x * (cyc l (i + 1)).y - (cyc l i).y * (cyc l (i + 1)).x
  3 * (∑ i ∈ Finset.range l.length, cr i) * g.x =
    ∑ i ∈ Finset.range l.length, cr i * ((cyc l i).x + (cyc l (i + 1)).x) ∧
  3 * (∑ i ∈ Finset.range l.length, cr i) * g.y =
    ∑ i ∈ Finset.range l.length, cr i * ((cyc l i).y + (cyc l (i + 1)).y)

/-- The moments around the centroid vanish. -/
theorem centroid_moments {l : List (Point K)} {g : Point K} (h : CentroidOf l g) :
    ∑ i ∈ Finset.range l.length, area2 (cyc l i) (cyc l (i + 1)) g *
      (((cyc l i).x - g.x) + ((cyc l (i + 1)).x - g.x)) = 0 ∧
    ∑ i ∈ Finset.range l.length, area2 (cyc l i) (cyc l (i + 1)) g *
      (((cyc l i).y - g.y) + ((cyc l (i + 1)).y - g.y)) = 0 := by
  obtain ⟨h1, h2⟩ := h
  have tel : ∀ F : Point K → K,
      ∑ i ∈ Finset.range l.length, (F (cyc l (i + 1)) - F (cyc l i)) = 0 := by
    intro F
    rw [Finset.sum_range_sub (fun i => F (cyc l i)), ← Nat.zero_add l.length, cyc_add_length,
      sub_self]
  have t1 := tel Point.x
  have t2 := tel Point.y
  have t3 := tel fun p => p.x * p.x
  have t4 := tel fun p => p.y * p.y
  have t5 := tel fun p => p.x * p.y
  constructor
  · have e : ∀ i, area2 (cyc l i) (cyc l (i + 1)) g *
        (((cyc l i).x - g.x) + ((cyc l (i + 1)).x - g.x)) =
        ((cyc l i).x * (cyc l (i + 1)).y - (cyc l i).y * (cyc l (i + 1)).x) *
            ((cyc l i).x + (cyc l (i + 1)).x) -
          3 * g.x * ((cyc l i).x * (cyc l (i + 1)).y - (cyc l i).y * (cyc l (i + 1)).x) +
          g.y * ((cyc l (i + 1)).x * (cyc l (i + 1)).x - (cyc l i).x * (cyc l i).x) -
          g.x * ((cyc l (i + 1)).x * (cyc l (i + 1)).y - (cyc l i).x * (cyc l i).y) +
          2 * g.x * g.x * ((cyc l (i + 1)).y - (cyc l i).y) -
          2 * g.x * g.y * ((cyc l (i + 1)).x - (cyc l i).x) := by
      intro i; unfold area2; ring
    simp only [e, Finset.sum_add_distrib, Finset.sum_sub_distrib, ← Finset.mul_sum] at h1 t1 t2 t3 t5 ⊢
    linear_combination g.y * t3 - g.x * t5 + 2 * g.x * g.x * t2 - 2 * g.x * g.y * t1 - h1
  · have e : ∀ i, area2 (cyc l i) (cyc l (i + 1)) g *
        (((cyc l i).y - g.y) + ((cyc l (i + 1)).y - g.y)) =
        ((cyc l i).x * (cyc l (i + 1)).y - (cyc l i).y * (cyc l (i + 1)).x) *
            ((cyc l i).y + (cyc l (i + 1)).y) -
          3 * g.y * ((cyc l i).x * (cyc l (i + 1)).y - (cyc l i).y * (cyc l (i + 1)).x) -
          g.x * ((cyc l (i + 1)).y * (cyc l (i + 1)).y - (cyc l i).y * (cyc l i).y) +
          g.y * ((cyc l (i + 1)).x * (cyc l (i + 1)).y - (cyc l i).x * (cyc l i).y) +
          2 * g.x * g.y * ((cyc l (i + 1)).y - (cyc l i).y) -
          2 * g.y * g.y * ((cyc l (i + 1)).x - (cyc l i).x) := by
      intro i; unfold area2; ring
    simp only [e, Finset.sum_add_distrib, Finset.sum_sub_distrib, ← Finset.mul_sum] at h2 t1 t2 t4 t5 ⊢
    linear_combination -g.x * t4 + g.y * t5 + 2 * g.x * g.y * t2 - 2 * g.y * g.y * t1 - h2

/-- Ignoring one index that has a neighbour of the same kind. -/
theorem alt_skip {P : ℕ → Prop} {n z : ℕ} (hp : ∀ i, P (i + n) ↔ P i) (hz : ¬ P z)
    (hn : ¬ P (z + 1) ∨ ¬ P (z + n - 1)) (hzn : z < n)
    (h : ∀ i j k m, i < j → j < k → k < m → m < n → i ≠ z → j ≠ z → k ≠ z → m ≠ z →
      ¬ (P i ∧ ¬ P j ∧ P k ∧ ¬ P m) ∧ ¬ (¬ P i ∧ P j ∧ ¬ P k ∧ P m)) : NoAlt n P := by
  have hprev : ∀ j, j + 1 = z → ¬ P (z + n - 1) → ¬ P j := by
    intro j hj h'
    rwa [show z + n - 1 = j + n by omega, hp] at h'
  intro i j k m hij hjk hkm hm
  constructor
  · rintro ⟨h1, h2, h3, h4⟩
    have ni : i ≠ z := fun e => hz (e ▸ h1)
    have nk : k ≠ z := fun e => hz (e ▸ h3)
    by_cases nj : j = z
    · rcases hn with hn | hn
      · have : j + 1 ≠ k := fun e => hn (by rw [← nj, e]; exact h3)
        exact (h i (j + 1) k m (by omega) (by omega) hkm hm ni (by omega) nk (by omega)).1
          ⟨h1, by rw [nj]; exact hn, h3, h4⟩
      · have hq := hprev (j - 1) (by omega) hn
        have : i ≠ j - 1 := fun e => hq (e ▸ h1)
        exact (h i (j - 1) k m (by omega) (by omega) hkm hm ni (by omega) nk (by omega)).1
          ⟨h1, hq, h3, h4⟩
    by_cases nm : m = z
    · rcases hn with hn | hn
      · by_cases hmn : m + 1 < n
        · exact (h i j k (m + 1) hij hjk (by omega) hmn ni nj nk (by omega)).1
            ⟨h1, h2, h3, by rw [nm]; exact hn⟩
        · have h0 : ¬ P 0 := by
            rwa [show z + 1 = 0 + n by omega, hp] at hn
          have : i ≠ 0 := fun e => h0 (e ▸ h1)
          exact (h 0 i j k (by omega) hij hjk (by omega) (by omega) ni nj nk).2 ⟨h0, h1, h2, h3⟩
      · have hq := hprev (m - 1) (by omega) hn
        have : k ≠ m - 1 := fun e => hq (e ▸ h3)
        exact (h i j k (m - 1) hij hjk (by omega) (by omega) ni nj nk (by omega)).1
          ⟨h1, h2, h3, hq⟩
    exact (h i j k m hij hjk hkm hm ni nj nk nm).1 ⟨h1, h2, h3, h4⟩
  · rintro ⟨h1, h2, h3, h4⟩
    have nj : j ≠ z := fun e => hz (e ▸ h2)
    have nm : m ≠ z := fun e => hz (e ▸ h4)
    by_cases nk : k = z
    · rcases hn with hn | hn
      · have : k + 1 ≠ m := fun e => hn (by rw [← nk, e]; exact h4)
        exact (h i j (k + 1) m hij (by omega) (by omega) hm (by omega) nj (by omega) nm).2
          ⟨h1, h2, by rw [nk]; exact hn, h4⟩
      · have hq := hprev (k - 1) (by omega) hn
        have : j ≠ k - 1 := fun e => hq (e ▸ h2)
        exact (h i j (k - 1) m hij (by omega) (by omega) hm (by omega) nj (by omega) nm).2
          ⟨h1, h2, hq, h4⟩
    by_cases ni : i = z
    · rcases hn with hn | hn
      · have : i + 1 ≠ j := fun e => hn (by rw [← ni, e]; exact h2)
        exact (h (i + 1) j k m (by omega) hjk hkm hm (by omega) nj nk nm).2
          ⟨by rw [ni]; exact hn, h2, h3, h4⟩
      · by_cases h0 : i = 0
        · have hq : ¬ P (n - 1) := by
            rwa [show z + n - 1 = n - 1 by omega] at hn
          have : m ≠ n - 1 := fun e => hq (e ▸ h4)
          exact (h j k m (n - 1) hjk hkm (by omega) (by omega) nj nk nm (by omega)).1
            ⟨h2, h3, h4, hq⟩
        · have hq := hprev (i - 1) (by omega) hn
          exact (h (i - 1) j k m (by omega) hjk hkm hm (by omega) nj nk nm).2 ⟨hq, h2, h3, h4⟩
    exact (h i j k m hij hjk hkm hm ni nj nk nm).2 ⟨h1, h2, h3, h4⟩

/-- Two consecutive vectors on a line through the origin are opposite if the chain turns at both as it
goes around the origin. -/
theorem opp_of_turns {o p q r : K × K} (h : vcr p q = 0) (h1 : 0 < varea o p q * vcr o p)
    (h2 : 0 < varea p q r * vcr q r) : Opp p q := by
  refine ⟨h, ?_⟩
  set d := p.1 * q.1 + p.2 * q.2 with hd
  set np := p.1 * p.1 + p.2 * p.2 with hp
  set nq := q.1 * q.1 + q.2 * q.2 with hq
  have np0 : 0 ≤ np := add_nonneg (mul_self_nonneg _) (mul_self_nonneg _)
  have nq0 : 0 ≤ nq := add_nonneg (mul_self_nonneg _) (mul_self_nonneg _)
  have e1 : varea o p q * vcr o p * np = (np - d) * (vcr o p * vcr o p) := by
    have : varea o p q * np = (np - d) * vcr o p := by
      simp only [varea, vcr, hp, hd] at h ⊢
      linear_combination (p.1 * p.1 + p.2 * p.2 - (o.1 * p.1 + o.2 * p.2)) * h
    linear_combination vcr o p * this
  have e2 : varea p q r * vcr q r * nq = (nq - d) * (vcr q r * vcr q r) := by
    have : varea p q r * nq = (nq - d) * vcr q r := by
      simp only [varea, vcr, hq, hd] at h ⊢
      linear_combination (q.1 * q.1 + q.2 * q.2 - (r.1 * q.1 + r.2 * q.2)) * h
    linear_combination vcr q r * this
  have e3 : d * d = np * nq := by
    simp only [vcr, hp, hq, hd] at h ⊢
    linear_combination (-(p.1 * q.2 - p.2 * q.1)) * h
  have z1 : 0 < np := by
    refine lt_of_le_of_ne np0 fun h0 => ?_
    have a1 : p.1 = 0 := mul_self_eq_zero.1 (by
      have := mul_self_nonneg p.1
      have := mul_self_nonneg p.2
      linarith)
    have a2 : p.2 = 0 := mul_self_eq_zero.1 (by
      have := mul_self_nonneg p.1
      have := mul_self_nonneg p.2
      linarith)
    have : vcr o p = 0 := by simp only [vcr, a1, a2]; ring
    rw [this, mul_zero] at h1
    exact lt_irrefl _ h1
  have z2 : 0 < nq := by
    refine lt_of_le_of_ne nq0 fun h0 => ?_
    have a1 : q.1 = 0 := mul_self_eq_zero.1 (by
      have := mul_self_nonneg q.1
      have := mul_self_nonneg q.2
      linarith)
    have a2 : q.2 = 0 := mul_self_eq_zero.1 (by
      have := mul_self_nonneg q.1
      have := mul_self_nonneg q.2
      linarith)
    have : vcr q r = 0 := by simp only [vcr, a1, a2]; ring
    rw [this, mul_zero] at h2
    exact lt_irrefl _ h2
  have l1 : d < np := by
    by_contra hc
    have := mul_pos h1 z1
    have := mul_nonpos_of_nonpos_of_nonneg (by linarith : np - d ≤ 0) (mul_self_nonneg (vcr o p))
    linarith
  have l2 : d < nq := by
    by_contra hc
    have := mul_pos h2 z2
    have := mul_nonpos_of_nonpos_of_nonneg (by linarith : nq - d ≤ 0) (mul_self_nonneg (vcr q r))
    linarith
  by_contra hc
  have := mul_lt_mul'' l1 l2 (not_lt.1 hc) (not_lt.1 hc)
  linarith

/-- A contour whose vertices are sorted around some point and which turns at each vertex as it goes
around its centroid has the centroid on no line through an edge. -/
theorem centroid_off_edges {atan2 : K → K → ℚ} (hpol : PolarOk atan2) {l : List (Point K)}
    {o g : Point K} (h3 : 3 ≤ l.length) (hnd : l.Nodup)
    (hsort : ∀ i j, i < j → j < l.length → atan2 ((cyc l i).y - o.y) ((cyc l i).x - o.x) <
        atan2 ((cyc l j).y - o.y) ((cyc l j).x - o.x))
    (hin : ∀ i, InAngle (cyc l i) (cyc l (i + 1)) (cyc l (i + 2)) g)
    (hadj : ∀ i, ¬ Collinear (cyc l i) (cyc l (i + 1)) g ∨
      ¬ Collinear (cyc l (i + 1)) (cyc l (i + 2)) g)
    (hg : CentroidOf l g) (e : ℕ) (he : e < l.length) :
    ¬ Collinear (cyc l e) (cyc l (e + 1)) g := by
  intro hcol
  set n := l.length with hn
  set t : ℕ → K × K := fun i => ((cyc l i).x - o.x, (cyc l i).y - o.y) with ht
  set q : ℕ → K × K := fun i => ((cyc l i).x - g.x, (cyc l i).y - g.y) with hq
  have htn : ∀ i, t (i + n) = t i := fun i => by simp only [ht, hn, cyc_add_length]
  have hqn : ∀ i, q (i + n) = q i := fun i => by simp only [hq, hn, cyc_add_length]
  have hqx : ∀ i, vcr (q i) (q (i + 1)) = area2 (cyc l i) (cyc l (i + 1)) g := by
    intro i; simp only [hq, vcr, area2]; ring
  have hqd : ∀ i, varea (q i) (q (i + 1)) (q (i + 2)) =
      area2 (cyc l i) (cyc l (i + 1)) (cyc l (i + 2)) := by
    intro i; simp only [hq, varea, vcr, area2]; ring
  have hadj' : ∀ i, vcr (q i) (q (i + 1)) = 0 → vcr (q (i + 1)) (q (i + 2)) ≠ 0 := by
    intro i h1 h2
    rw [hqx] at h1 h2
    exact (hadj i).elim (fun h => h h1) fun h => h h2
  have h1 : ∀ i, 0 ≤ vcr (q i) (q (i + 1)) * vcr (q (i + 1)) (q (i + 2)) := by
    intro i
    rw [hqx, hqx (i + 1)]
    rcases hin i with ⟨-, a, b⟩ | ⟨-, a, b⟩
    · exact mul_nonneg a b
    · exact mul_nonneg_of_nonpos_of_nonpos a b
  have hturn : ∀ i, (vcr (q i) (q (i + 1)) ≠ 0 →
      0 < varea (q i) (q (i + 1)) (q (i + 2)) * vcr (q i) (q (i + 1))) ∧
      (vcr (q (i + 1)) (q (i + 2)) ≠ 0 →
      0 < varea (q i) (q (i + 1)) (q (i + 2)) * vcr (q (i + 1)) (q (i + 2))) := by
    intro i
    rw [hqx, hqx (i + 1), hqd]
    rcases hin i with ⟨c, a, b⟩ | ⟨c, a, b⟩
    · exact ⟨fun h => mul_pos c (lt_of_le_of_ne a h.symm),
        fun h => mul_pos c (lt_of_le_of_ne b h.symm)⟩
    · exact ⟨fun h => mul_pos_of_neg_of_neg c (lt_of_le_of_ne a h),
        fun h => mul_pos_of_neg_of_neg c (lt_of_le_of_ne b h)⟩
  have hopp : ∀ i, vcr (q i) (q (i + 1)) = 0 → Opp (q i) (q (i + 1)) := by
    intro i h
    have a := (hturn i).2 (hadj' i h)
    have b := (hturn (i + n - 1)).1 (by
      intro h0
      refine hadj' (i + n - 1) h0 ?_
      rw [show i + n - 1 + 1 = i + n by omega, show i + n - 1 + 2 = i + 1 + n by omega, hqn, hqn]
      exact h)
    rw [show i + n - 1 + 1 = i + n by omega, show i + n - 1 + 2 = i + 1 + n by omega, hqn, hqn] at b
    exact opp_of_turns h b a
  have hq0 : ∀ i, q i ≠ 0 := by
    intro i h
    have z : ∀ x, vcr (q i) x = 0 := fun x => by rw [h]; simp [vcr]
    refine hadj' (i + n - 1) ?_ ?_
    · rw [show i + n - 1 + 1 = i + n by omega, hqn, vcr_swap, z, neg_zero]
    · rw [show i + n - 1 + 1 = i + n by omega, show i + n - 1 + 2 = i + 1 + n by omega, hqn, hqn]
      exact z _
  -- the line through both centroids
  obtain ⟨u, hu, hgo⟩ : ∃ u : K × K, u ≠ 0 ∧
      (g = o ∨ g.x - o.x = u.1 ∧ g.y - o.y = u.2) := by
    by_cases h : g = o
    · exact ⟨(1, 0), fun h => one_ne_zero (congrArg Prod.fst h), .inl h⟩
    · refine ⟨(g.x - o.x, g.y - o.y), fun h' => h ?_, .inr ⟨rfl, rfl⟩⟩
      have h1 := congrArg Prod.fst h'
      have h2 := congrArg Prod.snd h'
      simp only [Prod.fst_zero, Prod.snd_zero, sub_eq_zero] at h1 h2
      cases g; cases o; simp_all
  have hqt : ∀ i, vcr u (q i) = vcr u (t i) := by
    intro i
    rcases hgo with rfl | ⟨h1, h2⟩
    · rfl
    · simp only [hq, ht, vcr]
      rw [← h1, ← h2]; ring
  have huniq : ∀ i j, i < n → j < n → t i = 0 → t j = 0 → i = j := by
    intro i j hi hj h1 h2
    refine cyc_inj hnd hi hj ?_
    have a1 := congrArg Prod.fst h1; have a2 := congrArg Prod.snd h1
    have b1 := congrArg Prod.fst h2; have b2 := congrArg Prod.snd h2
    simp only [ht, Prod.fst_zero, Prod.snd_zero, sub_eq_zero] at a1 a2 b1 b2
    have : ∀ p q : Point K, p.x = q.x → p.y = q.y → p = q := fun p q h1 h2 => by
      cases p; cases q; simp_all
    exact this _ _ (a1.trans b1.symm) (a2.trans b2.symm)
  have hA : ∀ w : K × K, w ≠ 0 → ∀ i j k m, i < j → j < k → k < m → m < n →
      t i ≠ 0 → t j ≠ 0 → t k ≠ 0 → t m ≠ 0 →
      ¬ (0 < vcr w (t i) ∧ ¬ 0 < vcr w (t j) ∧ 0 < vcr w (t k) ∧ ¬ 0 < vcr w (t m)) ∧
      ¬ (¬ 0 < vcr w (t i) ∧ 0 < vcr w (t j) ∧ ¬ 0 < vcr w (t k) ∧ 0 < vcr w (t m)) := by
    intro w hw i j k m hij hjk hkm hm zi zj zk zm
    exact before_alt hw zi zj zk zm (polar_before hpol zi zj (hsort i j hij (by omega)))
      (polar_before hpol zj zk (hsort j k hjk (by omega)))
      (polar_before hpol zk zm (hsort k m hkm hm))
  have hB : ∀ w : K × K, (w = u ∨ w = -u) → NoAlt n fun i => 0 < vcr w (q i) := by
    intro w hw
    have hw0 : w ≠ 0 := by
      rcases hw with rfl | rfl
      · exact hu
      · exact neg_ne_zero.2 hu
    have hwt : ∀ i, vcr w (q i) = vcr w (t i) := by
      intro i
      rcases hw with rfl | rfl
      · exact hqt i
      · rw [vcr_neg_left, vcr_swap, hqt, vcr_neg_left, vcr_swap (t i)]
    by_cases hz : ∃ z, z < n ∧ t z = 0
    · obtain ⟨z, hzn, hz⟩ := hz
      have hne : ∀ i, i < n → i ≠ z → t i ≠ 0 := fun i hi h h' => h (huniq i z hi hzn h' hz)
      refine alt_skip (z := z) (fun i => by rw [hqn]) ?_ ?_ hzn ?_
      · rw [hwt, hz]; simp [vcr]
      · have huq : u = - q z := by
          have a1 := congrArg Prod.fst hz; have a2 := congrArg Prod.snd hz
          simp only [ht, Prod.fst_zero, Prod.snd_zero, sub_eq_zero] at a1 a2
          rcases hgo with rfl | ⟨h1, h2⟩
          · exfalso
            apply hq0 z
            simp only [hq, a1, a2, sub_self]; rfl
          · refine Prod.ext ?_ ?_
            · simp only [hq, Prod.fst_neg, a1]; rw [← h1]; ring
            · simp only [hq, Prod.snd_neg, a2]; rw [← h2]; ring
        have hp := h1 (z + n - 1)
        rw [show z + n - 1 + 1 = z + n by omega, show z + n - 1 + 2 = z + 1 + n by omega, hqn, hqn]
          at hp
        by_contra hc
        rw [not_or, not_not, not_not] at hc
        obtain ⟨c1, c2⟩ := hc
        rcases hw with rfl | rfl
        · rw [huq, vcr_neg_left] at c1 c2
          rw [vcr_swap] at c1
          have := mul_pos c1 c2
          linarith
        · rw [huq, neg_neg] at c1 c2
          rw [vcr_swap] at c2
          have := mul_pos c1 c2
          linarith
      · intro i j k m hij hjk hkm hm zi zj zk zm
        simp only [hwt]
        exact hA w hw0 i j k m hij hjk hkm hm (hne i (by omega) zi) (hne j (by omega) zj)
          (hne k (by omega) zk) (hne m hm zm)
    · push Not at hz
      intro i j k m hij hjk hkm hm
      simp only [hwt]
      exact hA w hw0 i j k m hij hjk hkm hm (hz i (by omega)) (hz j (by omega)) (hz k (by omega))
        (hz m hm)
  -- starting at the end of the edge
  have shift : ∀ P : ℕ → Prop, (∀ i, P (i + n) ↔ P i) → NoAlt n P →
      NoAlt n fun i => P (e + 1 + i) := by
    intro P hp h i j k m hij hjk hkm hm
    refine ⟨alt_cyc hp h (by omega) (by omega) (by omega) (by omega), ?_⟩
    rintro ⟨a, b, c, d⟩
    exact alt_cyc hp h (a := e + 1 + j) (b := e + 1 + k) (c := e + 1 + m) (d := e + 1 + i + n)
      (by omega) (by omega) (by omega) (by omega) ⟨b, c, d, by rw [hp]; exact a⟩
  have hcol' : vcr (q e) (q (e + 1)) = 0 := by rw [hqx]; exact hcol
  have signs : ∀ i, i + 1 < n →
      0 ≤ vcr (q (e + 1 + i)) (q (e + 1 + (i + 1))) * vcr (q (e + 1)) (q (e + 1 + i)) ∧
      0 ≤ vcr (q (e + 1 + i)) (q (e + 1 + (i + 1))) * vcr (q (e + 1)) (q (e + 1 + (i + 1))) := by
    intro i hi
    refine bow_signs (p := fun i => q (e + 1 + i)) (n := n) h3 (fun i _ => h1 (e + 1 + i))
      (fun i _ => hadj' (e + 1 + i)) (fun i _ => hopp (e + 1 + i)) ?_ (hadj' e hcol') ?_ hu
      (shift (fun i => 0 < vcr u (q i)) (fun i => by rw [hqn]) (hB u (.inl rfl)))
      (shift (fun i => vcr u (q i) < 0) (fun i => by rw [hqn])
        ((hB (-u) (.inr rfl)).congr fun i => by
          rw [vcr_neg_left, vcr_swap, neg_lt_zero])) hi
    · change Opp (q (e + 1 + (n - 1))) (q (e + 1))
      rw [show e + 1 + (n - 1) = e + n by omega, hqn]
      exact hopp e hcol'
    · intro h0
      rw [show e + 1 + (n - 1) = e + 1 + (n - 2) + 1 by omega] at h0
      refine hadj' _ h0 ?_
      rw [show e + 1 + (n - 2) + 1 = e + n by omega, show e + 1 + (n - 2) + 2 = e + 1 + n by omega,
        hqn, hqn]
      exact hcol'
  -- the moments around the centroid
  have term : ∀ i ∈ Finset.range n, 0 ≤ vcr (q i) (q (i + 1)) *
      (vcr (q (e + 1)) (q i) + vcr (q (e + 1)) (q (i + 1))) := by
    intro i hi
    rw [Finset.mem_range] at hi
    have key : ∀ k, k < n → q (e + 1 + k) = q i → q (e + 1 + (k + 1)) = q (i + 1) →
        0 ≤ vcr (q i) (q (i + 1)) * (vcr (q (e + 1)) (q i) + vcr (q (e + 1)) (q (i + 1))) := by
      intro k hk e1 e2
      rcases Nat.lt_or_ge (k + 1) n with h | h
      · have := signs k h
        rw [e1, e2] at this
        rw [mul_add]
        exact add_nonneg this.1 this.2
      · have h0 : vcr (q i) (q (i + 1)) = 0 := by
          rw [← e1, ← e2, show e + 1 + k = e + n by omega, show e + 1 + (k + 1) = e + 1 + n by omega,
            hqn, hqn]
          exact hcol'
        rw [h0, zero_mul]
    rcases Nat.lt_or_ge i (e + 1) with h | h
    · exact key (i + n - (e + 1)) (by omega)
        (by rw [show e + 1 + (i + n - (e + 1)) = i + n by omega, hqn])
        (by rw [show e + 1 + (i + n - (e + 1) + 1) = i + 1 + n by omega, hqn])
    · exact key (i - (e + 1)) (by omega) (by rw [show e + 1 + (i - (e + 1)) = i by omega])
        (by rw [show e + 1 + (i - (e + 1) + 1) = i + 1 by omega])
  have hsum : ∑ i ∈ Finset.range n, vcr (q i) (q (i + 1)) *
      (vcr (q (e + 1)) (q i) + vcr (q (e + 1)) (q (i + 1))) = 0 := by
    obtain ⟨m1, m2⟩ := centroid_moments hg
    have e' : ∀ i, vcr (q i) (q (i + 1)) *
        (vcr (q (e + 1)) (q i) + vcr (q (e + 1)) (q (i + 1))) =
        (q (e + 1)).1 * (area2 (cyc l i) (cyc l (i + 1)) g *
          (((cyc l i).y - g.y) + ((cyc l (i + 1)).y - g.y))) -
        (q (e + 1)).2 * (area2 (cyc l i) (cyc l (i + 1)) g *
          (((cyc l i).x - g.x) + ((cyc l (i + 1)).x - g.x))) := by
      intro i
      rw [hqx]
      simp only [vcr, hq]; ring
    simp only [e', Finset.sum_sub_distrib, ← Finset.mul_sum]
    rw [m1, m2, mul_zero, mul_zero, sub_zero]
  have hz := (Finset.sum_eq_zero_iff_of_nonneg term).1 hsum ((e + 1) % n)
    (Finset.mem_range.2 (Nat.mod_lt _ (by omega)))
  have hmod : q ((e + 1) % n) = q (e + 1) ∧ q ((e + 1) % n + 1) = q (e + 2) := by
    rcases Nat.lt_or_ge (e + 1) n with h | h
    · rw [Nat.mod_eq_of_lt h]; exact ⟨rfl, rfl⟩
    · have : e + 1 = n := by omega
      rw [this, Nat.mod_self, show e + 2 = 0 + 1 + n by omega, hqn]
      refine ⟨?_, rfl⟩
      have := hqn 0
      rwa [Nat.zero_add, eq_comm] at this
  rw [hmod.1, hmod.2] at hz
  have z : vcr (q (e + 1)) (q (e + 1)) = 0 := by simp only [vcr]; ring
  rw [z, zero_add] at hz
  exact hadj' e hcol' (mul_self_eq_zero.1 hz)

/-- The region of a star contour has its centroid on no line through two consecutive vertices. -/
theorem star_off_edges {env : Env K} (hpol : PolarOk env.atan2) {x : Strategy K}
    {y : Option (Strategy K)} {lo : Int} {hi : Option Int} {s : Made (Contour K)}
    (hs : starContours env x y lo hi = .ok s) {c : Contour K} (h : s.2.val c)
    (hg : CentroidOf c.vertices (env.regionCentroid c.vertices)) :
    ∀ i < c.vertices.length, ¬ Collinear (cyc c.vertices i) (cyc c.vertices (i + 1))
      (env.regionCentroid c.vertices) := by
  have hin := C16_star env x y lo hi s hs c h
  simp only [starContours, exc_bind_ok, exc_pure_ok, validate_ok] at hs
  obtain ⟨w, -, rfl⟩ := hs
  obtain ⟨vs, hv, rfl⟩ := h
  obtain ⟨hnd, h3, -, -, ⟨o, hsort⟩, hang⟩ := star_val (le_max_right _ _) hv
  simp only at hin hg ⊢
  have hmod : ∀ i, i % vs.length < vs.length := fun i => Nat.mod_lt _ (by omega)
  have hm1 : ∀ i c, cyc vs (i % vs.length + c) = cyc vs (i + c) := fun i c => by
    rw [← cyc_mod vs (i % vs.length + c), Nat.mod_add_mod, cyc_mod]
  have hpair : vs.Pairwise fun p q => env.atan2 (p.y - o.y) (p.x - o.x) <
      env.atan2 (q.y - o.y) (q.x - o.x) := by
    have : IsTrans (Point K) fun p q => env.atan2 (p.y - o.y) (p.x - o.x) <
      env.atan2 (q.y - o.y) (q.x - o.x) := ⟨fun _ _ _ => lt_trans⟩
    exact List.isChain_iff_pairwise.1 hsort
  refine centroid_off_edges hpol (o := o) h3 hnd (fun i j hij hj => ?_) (fun i => ?_) (fun i => ?_) hg
  · rw [cyc_lt (by omega), cyc_lt hj, List.getD_eq_getElem _ _ (by omega),
      List.getD_eq_getElem _ _ hj]
    exact List.pairwise_iff_getElem.1 hpair i j (by omega) hj hij
  · have := (hang (i % vs.length) (hmod i)).1
    simpa only [hm1, cyc_mod] using this
  · have := (hang (i % vs.length) (hmod i)).2
    simpa only [hm1, cyc_mod] using this

/-- C66: if the centroid of the region of a star contour is computed correctly, then the contour is a
strictly convex polygon. -/
theorem C66_star_convex_centroid (env : Env K) (hpol : PolarOk env.atan2) (x : Strategy K)
    (y : Option (Strategy K)) (lo : Int) (hi : Option Int) (s : Made (Contour K))
    (hs : starContours env x y lo hi = .ok s) (c : Contour K) (h : s.2.val c)
    (hg : CentroidOf c.vertices (env.regionCentroid c.vertices)) :
    StrictlyConvex c.vertices ∨ StrictlyConvex c.vertices.reverse :=
  C66_star_convex env hpol x y lo hi s hs c h (star_off_edges hpol hs h hg)

/-- C46: if the centroid of the region of a concave contour is computed correctly, then it is not a
value of `star_contours`, whatever the arguments. -/
theorem C46_concave_not_star (env : Env K) (hpol : PolarOk env.atan2) (x : Strategy K)
    (y : Option (Strategy K)) (lo : Int) (hi : Option Int) (s : Made (Contour K))
    (hs : concaveContours env x y lo hi = .ok s) (c : Contour K) (h : s.2.val c)
    (hg : CentroidOf c.vertices (env.regionCentroid c.vertices)) (x' : Strategy K)
    (y' : Option (Strategy K)) (lo' : Int) (hi' : Option Int) (r : Made (Contour K))
    (hr : starContours env x' y' lo' hi' = .ok r) : ¬ r.2.val c := by
  intro h'
  obtain ⟨i, hi1, j, hj, hne⟩ := C12_concave env x y lo hi s hs c h
  apply hne
  rcases C46_star_one_direction env x' y' lo' hi' r hr c h' (star_off_edges hpol hr h' hg) with k | k
  · rw [sign_pos (k i hi1), sign_pos (k j hj)]
  · rw [sign_neg (k i hi1), sign_neg (k j hj)]

end
end HG
