import Verif.Spec.Geometry
import Mathlib.Tactic.LinearCombination
import Mathlib.Tactic.Linarith
import Mathlib.Tactic.Ring

/-!
# Closed chains that turn in one direction around a point

Vectors are pairs.  A closed chain around the origin with left turns whose vectors are on one side
of some line for only one stretch of indices goes around once and is strictly convex.
-/

set_option linter.unusedSectionVars false

namespace HG

section
variable {K : Type} [CommRing K] [LinearOrder K] [IsStrictOrderedRing K]

/-- The cross product of two vectors. -/
def vcr (a b : K × K) : K := a.1 * b.2 - a.2 * b.1

/-- Twice the area of the triangle of three vectors. -/
def varea (a b c : K × K) : K := vcr a b + vcr b c + vcr c a

/-- Half-plane with one of its two border rays. -/
def Up (s : K) (a : K × K) : Prop := 0 < a.2 ∨ a.2 = 0 ∧ 0 < s * a.1

theorem vcr_neg (a b : K × K) : vcr (-a) (-b) = vcr a b := by
  simp only [vcr, Prod.fst_neg, Prod.snd_neg]; ring

theorem vcr_neg_left (a b : K × K) : vcr (-a) b = vcr b a := by
  simp only [vcr, Prod.fst_neg]
  simp only [Prod.snd_neg]; ring

theorem vcr_swap (a b : K × K) : vcr a b = - vcr b a := by
  simp only [vcr]; ring

theorem up_neg {s : K} (hs : s ≠ 0) {a : K × K} (h0 : a ≠ 0) (h : ¬ Up s a) : Up s (-a) := by
  simp only [Up, Prod.fst_neg, Prod.snd_neg, not_or, not_and, not_lt] at h ⊢
  rcases h.1.lt_or_eq with h1 | h1
  · exact .inl (by linarith)
  · refine .inr ⟨by rw [h1]; ring, ?_⟩
    have h2 := h.2 h1
    have h3 : s * a.1 ≠ 0 := mul_ne_zero hs fun h => h0 (Prod.ext h h1)
    have := lt_of_le_of_ne h2 h3
    linarith

/-- The order of directions within a half-plane is transitive. -/
theorem up_trans {s : K} {a b c : K × K} (ha : Up s a) (hb : Up s b) (hc : Up s c)
    (h1 : 0 ≤ vcr a b) (h2 : 0 ≤ vcr b c) (h : 0 < vcr a b ∨ 0 < vcr b c) : 0 < vcr a c := by
  have e2 : vcr a c * b.2 = vcr a b * c.2 + vcr b c * a.2 := by simp only [vcr]; ring
  have e1 : vcr a c * (s * b.1) = vcr a b * (s * c.1) + vcr b c * (s * a.1) := by
    simp only [vcr]; ring
  have na : 0 ≤ a.2 := ha.elim le_of_lt fun h => h.1.ge
  have nc : 0 ≤ c.2 := hc.elim le_of_lt fun h => h.1.ge
  have m1 := mul_nonneg h1 nc
  have m2 := mul_nonneg h2 na
  rcases hb with hb | ⟨hb, hb'⟩
  · rcases ha with ha | ⟨ha, ha'⟩ <;> rcases hc with hc | ⟨hc, hc'⟩
    · refine pos_of_mul_pos_left (b := b.2) ?_ hb.le
      rcases h with h | h
      · have := mul_pos h hc; linarith
      · have := mul_pos h ha; linarith
    · refine pos_of_mul_pos_left (b := b.2) ?_ hb.le
      rcases h2.lt_or_eq with h2 | h2
      · have := mul_pos h2 ha; linarith
      · exfalso
        have : s * c.1 * b.2 = 0 := by
          have : vcr b c = 0 := h2.symm
          simp only [vcr, hc] at this
          linear_combination -s * this
        have := mul_pos hc' hb; linarith
    · refine pos_of_mul_pos_left (b := b.2) ?_ hb.le
      rcases h1.lt_or_eq with h1 | h1
      · have := mul_pos h1 hc; linarith
      · exfalso
        have : s * a.1 * b.2 = 0 := by
          have : vcr a b = 0 := h1.symm
          simp only [vcr, ha] at this
          linear_combination s * this
        have := mul_pos ha' hb; linarith
    · exfalso
      have q1 : s * vcr a b = s * a.1 * b.2 := by simp only [vcr, ha]; ring
      have q2 : s * vcr b c = - (s * c.1 * b.2) := by simp only [vcr, hc]; ring
      have p1 := mul_pos ha' hb
      have p2 := mul_pos hc' hb
      rcases lt_trichotomy s 0 with hs | hs | hs
      · have := mul_nonpos_of_nonpos_of_nonneg hs.le h1
        linarith
      · rw [hs] at ha'; linarith
      · have := mul_nonneg hs.le h2
        linarith
  · rw [hb, mul_zero] at e2
    have z1 : vcr a b * c.2 = 0 := by linarith
    have z2 : vcr b c * a.2 = 0 := by linarith
    refine pos_of_mul_pos_left (b := s * b.1) ?_ hb'.le
    rw [e1]
    have hA : 0 ≤ vcr b c * (s * a.1) := by
      rcases ha with ha | ⟨ha, ha'⟩
      · have : vcr b c = 0 := (mul_eq_zero.1 z2).resolve_right ha.ne'
        rw [this]; simp
      · exact mul_nonneg h2 ha'.le
    have hC : 0 ≤ vcr a b * (s * c.1) := by
      rcases hc with hc | ⟨hc, hc'⟩
      · have : vcr a b = 0 := (mul_eq_zero.1 z1).resolve_right hc.ne'
        rw [this]; simp
      · exact mul_nonneg h1 hc'.le
    rcases h with h | h
    · have h0 : c.2 = 0 := (mul_eq_zero.1 z1).resolve_left h.ne'
      have hc' : 0 < s * c.1 := hc.elim (fun h' => absurd h0 h'.ne') fun h => h.2
      have := mul_pos h hc'; linarith
    · have h0 : a.2 = 0 := (mul_eq_zero.1 z2).resolve_left h.ne'
      have ha' : 0 < s * a.1 := ha.elim (fun h' => absurd h0 h'.ne') fun h => h.2
      have := mul_pos h ha'; linarith

/-! ## Sorted around a point -/

/-- `a` is not after `b` when directions are ordered from (excluding) the negative first axis,
counterclockwise. -/
def Before (a b : K × K) : Prop :=
  ¬ (Up (-1) a ∧ ¬ Up (-1) b) ∧ ((Up (-1) a ↔ Up (-1) b) → 0 ≤ vcr a b)

/-- On one half-plane, an open half-plane is an initial or a final piece. -/
theorem before_alt {u a b c d : K × K} (hu : u ≠ 0) (ha : a ≠ 0) (hb : b ≠ 0) (hc : c ≠ 0)
    (hd : d ≠ 0) (hab : Before a b) (hbc : Before b c) (hcd : Before c d) :
    ¬ (0 < vcr u a ∧ ¬ 0 < vcr u b ∧ 0 < vcr u c ∧ ¬ 0 < vcr u d) ∧
    ¬ (¬ 0 < vcr u a ∧ 0 < vcr u b ∧ ¬ 0 < vcr u c ∧ 0 < vcr u d) := by
  have hs : (-1 : K) ≠ 0 := by simp
  by_cases h : Up (-1) u
  · -- final pieces above, initial pieces below
    have key : ∀ {p q : K × K}, p ≠ 0 → q ≠ 0 → Before p q → (Up (-1) p → 0 < vcr u p →
        0 < vcr u q ∧ Up (-1) q ∨ ¬ Up (-1) q) ∧ (¬ Up (-1) q → 0 < vcr u q → 0 < vcr u p) := by
      intro p q hp hq hpq
      constructor
      · intro h1 h2
        by_cases h3 : Up (-1) q
        · exact .inl ⟨up_trans h h1 h3 h2.le (hpq.2 (by simp [h1, h3])) (.inl h2), h3⟩
        · exact .inr h3
      · intro h1 h2
        by_cases h3 : Up (-1) p
        · exact absurd ⟨h3, h1⟩ hpq.1
        · have e := hpq.2 (by simp [h1, h3])
          have := up_trans (up_neg hs hp h3) (up_neg hs hq h1) h (by rwa [vcr_neg])
            (by rw [vcr_neg_left]; exact h2.le) (.inr (by rwa [vcr_neg_left]))
          rwa [vcr_neg_left] at this
    have k1 := key ha hb hab
    have k2 := key hb hc hbc
    have k3 := key hc hd hcd
    have n1 := hab.1
    have n2 := hbc.1
    have n3 := hcd.1
    clear key hab hbc hcd
    constructor
    · rintro ⟨p1, p2, p3, p4⟩
      by_cases hc' : Up (-1) c
      · rcases k3.1 hc' p3 with q | q
        · exact p4 q.1
        · exact n3 ⟨hc', q⟩
      · exact p2 (k2.2 hc' p3)
    · rintro ⟨p1, p2, p3, p4⟩
      by_cases hb' : Up (-1) b
      · rcases k2.1 hb' p2 with q | q
        · exact p3 q.1
        · exact n2 ⟨hb', q⟩
      · exact p1 (k1.2 hb' p2)
  · have h' := up_neg hs hu h
    have key : ∀ {p q : K × K}, p ≠ 0 → q ≠ 0 → Before p q → (Up (-1) p → 0 < vcr u q →
        0 < vcr u p) ∧ (¬ Up (-1) q → 0 < vcr u p → 0 < vcr u q) := by
      intro p q hp hq hpq
      constructor
      · intro h1 h2
        have h3 : Up (-1) q := by_contra fun h3 => hpq.1 ⟨h1, h3⟩
        have e : ∀ x, vcr x (-u) = vcr u x := fun x => by
          simp only [vcr, Prod.fst_neg, Prod.snd_neg]; ring
        have := up_trans h1 h3 h' (hpq.2 (by simp [h1, h3])) (by rw [e]; exact h2.le)
          (.inr (by rwa [e]))
        rwa [e] at this
      · intro h1 h2
        have h3 : ¬ Up (-1) p := fun h3 => hpq.1 ⟨h3, h1⟩
        have := up_trans h' (up_neg hs hp h3) (up_neg hs hq h1) (by rw [vcr_neg]; exact h2.le)
          (by rw [vcr_neg]; exact hpq.2 (by simp [h1, h3])) (.inl (by rwa [vcr_neg]))
        rwa [vcr_neg] at this
    have k1 := key ha hb hab
    have k2 := key hb hc hbc
    have k3 := key hc hd hcd
    clear key
    constructor
    · rintro ⟨p1, p2, p3, p4⟩
      by_cases hb' : Up (-1) b
      · exact p2 (k2.1 hb' p3)
      · exact p2 (k1.2 hb' p1)
    · rintro ⟨p1, p2, p3, p4⟩
      by_cases hc' : Up (-1) c
      · exact p3 (k3.1 hc' p4)
      · exact p3 (k2.2 hc' p2)

/-! ## Convexity -/

/-- Left turns within an angle below a half turn. -/
theorem window_convex {q : ℕ → K × K} {i k : ℕ}
    (hx : ∀ a b, i ≤ a → a < b → b ≤ k → 0 < vcr (q a) (q b))
    (hd : ∀ a, i ≤ a → a + 2 ≤ k → 0 < varea (q a) (q (a + 1)) (q (a + 2))) :
    ∀ w a b c, c - a ≤ w → i ≤ a → a < b → b < c → c ≤ k → 0 < varea (q a) (q b) (q c) := by
  intro w
  induction w with
  | zero => intro a b c h _ h1 h2; omega
  | succ w ih =>
    intro a b c hw hi hab hbc hk
    by_cases h1 : c = b + 1
    · by_cases h2 : b = a + 1
      · subst h1 h2; exact hd a hi hk
      · have e : varea (q a) (q b) (q c) * vcr (q (a + 1)) (q b) =
            varea (q (a + 1)) (q b) (q c) * vcr (q a) (q b) +
              vcr (q b) (q c) * varea (q a) (q (a + 1)) (q b) := by
          simp only [varea, vcr]; ring
        have p1 := mul_pos (ih (a + 1) b c (by omega) (by omega) (by omega) hbc hk)
          (hx a b hi hab (by omega))
        have p2 := mul_pos (hx b c (by omega) hbc hk)
          (ih a (a + 1) b (by omega) hi (by omega) (by omega) (by omega))
        exact pos_of_mul_pos_left (by rw [e]; linarith)
          (hx (a + 1) b (by omega) (by omega) (by omega)).le
    · have e : varea (q a) (q b) (q c) * vcr (q b) (q (b + 1)) =
          varea (q a) (q b) (q (b + 1)) * vcr (q b) (q c) +
            vcr (q a) (q b) * varea (q b) (q (b + 1)) (q c) := by
        simp only [varea, vcr]; ring
      have p1 := mul_pos (ih a b (b + 1) (by omega) hi hab (by omega) (by omega))
        (hx b c (by omega) hbc hk)
      have p2 := mul_pos (hx a b hi hab (by omega))
        (ih b (b + 1) c (by omega) (by omega) (by omega) (by omega) hk)
      exact pos_of_mul_pos_left (by rw [e]; linarith)
        (hx b (b + 1) (by omega) (by omega) (by omega)).le

/-- A chain that spends its first `r` steps above, the others below a line. -/
theorem blocks_convex {q : ℕ → K × K} {n r : ℕ} (hn : 0 < n) (hp : ∀ i, q (i + n) = q i)
    (hx : ∀ i, 0 < vcr (q i) (q (i + 1)))
    (hd : ∀ i, 0 < varea (q i) (q (i + 1)) (q (i + 2)))
    (hup : ∀ i < r, Up 1 (q i)) (hdn : ∀ i, r ≤ i → i < n → Up 1 (- q i)) {i j k : ℕ} (hij : i < j)
    (hjk : j < k) (hk : k < n) : 0 < varea (q i) (q j) (q k) := by
  have f1 : ∀ d a, a + d + 1 < r → 0 < vcr (q a) (q (a + d + 1)) := by
    intro d
    induction d with
    | zero => intro a _; exact hx a
    | succ d ih =>
      intro a h
      exact up_trans (hup a (by omega)) (hup (a + d + 1) (by omega)) (hup _ h)
        (ih a (by omega)).le (hx _).le (.inl (ih a (by omega)))
  have f2 : ∀ d a, r ≤ a → a + d + 1 < n → 0 < vcr (q a) (q (a + d + 1)) := by
    intro d
    induction d with
    | zero => intro a _ _; exact hx a
    | succ d ih =>
      intro a h0 h
      rw [← vcr_neg]
      exact up_trans (hdn a h0 (by omega)) (hdn (a + d + 1) (by omega) (by omega))
        (hdn _ (by omega) h) (by rw [vcr_neg]; exact (ih a h0 (by omega)).le)
        (by rw [vcr_neg]; exact (hx _).le) (.inl (by rw [vcr_neg]; exact ih a h0 (by omega)))
  have F1 : ∀ a b, a < b → b < r → 0 < vcr (q a) (q b) := by
    intro a b h h'
    have := f1 (b - a - 1) a (by omega)
    rwa [show a + (b - a - 1) + 1 = b by omega] at this
  have F2 : ∀ a b, r ≤ a → a < b → b < n → 0 < vcr (q a) (q b) := by
    intro a b h0 h h'
    have := f2 (b - a - 1) a h0 (by omega)
    rwa [show a + (b - a - 1) + 1 = b by omega] at this
  -- the two ways of moving the ends of an angle
  have L1 : ∀ a b c : K × K, Up 1 a → Up 1 b → Up 1 (-c) → 0 < vcr a b → 0 < vcr a c →
      0 < vcr b c := by
    intro a b c ha hb hc h1 h2
    by_contra h3
    have h3 : 0 ≤ vcr b (-c) := by
      have : vcr b (-c) = - vcr b c := by simp only [vcr, Prod.fst_neg, Prod.snd_neg]; ring
      rw [this]; linarith
    have := up_trans ha hb hc h1.le h3 (.inl h1)
    have e : vcr a (-c) = - vcr a c := by simp only [vcr, Prod.fst_neg, Prod.snd_neg]; ring
    rw [e] at this; linarith
  have L2 : ∀ a b c : K × K, Up 1 a → Up 1 (-b) → Up 1 (-c) → 0 < vcr b c → 0 < vcr a c →
      0 < vcr a b := by
    intro a b c ha hb hc h1 h2
    by_contra h3
    have e : ∀ x, vcr a (-x) = - vcr a x := fun x => by
      simp only [vcr, Prod.fst_neg, Prod.snd_neg]; ring
    have := up_trans ha hb hc (by rw [e]; linarith) (by rw [vcr_neg]; exact h1.le)
      (.inr (by rwa [vcr_neg]))
    rw [e] at this; linarith
  have T : ∀ i k, i < k → k < n → 0 < vcr (q i) (q k) → ∀ a b, i ≤ a → a < b → b ≤ k →
      0 < vcr (q a) (q b) := by
    intro i k hik hk h a b ha hab hb
    rcases Nat.lt_or_ge b r with hbr | hbr
    · exact F1 a b hab hbr
    rcases Nat.lt_or_ge a r with har | har
    · have h1 : 0 < vcr (q a) (q k) := by
        rcases ha.eq_or_lt with rfl | ha
        · exact h
        · exact L1 _ _ _ (hup i (by omega)) (hup a har) (hdn k (by omega) hk) (F1 i a ha har) h
      rcases hb.eq_or_lt with rfl | hb
      · exact h1
      · exact L2 _ _ _ (hup a har) (hdn b hbr (by omega)) (hdn k (by omega) hk)
          (F2 b k hbr hb hk) h1
    · exact F2 a b har hab (by omega)
  have W : ∀ i k, i < k → k < n → 0 < vcr (q k) (q i) → ∀ a b, k ≤ a → a < b → b ≤ i + n →
      0 < vcr (q a) (q b) := by
    intro i k hik hk h a b ha hab hb
    have hkr : r ≤ k := by
      by_contra hc
      have := F1 i k hik (by omega)
      rw [vcr_swap] at this; linarith
    have hir : i < r := by
      by_contra hc
      have := F2 i k (by omega) hik hk
      rw [vcr_swap] at this; linarith
    have hup' : ∀ i < r, Up 1 (- - q i) := fun i hi => by
      have e : - - q i = q i := Prod.ext (neg_neg _) (neg_neg _)
      rw [e]; exact hup i hi
    rcases Nat.lt_or_ge b n with hbn | hbn
    · exact F2 a b (by omega) hab hbn
    obtain ⟨b, rfl⟩ := Nat.exists_eq_add_of_le' hbn
    rw [hp]
    rcases Nat.lt_or_ge a n with han | han
    · have h1 : 0 < vcr (q a) (q i) := by
        rcases ha.eq_or_lt with rfl | ha
        · exact h
        · rw [← vcr_neg]
          exact L1 _ _ _ (hdn k hkr hk) (hdn a (by omega) han) (hup' i hir)
            (by rw [vcr_neg]; exact F2 k a hkr ha han) (by rw [vcr_neg]; exact h)
      rcases (show b ≤ i by omega).eq_or_lt with rfl | hb
      · exact h1
      · rw [← vcr_neg]
        exact L2 _ _ _ (hdn a (by omega) han) (hup' b (by omega)) (hup' i hir)
          (by rw [vcr_neg]; exact F1 b i hb hir) (by rw [vcr_neg]; exact h1)
    · obtain ⟨a, rfl⟩ := Nat.exists_eq_add_of_le' han
      rw [hp]
      exact F1 a b (by omega) (by omega)
  have cyc1 : ∀ a b c : K × K, varea b c a = varea a b c := by
    intro a b c; simp only [varea]; ring
  rcases lt_or_ge 0 (vcr (q i) (q k)) with h | h
  · exact window_convex (T i k (by omega) hk h) (fun a _ _ => hd a) _ i j k le_rfl le_rfl hij hjk
      le_rfl
  rcases lt_or_ge 0 (vcr (q j) (q i)) with h' | h'
  · have := window_convex (W i j hij (by omega) h') (fun a _ _ => hd a) _ j k (i + n) le_rfl
      le_rfl hjk (by omega) le_rfl
    rwa [hp, cyc1] at this
  rcases lt_or_ge 0 (vcr (q k) (q j)) with h'' | h''
  · have := window_convex (W j k hjk hk h'') (fun a _ _ => hd a) _ k (i + n) (j + n) le_rfl
      le_rfl (by omega) (by omega) le_rfl
    rwa [hp, hp, cyc1, cyc1] at this
  rw [vcr_swap] at h h' h''
  unfold varea
  rcases Nat.lt_or_ge j r with hj | hj
  · have := F1 i j hij hj
    linarith
  · have := F2 j k hj hjk hk
    linarith

/-- Alternations in a window of a periodic sequence. -/
theorem alt_cyc {P : ℕ → Prop} {n : ℕ} (hp : ∀ i, P (i + n) ↔ P i)
    (h : ∀ i j k m, i < j → j < k → k < m → m < n → ¬ (P i ∧ ¬ P j ∧ P k ∧ ¬ P m) ∧
      ¬ (¬ P i ∧ P j ∧ ¬ P k ∧ P m)) {a b c d : ℕ} (hab : a < b) (hbc : b < c) (hcd : c < d)
    (hd : d < a + n) : ¬ (P a ∧ ¬ P b ∧ P c ∧ ¬ P d) := by
  induction a using Nat.strong_induction_on generalizing b c d with
  | _ a ih =>
    rcases Nat.lt_or_ge a n with ha | ha
    · have e : ∀ x, n ≤ x → (P x ↔ P (x - n)) := fun x hx => by
        rw [← hp (x - n), Nat.sub_add_cancel hx]
      rintro ⟨h1, h2, h3, h4⟩
      rcases Nat.lt_or_ge d n with hdn | hdn
      · exact (h a b c d hab hbc hcd hdn).1 ⟨h1, h2, h3, h4⟩
      rw [e d hdn] at h4
      rcases Nat.lt_or_ge c n with hcn | hcn
      · exact (h (d - n) a b c (by omega) hab hbc hcn).2 ⟨h4, h1, h2, h3⟩
      rw [e c hcn] at h3
      rcases Nat.lt_or_ge b n with hbn | hbn
      · exact (h (c - n) (d - n) a b (by omega) (by omega) hab hbn).1 ⟨h3, h4, h1, h2⟩
      rw [e b hbn] at h2
      exact (h (b - n) (c - n) (d - n) a (by omega) (by omega) (by omega) ha).2 ⟨h2, h3, h4, h1⟩
    · have e : ∀ x, a ≤ x → (P x ↔ P (x - n)) := fun x hx => by
        rw [← hp (x - n), Nat.sub_add_cancel (by omega)]
      rw [e a le_rfl, e b (by omega), e c (by omega), e d (by omega)]
      exact ih (a - n) (by omega) (by omega) (by omega) (by omega) (by omega)

/-- A closed chain around the origin with left turns that is above a line for one stretch only. -/
theorem turning_convex {q : ℕ → K × K} {n : ℕ} (hn : 0 < n) (hp : ∀ i, q (i + n) = q i)
    (hx : ∀ i, 0 < vcr (q i) (q (i + 1)))
    (hd : ∀ i, 0 < varea (q i) (q (i + 1)) (q (i + 2)))
    (hP : ∀ i j k m, i < j → j < k → k < m → m < n →
      ¬ (0 < (q i).2 ∧ ¬ 0 < (q j).2 ∧ 0 < (q k).2 ∧ ¬ 0 < (q m).2) ∧
      ¬ (¬ 0 < (q i).2 ∧ 0 < (q j).2 ∧ ¬ 0 < (q k).2 ∧ 0 < (q m).2)) {i j k : ℕ} (hij : i < j)
    (hjk : j < k) (hk : k < n) : 0 < varea (q i) (q j) (q k) := by
  have hne : ∀ i, q i ≠ 0 := fun i h => by
    have := hx i
    rw [h] at this
    simp [vcr] at this
  have hper : ∀ c i, q (i + c * n) = q i := by
    intro c
    induction c with
    | zero => intro i; simp
    | succ c ih => intro i; rw [Nat.add_mul, ← Nat.add_assoc, one_mul, hp, ih]
  have loop : ∀ f : K × K → K × K, (∀ a b, vcr (f a) (f b) = vcr a b) →
      ¬ ∀ i, Up 1 (f (q i)) := by
    intro f hf hall
    have : ∀ d, 0 < vcr (f (q 0)) (f (q (d + 1))) := by
      intro d
      induction d with
      | zero => rw [hf]; exact hx 0
      | succ d ih =>
        exact up_trans (hall _) (hall (d + 1)) (hall _) ih.le (by rw [hf]; exact (hx _).le)
          (.inl ih)
    have h := this (n - 1)
    rw [Nat.sub_add_cancel hn, ← Nat.zero_add n, hp] at h
    simp only [vcr] at h
    linarith
  have hnot := loop id fun _ _ => rfl
  have hsome := loop Neg.neg vcr_neg
  push Not at hnot hsome
  obtain ⟨a, ha⟩ := hnot
  obtain ⟨b, hb⟩ := hsome
  have hb : Up 1 (q b) := by
    by_contra h
    exact hb (up_neg one_ne_zero (hne b) h)
  obtain ⟨s, hs, hs'⟩ : ∃ s, ¬ Up 1 (q s) ∧ Up 1 (q (s + 1)) := by
    by_contra hno
    push Not at hno
    have : ∀ d, ¬ Up 1 (q (a + d)) := by
      intro d
      induction d with
      | zero => exact ha
      | succ d ih => exact hno _ ih
    have h := this (b + a * n - a)
    have : a ≤ b + a * n := by
      have := Nat.le_mul_of_pos_right a hn
      omega
    rw [show a + (b + a * n - a) = b + a * n by omega, hper] at h
    exact h hb
  have hlast : ¬ Up 1 (q (n - 1 + (s + 1))) := by
    rw [show n - 1 + (s + 1) = s + n by omega, hp]; exact hs
  have hex : ∃ r, ¬ Up 1 (q (r + (s + 1))) := ⟨_, hlast⟩
  classical
  set r := Nat.find hex with hr
  have hr1 : ¬ Up 1 (q (r + (s + 1))) := Nat.find_spec hex
  have hr2 : ∀ i < r, Up 1 (q (i + (s + 1))) := fun i hi => by
    have := Nat.find_min hex hi
    exact not_not.1 this
  have hr0 : 0 < r := by
    rcases Nat.eq_zero_or_pos r with h | h
    · rw [h, Nat.zero_add] at hr1; exact absurd hs' hr1
    · exact h
  have hup : ∀ x, Up 1 (q x) → 0 < (q x).2 ∨ 0 < (q (x + 1)).2 := by
    rintro x (h | ⟨h, h'⟩)
    · exact .inl h
    · right
      have := hx x
      simp only [vcr, h, zero_mul, sub_zero] at this
      rw [one_mul] at h'
      exact pos_of_mul_pos_right this h'.le
  have hdown : ∀ x, ¬ Up 1 (q x) → ¬ 0 < (q x).2 := fun x h h' => h (.inl h')
  have hr3 : ∀ i, r ≤ i → i < n → Up 1 (- q (i + (s + 1))) := by
    intro i hi hin
    refine up_neg one_ne_zero (hne _) fun hcon => ?_
    have h1 : i ≠ r := fun h => hr1 (h ▸ hcon)
    have h2 : i ≠ n - 1 := fun h => hlast (h ▸ hcon)
    have hPer : ∀ i, 0 < (q (i + n)).2 ↔ 0 < (q i).2 := fun i => by rw [hp]
    have n1 := hdown _ hr1
    have n2 := hdown _ hlast
    obtain ⟨x, hx1, hx2⟩ : ∃ x, (x = s + 1 ∨ x = s + 1 + 1) ∧ 0 < (q x).2 :=
      (hup _ hs').elim (fun h => ⟨_, .inl rfl, h⟩) fun h => ⟨_, .inr rfl, h⟩
    obtain ⟨y, hy1, hy2⟩ : ∃ y, (y = i + (s + 1) ∨ y = i + (s + 1) + 1) ∧ 0 < (q y).2 :=
      (hup _ hcon).elim (fun h => ⟨_, .inl rfl, h⟩) fun h => ⟨_, .inr rfl, h⟩
    have d1 : x ≠ r + (s + 1) := fun h => n1 (h ▸ hx2)
    have d2 : y ≠ n - 1 + (s + 1) := fun h => n2 (h ▸ hy2)
    exact alt_cyc (P := fun i => 0 < (q i).2) hPer hP (a := x) (b := r + (s + 1)) (c := y)
      (d := n - 1 + (s + 1)) (by omega) (by omega) (by omega) (by omega) ⟨hx2, n1, hy2, n2⟩
  have hw : ∀ i j k, i < j → j < k → k < n →
      0 < varea (q (i + (s + 1))) (q (j + (s + 1))) (q (k + (s + 1))) := fun i j k hij hjk hk =>
    blocks_convex (q := fun i => q (i + (s + 1))) hn
      (fun i => by rw [show i + n + (s + 1) = i + (s + 1) + n by omega, hp])
      (fun i => by
        have := hx (i + (s + 1))
        rwa [show i + (s + 1) + 1 = i + 1 + (s + 1) by omega] at this)
      (fun i => by
        have := hd (i + (s + 1))
        rwa [show i + (s + 1) + 1 = i + 1 + (s + 1) by omega,
          show i + (s + 1) + 2 = i + 2 + (s + 1) by omega] at this) hr2 hr3 hij hjk hk
  set t := (s + 1) % n with ht
  have htn : t < n := Nat.mod_lt _ hn
  have hst : s + 1 = t + (s + 1) / n * n := by rw [ht, Nat.mod_add_div']
  have g1 : ∀ x, t ≤ x → q (x - t + (s + 1)) = q x := by
    intro x hx
    rw [hst, ← Nat.add_assoc, hper, Nat.sub_add_cancel hx]
  have g2 : ∀ x, x < t → q (x + n - t + (s + 1)) = q x := by
    intro x hx
    rw [hst, ← Nat.add_assoc, hper, Nat.sub_add_cancel (by omega), hp]
  have cyc1 : ∀ a b c : K × K, varea b c a = varea a b c := by
    intro a b c; simp only [varea]; ring
  rcases Nat.lt_or_ge i t with hi | hi
  · rcases Nat.lt_or_ge j t with hj | hj
    · rcases Nat.lt_or_ge k t with hkt | hkt
      · have := hw (i + n - t) (j + n - t) (k + n - t) (by omega) (by omega) (by omega)
        rwa [g2 i hi, g2 j hj, g2 k hkt] at this
      · have := hw (k - t) (i + n - t) (j + n - t) (by omega) (by omega) (by omega)
        rwa [g2 i hi, g2 j hj, g1 k hkt, cyc1, cyc1] at this
    · have := hw (j - t) (k - t) (i + n - t) (by omega) (by omega) (by omega)
      rwa [g2 i hi, g1 j hj, g1 k (by omega), cyc1] at this
  · have := hw (i - t) (j - t) (k - t) (by omega) (by omega) (by omega)
    rwa [g1 i hi, g1 j (by omega), g1 k (by omega)] at this

end
end HG
