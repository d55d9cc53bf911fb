import Verif.Lemmas.Orient
import Verif.Lemmas.Sizes
import Verif.Lemmas.Star
import Verif.Spec.Geometry
import Mathlib.Tactic.Linarith
import Mathlib.Tactic.Ring

/-!
# Monotone chains

Convexity of the chains built by a monotone scan.  The lexicographic order of finitely many points
is the order of a linear functional (`exists_functional`).
-/

set_option linter.unusedSectionVars false

namespace HG

open Spec

section
variable {K : Type} [CommRing K] [LinearOrder K] [IsStrictOrderedRing K]

/-- A linear functional. -/
def lin (A B : K) (p : Point K) : K := A * p.x + B * p.y

theorem exists_min_pos (l : List K) : ∃ d : K, 0 < d ∧ ∀ a ∈ l, 0 < a → d ≤ a := by
  induction l with
  | nil => exact ⟨1, one_pos, by simp⟩
  | cons a l ih =>
    obtain ⟨d, hd, h⟩ := ih
    by_cases ha : 0 < a
    · refine ⟨min a d, lt_min ha hd, fun b hb hb' => ?_⟩
      rcases List.mem_cons.1 hb with rfl | hb
      · exact min_le_left _ _
      · exact (min_le_right _ _).trans (h b hb hb')
    · refine ⟨d, hd, fun b hb hb' => ?_⟩
      rcases List.mem_cons.1 hb with rfl | hb
      · exact absurd hb' ha
      · exact h b hb hb'

theorem exists_bound (l : List K) : ∃ Y : K, 0 ≤ Y ∧ ∀ a ∈ l, -Y ≤ a ∧ a ≤ Y := by
  induction l with
  | nil => exact ⟨0, le_refl _, by simp⟩
  | cons a l ih =>
    obtain ⟨d, hd, h⟩ := ih
    refine ⟨max d (max a (-a)), hd.trans (le_max_left _ _), fun b hb => ?_⟩
    have h1 : a ≤ max d (max a (-a)) := (le_max_left a (-a)).trans (le_max_right _ _)
    have h2 : -a ≤ max d (max a (-a)) := (le_max_right a (-a)).trans (le_max_right _ _)
    have h3 : d ≤ max d (max a (-a)) := le_max_left _ _
    rcases List.mem_cons.1 hb with rfl | hb
    · exact ⟨by linarith, h1⟩
    · have := h b hb
      exact ⟨by linarith, by linarith⟩

/-- On finitely many points the lexicographic order is the order of a linear functional. -/
theorem exists_functional (s : List (Point K)) :
    ∃ A B : K, ∀ p ∈ s, ∀ q ∈ s, LexLt p q → lin A B p < lin A B q := by
  obtain ⟨d, hd, hmin⟩ := exists_min_pos (s.flatMap fun p => s.map fun q => q.x - p.x)
  obtain ⟨Y, hY, hb⟩ := exists_bound (s.map Point.y)
  refine ⟨2 * Y + 1, d, fun p hp q hq h => ?_⟩
  have hp' := hb p.y (List.mem_map_of_mem hp)
  have hq' := hb q.y (List.mem_map_of_mem hq)
  unfold lin
  rcases h with h | ⟨h, h'⟩
  · have h1 : d ≤ q.x - p.x := by
      apply hmin _ _ (by linarith)
      exact List.mem_flatMap.2 ⟨p, hp, List.mem_map.2 ⟨q, hq, rfl⟩⟩
    have h2 : (2 * Y + 1) * d ≤ (2 * Y + 1) * (q.x - p.x) :=
      mul_le_mul_of_nonneg_left h1 (by linarith)
    have h3 : d * (p.y - q.y) ≤ d * (2 * Y) := mul_le_mul_of_nonneg_left (by linarith) hd.le
    nlinarith
  · rw [h]
    have := mul_lt_mul_of_pos_left h' hd
    linarith

/-! ## Identities -/

theorem area2_rot (a b c : Point K) : area2 b c a = area2 a b c := by unfold area2; ring
theorem area2_swap (a b c : Point K) : area2 b a c = - area2 a b c := by unfold area2; ring
theorem area2_swap' (a b c : Point K) : area2 a c b = - area2 a b c := by unfold area2; ring
theorem area2_self (a b : Point K) : area2 a b a = 0 := by unfold area2; ring
theorem area2_self' (a b : Point K) : area2 a b b = 0 := by unfold area2; ring
theorem area2_self'' (a b : Point K) : area2 a a b = 0 := by unfold area2; ring

theorem lin_between (A B : K) (c p b b' q : Point K) :
    area2 c p q * (lin A B b' - lin A B b) =
      area2 c p b * (lin A B b' - lin A B q) + area2 c p b' * (lin A B q - lin A B b) +
        area2 b b' q * (lin A B p - lin A B c) := by
  unfold area2 lin; ring

theorem lin_step (A B : K) (a b c p : Point K) :
    area2 a b p * (lin A B c - lin A B b) =
      area2 a b c * (lin A B p - lin A B b) + area2 b c p * (lin A B b - lin A B a) := by
  unfold area2 lin; ring

theorem lin_trans (A B : K) (p a b c : Point K) :
    area2 p a c * (lin A B b - lin A B p) =
      area2 p a b * (lin A B c - lin A B p) + area2 p b c * (lin A B a - lin A B p) := by
  unfold area2 lin; ring

/-! ## The scan -/

/-- Popping with a given test. -/
def popG (t : Point K → Point K → Point K → Bool) (p : Point K) : List (Point K) → List (Point K)
  | b :: a :: l => if t a b p = true then popG t p (a :: l) else b :: a :: l
  | l => l

/-- The scan with a given test, reversed. -/
def scanG (t : Point K → Point K → Point K → Bool) (pts : List (Point K)) : List (Point K) :=
  pts.foldl (fun acc p => p :: popG t p acc) []

/-- A test that pops on the right (possibly on the line), never on the left. -/
structure PopTest (t : Point K → Point K → Point K → Bool) : Prop where
  pop : ∀ a b p, t a b p = true → area2 a b p ≤ 0
  keep : ∀ a b p, t a b p = false → 0 ≤ area2 a b p

variable {t : Point K → Point K → Point K → Bool} {A B : K}

theorem popG_suffix (p : Point K) (acc : List (Point K)) : popG t p acc <:+ acc := by
  induction acc with
  | nil => simp [popG]
  | cons b l ih =>
    cases l with
    | nil => simp [popG]
    | cons a l =>
      unfold popG
      split
      · exact ih.trans (List.suffix_cons _ _)
      · exact List.suffix_refl _

theorem popG_ne_nil (p : Point K) (acc : List (Point K)) (h : acc ≠ []) : popG t p acc ≠ [] := by
  induction acc with
  | nil => exact absurd rfl h
  | cons b l ih =>
    cases l with
    | nil => simp [popG]
    | cons a l =>
      unfold popG
      split
      · exact ih (by simp)
      · simp

/-- Points further down the chain see the new point on the left of their edges. -/
theorem chain_left {p b : Point K} (l : List (Point K))
    (hd : (b :: l).Pairwise fun u v => lin A B v < lin A B u)
    (hp : ∀ c ∈ b :: l, lin A B c < lin A B p)
    (he : (b :: l).IsChain fun u v => ∀ q ∈ b :: l, 0 ≤ area2 v u q)
    (h0 : ∀ a, l.head? = some a → 0 ≤ area2 a b p) :
    (b :: l).IsChain (fun u v => 0 ≤ area2 v u p) ∧ ∀ c ∈ b :: l, 0 ≤ area2 b p c := by
  have key : ∀ (l' : List (Point K)) (u : Point K), (u :: l').IsChain
        (fun u v => ∀ q ∈ b :: l, 0 ≤ area2 v u q) →
      (∀ c ∈ u :: l', c ∈ b :: l) → (u :: l').Pairwise (fun u v => lin A B v < lin A B u) →
      (∀ a, l'.head? = some a → 0 ≤ area2 a u p) → (0 ≤ area2 b p u) → 
      (u :: l').IsChain (fun u v => 0 ≤ area2 v u p) ∧ ∀ c ∈ u :: l', 0 ≤ area2 b p c := by
    intro l'
    induction l' with
    | nil => 
      intro u _ _ _ _ hu
      exact ⟨by simp, by simpa using hu⟩
    | cons v l'' ih =>
      intro u he' hm hd' h0' hu
      have huv := h0' v rfl
      rw [List.isChain_cons_cons] at he'
      rw [List.pairwise_cons] at hd'
      have hvu := hd'.1 v (by simp)
      have hup := hp u (hm u (by simp))
      have hvp := hp v (hm v (by simp))
      have hbp := hp b (by simp)
      have hv : 0 ≤ area2 b p v := by
        have h1 := lin_trans A B p v u b
        have e1 : area2 p v u = area2 v u p := by rw [← area2_rot]
        have e2 : area2 p u b = area2 b p u := by rw [area2_rot]
        have e3 : area2 p v b = area2 b p v := by rw [area2_rot]
        rw [e1, e2, e3] at h1
        by_contra hc
        push Not at hc
        have a1 : 0 < area2 b p v * (lin A B u - lin A B p) := mul_pos_of_neg_of_neg hc (by linarith)
        have a2 : area2 v u p * (lin A B b - lin A B p) ≤ 0 :=
          mul_nonpos_of_nonneg_of_nonpos huv (by linarith)
        have a3 : area2 b p u * (lin A B v - lin A B p) ≤ 0 :=
          mul_nonpos_of_nonneg_of_nonpos hu (by linarith)
        linarith
      obtain ⟨g1, g2⟩ := ih v he'.2 (fun c hc => hm c (by simp [hc])) hd'.2 (by
        intro a ha
        cases l'' with
        | nil => simp at ha
        | cons w l3 =>
          simp only [List.head?_cons, Option.some.injEq] at ha
          subst ha
          have h1 := lin_step A B w v u p
          rw [List.isChain_cons_cons] at he'
          have h2 := (he'.2.1) u (hm u (by simp))
          have h3 := (List.pairwise_cons.1 hd'.2).1 w (by simp)
          by_contra hc
          push Not at hc
          have a1 : area2 w v p * (lin A B u - lin A B v) < 0 :=
            mul_neg_of_neg_of_pos hc (by linarith)
          have a2 : 0 ≤ area2 w v u * (lin A B p - lin A B v) := mul_nonneg h2 (by linarith)
          have a3 : 0 ≤ area2 v u p * (lin A B v - lin A B w) := mul_nonneg huv (by linarith)
          linarith) hv
      exact ⟨List.isChain_cons_cons.2 ⟨huv, g1⟩, by
        intro c hc
        rcases List.mem_cons.1 hc with rfl | hc
        · exact hu
        · exact g2 c hc⟩
  exact key l b he (fun c hc => hc) hd h0 (by rw [area2_self])

/-- A later point strictly on the left of the last edge is strictly on the left of all edges. -/
theorem chain_left_strict {c : Point K} (l : List (Point K)) (b : Point K)
    (hd : (b :: l).Pairwise fun u v => lin A B v < lin A B u)
    (hp : ∀ q ∈ b :: l, lin A B q < lin A B c)
    (he : (b :: l).IsChain fun u v => ∀ q ∈ b :: l, 0 ≤ area2 v u q)
    (h0 : ∀ a, l.head? = some a → 0 < area2 a b c) :
    (b :: l).IsChain (fun u v => 0 < area2 v u c) := by
  have key : ∀ (l' : List (Point K)) (u : Point K), (u :: l').IsChain
        (fun u v => ∀ q ∈ b :: l, 0 ≤ area2 v u q) →
      (∀ c ∈ u :: l', c ∈ b :: l) → (u :: l').Pairwise (fun u v => lin A B v < lin A B u) →
      (∀ a, l'.head? = some a → 0 < area2 a u c) →
      (u :: l').IsChain (fun u v => 0 < area2 v u c) := by
    intro l'
    induction l' with
    | nil => intro u _ _ _ _; simp
    | cons v l'' ih =>
      intro u he' hm hd' h0'
      have huv := h0' v rfl
      rw [List.isChain_cons_cons] at he'
      rw [List.pairwise_cons] at hd'
      have hvu := hd'.1 v (by simp)
      have hup := hp u (hm u (by simp))
      refine List.isChain_cons_cons.2 ⟨huv, ih v he'.2 (fun c hc => hm c (by simp [hc])) hd'.2 ?_⟩
      intro a ha
      cases l'' with
      | nil => simp at ha
      | cons w l3 =>
        simp only [List.head?_cons, Option.some.injEq] at ha
        subst ha
        have h1 := lin_step A B w v u c
        rw [List.isChain_cons_cons] at he'
        have h2 := (he'.2.1) u (hm u (by simp))
        have h3 := (List.pairwise_cons.1 hd'.2).1 w (by simp)
        by_contra hc
        push Not at hc
        have a1 : area2 w v c * (lin A B u - lin A B v) ≤ 0 :=
          mul_nonpos_of_nonpos_of_nonneg hc (by linarith)
        have a2 : 0 ≤ area2 w v u * (lin A B c - lin A B v) := mul_nonneg h2 (by linarith)
        have a3 : 0 < area2 v u c * (lin A B v - lin A B w) := mul_pos huv (by linarith)
        linarith
  exact key l b he (fun c hc => hc) hd h0

/-- What popping does. -/
theorem popG_spec (ht : PopTest t) {p : Point K} (acc : List (Point K)) (hne : acc ≠ [])
    (hd : acc.Pairwise fun u v => lin A B v < lin A B u)
    (hp : ∀ c ∈ acc, lin A B c < lin A B p)
    (he : acc.IsChain fun u v => ∀ q ∈ acc, 0 ≤ area2 v u q) :
    ∃ b l, popG t p acc = b :: l ∧ (b :: l) <:+ acc ∧
      (b :: l).IsChain (fun u v => 0 ≤ area2 v u p) ∧ (∀ c ∈ acc, 0 ≤ area2 b p c) ∧
      (∀ a, l.head? = some a → t a b p = false) ∧
      ((∀ a b p, t a b p = true → area2 a b p < 0) →
        ∀ c ∈ acc, c ∉ b :: l → 0 < area2 b p c) := by
  induction acc with
  | nil => exact absurd rfl hne
  | cons b l ih =>
    cases l with
    | nil =>
      refine ⟨b, [], by simp [popG], List.suffix_refl _, by simp, ?_, by simp, ?_⟩
      · intro c hc
        simp only [List.mem_cons, List.not_mem_nil, or_false] at hc
        subst hc; rw [area2_self]
      · intro _ c hc hc'
        exact absurd hc hc'
    | cons a l =>
      by_cases hpop : t a b p = true
      · obtain ⟨h, l', e, hs, hB, hA, hk, hst⟩ := ih (by simp) (List.pairwise_cons.1 hd).2
          (fun c hc => hp c (by simp [hc]))
          ((List.isChain_cons_cons.1 he).2.imp fun u v h q hq => h q (by simp [hq]))
        have hh : h ∈ a :: l := hs.subset (by simp)
        have hbp := hp b (by simp)
        have hap := hp a (by simp)
        have hhp := hp h (by simp [hh])
        have h1 := lin_trans A B p h a b
        have e1 : area2 p h a = - area2 h p a := by rw [area2_swap]
        have e2 : area2 p a b = area2 a b p := by rw [← area2_rot]
        have e3 : area2 p h b = - area2 h p b := by rw [area2_swap]
        rw [e1, e2, e3] at h1
        have hAa := hA a (by simp)
        have hab := ht.pop a b p hpop
        refine ⟨h, l', by rw [popG, if_pos hpop, e], hs.trans (List.suffix_cons _ _), hB, ?_, hk, ?_⟩
        · intro c hc
          rcases List.mem_cons.1 hc with rfl | hc
          · by_contra hcon
            push Not at hcon
            have a1 : - area2 h p c * (lin A B a - lin A B p) < 0 :=
              mul_neg_of_pos_of_neg (by linarith) (by linarith)
            have a2 : 0 ≤ - area2 h p a * (lin A B c - lin A B p) :=
              mul_nonneg_of_nonpos_of_nonpos (by linarith) (by linarith)
            have a3 : 0 ≤ area2 a c p * (lin A B h - lin A B p) :=
              mul_nonneg_of_nonpos_of_nonpos hab (by linarith)
            linarith
          · exact hA c hc
        · intro hstrict c hc hc'
          rcases List.mem_cons.1 hc with rfl | hc
          · have hab' := hstrict a c p hpop
            by_contra hcon
            push Not at hcon
            have a1 : - area2 h p c * (lin A B a - lin A B p) ≤ 0 :=
              mul_nonpos_of_nonneg_of_nonpos (by linarith) (by linarith)
            have a2 : 0 ≤ - area2 h p a * (lin A B c - lin A B p) :=
              mul_nonneg_of_nonpos_of_nonpos (by linarith) (by linarith)
            have a3 : 0 < area2 a c p * (lin A B h - lin A B p) :=
              mul_pos_of_neg_of_neg hab' (by linarith)
            linarith
          · exact hst hstrict c hc hc'
      · have hf : t a b p = false := by simpa using hpop
        obtain ⟨g1, g2⟩ := chain_left (p := p) (a :: l) hd hp he (by
          intro a' ha'
          simp only [List.head?_cons, Option.some.injEq] at ha'
          subst ha'
          exact ht.keep _ _ _ hf)
        refine ⟨b, a :: l, by rw [popG, if_neg hpop], List.suffix_refl _, g1, g2, ?_, ?_⟩
        · intro a' ha'
          simp only [List.head?_cons, Option.some.injEq] at ha'
          subst ha'
          exact hf
        · intro _ c hc hc'
          exact absurd hc hc'

/-- Invariant of the scan: `acc` is the reversed chain of the scanned points `s`. -/
structure ScanInv (t : Point K → Point K → Point K → Bool) (A B : K) (s acc : List (Point K)) :
    Prop where
  sub : ∀ c ∈ acc, c ∈ s
  desc : acc.Pairwise fun u v => lin A B v < lin A B u
  head : acc.head? = s.getLast?
  last : acc.getLast? = s.head?
  left : acc.IsChain fun u v => ∀ q ∈ s, 0 ≤ area2 v u q
  strict : (∀ a b p, t a b p = true → area2 a b p < 0) →
    acc.IsChain fun u v => ∀ q ∈ s, q ∉ acc → 0 < area2 v u q
  turn : (∀ a b p, t a b p = false → 0 < area2 a b p) →
    ∀ i a b c, acc[i]? = some c → acc[i + 1]? = some b → acc[i + 2]? = some a → 0 < area2 a b c

theorem exists_bracket (acc : List (Point K))
    (hd : acc.Pairwise fun u v => lin A B v < lin A B u) (q : Point K) (x y : Point K)
    (hx : acc.head? = some x) (hy : acc.getLast? = some y) (h1 : lin A B y ≤ lin A B q)
    (h2 : lin A B q ≤ lin A B x) :
    (x = y ∧ acc = [x]) ∨ ∃ l1 u v l2, acc = l1 ++ u :: v :: l2 ∧ lin A B v ≤ lin A B q ∧
      lin A B q ≤ lin A B u := by
  induction acc generalizing x with
  | nil => simp at hx
  | cons b l ih =>
    simp only [List.head?_cons, Option.some.injEq] at hx
    subst hx
    cases l with
    | nil =>
      simp at hy
      exact Or.inl ⟨hy, rfl⟩
    | cons a l =>
      right
      by_cases hq : lin A B a ≤ lin A B q
      · exact ⟨[], b, a, l, rfl, hq, h2⟩
      · push Not at hq
        rcases ih (List.pairwise_cons.1 hd).2 a rfl (by rw [List.getLast?_cons_cons] at hy; exact hy)
          hq.le with ⟨e, e'⟩ | ⟨l1, u, v, l2, e, h3, h4⟩
        · subst e
          exact absurd h1 (not_le.2 hq)
        · exact ⟨b :: l1, u, v, l2, by rw [e]; rfl, h3, h4⟩

theorem isChain_mid {R : Point K → Point K → Prop} {l1 l2 : List (Point K)} {u v : Point K}
    (h : (l1 ++ u :: v :: l2).IsChain R) : R u v := by
  rw [List.isChain_append] at h
  exact (List.isChain_cons_cons.1 h.2.1).1

theorem isChain_iff_mid {R : Point K → Point K → Prop} {l : List (Point K)} :
    l.IsChain R ↔ ∀ l1 u v l2, l = l1 ++ u :: v :: l2 → R u v := by
  constructor
  · rintro h l1 u v l2 rfl
    exact isChain_mid h
  · intro h
    induction l with
    | nil => simp
    | cons a l ih =>
      cases l with
      | nil => simp
      | cons b l =>
        refine List.isChain_cons_cons.2 ⟨h [] a b l rfl, ih fun l1 u v l2 e => ?_⟩
        exact h (a :: l1) u v l2 (by rw [e]; rfl)

theorem isChain_suffix {R : Point K → Point K → Prop} {l l' : List (Point K)} (h : l.IsChain R)
    (hs : l' <:+ l) : l'.IsChain R := by
  obtain ⟨p, rfl⟩ := hs
  exact (List.isChain_append.1 h).2.1

theorem ScanInv.step (ht : PopTest t) {s acc : List (Point K)} (h : ScanInv t A B s acc)
    (hne : s ≠ []) (hs : s.Pairwise fun u v => lin A B u < lin A B v) {p : Point K}
    (hp : ∀ c ∈ s, lin A B c < lin A B p) :
    ScanInv t A B (s ++ [p]) (p :: popG t p acc) := by
  have hacc : acc ≠ [] := by
    rintro rfl
    have := h.head
    simp only [List.head?_nil] at this
    exact hne (List.getLast?_eq_none_iff.1 this.symm)
  have hpa : ∀ c ∈ acc, lin A B c < lin A B p := fun c hc => hp c (h.sub c hc)
  obtain ⟨b, l, e, hsuf, hB, hA, hk, hst⟩ := popG_spec ht (p := p) acc hacc h.desc hpa
    (h.left.imp fun u v h' q hq => h' q (h.sub q hq))
  have hbl : ∀ c ∈ b :: l, c ∈ acc := fun c hc => hsuf.subset hc
  obtain ⟨x, hx⟩ : ∃ x, acc.head? = some x := by
    cases acc with
    | nil => exact absurd rfl hacc
    | cons a l => exact ⟨a, rfl⟩
  obtain ⟨y, hy⟩ : ∃ y, acc.getLast? = some y :=
    ⟨acc.getLast hacc, List.getLast?_eq_getLast_of_ne_nil hacc⟩
  have hxs : ∀ q ∈ s, lin A B q ≤ lin A B x := by
    have hx' := h.head.symm.trans hx
    obtain ⟨s', rfl⟩ := List.getLast?_eq_some_iff.1 hx'
    intro q hq
    rcases List.mem_append.1 hq with hq | hq
    · exact ((List.pairwise_append.1 hs).2.2 q hq x (by simp)).le
    · simp only [List.mem_cons, List.not_mem_nil, or_false] at hq
      rw [hq]
  have hys : ∀ q ∈ s, lin A B y ≤ lin A B q := by
    have hy' := h.last.symm.trans hy
    cases s with
    | nil => exact absurd rfl hne
    | cons a s' =>
      simp only [List.head?_cons, Option.some.injEq] at hy'
      subst hy'
      intro q hq
      rcases List.mem_cons.1 hq with rfl | hq
      · exact le_refl _
      · exact ((List.pairwise_cons.1 hs).1 q hq).le
  have hbs := hbl b (by simp)
  have hbp := hpa b hbs
  -- all scanned points are on the left of the new edge
  have hnew : ∀ q ∈ s, 0 ≤ area2 b p q ∧
      ((∀ a b p, t a b p = true → area2 a b p < 0) → q ∉ b :: l → 0 < area2 b p q) := by
    intro q hq
    rcases exists_bracket acc h.desc q x y hx hy (hys q hq) (hxs q hq) with
      ⟨exy, e1⟩ | ⟨l1, u, v, l2, e1, h1, h2⟩
    · subst exy
      have : b = x := by rw [e1] at hbs; simpa using hbs
      subst this
      have hqb : q = b := by
        have h1 := hxs q hq
        have h2 := hys q hq
        by_contra hc
        have hbs' := h.sub b hbs
        rcases List.pairwise_iff_getElem.1 hs with hs'
        obtain ⟨i, hi, rfl⟩ := List.getElem_of_mem hq
        obtain ⟨j, hj, hb'⟩ := List.getElem_of_mem hbs'
        rcases Nat.lt_trichotomy i j with hij | hij | hij
        · have := hs' i j hi hj hij
          rw [hb'] at this
          exact absurd this (not_lt.2 h2)
        · subst hij; exact hc hb'
        · have := hs' j i hj hi hij
          rw [hb'] at this
          exact absurd this (not_lt.2 h1)
      subst hqb
      refine ⟨by rw [area2_self], fun _ hc => absurd (by simp) hc⟩
    · have hu : u ∈ acc := by rw [e1]; simp
      have hv : v ∈ acc := by rw [e1]; simp
      have huv : lin A B v < lin A B u := by
        have := h.desc
        rw [e1, List.pairwise_append] at this
        exact (List.pairwise_cons.1 this.2.1).1 v (by simp)
      have hl : 0 ≤ area2 v u q := by
        have := h.left
        rw [e1] at this
        exact isChain_mid this q hq
      have hb := lin_between A B b p v u q
      have a1 : 0 ≤ area2 b p v * (lin A B u - lin A B q) :=
        mul_nonneg (hA v hv) (by linarith)
      have a2 : 0 ≤ area2 b p u * (lin A B q - lin A B v) :=
        mul_nonneg (hA u hu) (by linarith)
      have a3 : 0 ≤ area2 v u q * (lin A B p - lin A B b) := mul_nonneg hl (by linarith)
      refine ⟨?_, ?_⟩
      · by_contra hc
        push Not at hc
        have := mul_neg_of_neg_of_pos hc (sub_pos.2 huv)
        linarith
      · intro hstr hqn
        by_cases hqa : q ∈ acc
        · exact hst hstr q hqa hqn
        · have hpos : 0 < area2 v u q := by
            have := h.strict hstr
            rw [e1] at this
            exact isChain_mid this q hq (by rw [← e1]; exact hqa)
          have a3' : 0 < area2 v u q * (lin A B p - lin A B b) := mul_pos hpos (by linarith)
          by_contra hc
          push Not at hc
          have := mul_nonpos_of_nonpos_of_nonneg hc (sub_pos.2 huv).le
          linarith
  refine ⟨?_, ?_, ?_, ?_, ?_, ?_, ?_⟩
  · intro c hc
    rw [e] at hc
    rcases List.mem_cons.1 hc with rfl | hc
    · simp
    · exact List.mem_append_left _ (h.sub c (hbl c hc))
  · rw [e, List.pairwise_cons]
    refine ⟨fun c hc => hpa c (hbl c hc), ?_⟩
    exact List.Pairwise.sublist hsuf.sublist h.desc
  · simp
  · rw [e, List.getLast?_cons_cons]
    have : (b :: l).getLast? = acc.getLast? := by
      obtain ⟨pre, hpre⟩ := hsuf
      rw [← hpre, List.getLast?_append_of_ne_nil _ (by simp)]
    rw [this, h.last]
    cases s with
    | nil => exact absurd rfl hne
    | cons a s => simp
  · rw [e, List.isChain_cons_cons]
    refine ⟨?_, ?_⟩
    · intro q hq
      rcases List.mem_append.1 hq with hq | hq
      · exact (hnew q hq).1
      · simp only [List.mem_cons, List.not_mem_nil, or_false] at hq
        rw [hq, area2_self']
    · refine (isChain_and (isChain_suffix h.left hsuf) hB).imp ?_
      rintro u v ⟨h1, h2⟩ q hq
      rcases List.mem_append.1 hq with hq | hq
      · exact h1 q hq
      · simp only [List.mem_cons, List.not_mem_nil, or_false] at hq
        rw [hq]; exact h2
  · intro hstr
    rw [e, List.isChain_cons_cons]
    refine ⟨?_, ?_⟩
    · intro q hq hqn
      rcases List.mem_append.1 hq with hq | hq
      · exact (hnew q hq).2 hstr (fun hc => hqn (by simp [List.mem_cons.1 hc]))
      · exact absurd hq (fun hq => hqn (by simp at hq; simp [hq]))
    · -- an old edge that stays: its endpoints are in the chain, so points of the old chain ...
      have hS := isChain_suffix (h.strict hstr) hsuf
      have hL := isChain_suffix h.left hsuf
      have hD := List.Pairwise.sublist hsuf.sublist h.desc
      rw [isChain_iff_mid] at hS ⊢
      intro l1 u v l2 e1 q hq hqn
      have hqbl : q ∉ b :: l := fun hc => hqn (by simp [List.mem_cons.1 hc])
      rcases List.mem_append.1 hq with hq | hq
      · by_cases hqa : q ∈ acc
        · -- popped
          have hqb := hst hstr q hqa hqbl
          have hbq : lin A B b < lin A B q := by
            obtain ⟨pre, hpre⟩ := hsuf
            have := h.desc
            rw [← hpre, List.pairwise_append] at this
            have hq' : q ∈ pre := by
              rw [← hpre] at hqa
              exact (List.mem_append.1 hqa).resolve_right hqbl
            exact this.2.2 q hq' b (by simp)
          have hlow : ∀ c ∈ b :: l, lin A B c < lin A B q := by
            intro c hc
            rcases List.mem_cons.1 hc with rfl | hc
            · exact hbq
            · exact ((List.pairwise_cons.1 hD).1 c hc).trans hbq
          have := chain_left_strict (c := q) l b hD hlow
            (hL.imp fun u v h' w hw => h' w (h.sub w (hbl w hw))) (by
              intro a ha
              have hkeep := ht.keep _ _ _ (hk a ha)
              have hab : lin A B a < lin A B b := by
                cases l with
                | nil => simp at ha
                | cons w l3 =>
                  simp only [List.head?_cons, Option.some.injEq] at ha
                  subst ha
                  exact (List.pairwise_cons.1 hD).1 w (by simp)
              have h1 := lin_step A B a b q p
              have e3 : area2 b q p = - area2 b p q := area2_swap' _ _ _
              rw [e3] at h1
              have hqp := hpa q hqa
              by_contra hc
              push Not at hc
              have a1 : area2 a b q * (lin A B p - lin A B b) ≤ 0 :=
                mul_nonpos_of_nonpos_of_nonneg hc (by linarith)
              have a2 : 0 ≤ area2 a b p * (lin A B q - lin A B b) :=
                mul_nonneg hkeep (by linarith)
              have a3 : - area2 b p q * (lin A B b - lin A B a) < 0 :=
                mul_neg_of_neg_of_pos (by linarith) (by linarith)
              linarith)
          rw [e1] at this
          exact isChain_mid this
        · exact hS l1 u v l2 e1 q hq hqa
      · exact absurd hq (fun hq => hqn (by simp at hq; simp [hq]))
  · intro hturn i a' b' c' hc hb ha
    rw [e] at hc hb ha
    cases i with
    | zero =>
      simp only [List.getElem?_cons_zero, List.getElem?_cons_succ, Option.some.injEq,
        Nat.zero_add] at hc hb ha
      subst hc; subst hb
      refine hturn _ _ _ (hk a' ?_)
      rw [List.head?_eq_getElem?]
      simpa using ha
    | succ i =>
      obtain ⟨pre, hpre⟩ := hsuf
      have hidx : ∀ j, (b :: l)[j]? = acc[pre.length + j]? := by
        intro j
        rw [← hpre, List.getElem?_append_right (by omega)]
        congr 1; omega
      simp only [List.getElem?_cons_succ (a := p)] at hc hb ha
      have h2 : ∀ j, (p :: b :: l)[j + 1]? = acc[pre.length + j]? := fun j => by
        rw [List.getElem?_cons_succ, hidx]
      refine h.turn hturn (pre.length + i) a' b' c' ?_ ?_ ?_
      · rw [← hidx]; exact hc
      · rw [show pre.length + i + 1 = pre.length + (i + 1) by omega, ← hidx]; exact hb
      · rw [show pre.length + i + 2 = pre.length + (i + 2) by omega, ← hidx]; exact ha

theorem scanG_inv (ht : PopTest t) (s : List (Point K)) (hne : s ≠ [])
    (hs : s.Pairwise fun u v => lin A B u < lin A B v) : ScanInv t A B s (scanG t s) := by
  induction s using List.reverseRecOn with
  | nil => exact absurd rfl hne
  | append_singleton s p ih =>
    unfold scanG
    rw [List.foldl_append]
    by_cases h0 : s = []
    · subst h0
      simp only [List.foldl_nil, List.foldl_cons, List.nil_append, popG]
      exact ⟨by simp, by simp, by simp, by simp, by simp, fun _ => by simp,
        fun _ i a b c hc hb ha => by simp at hb⟩
    · rw [List.pairwise_append] at hs
      exact (ih h0 hs.1).step ht h0 hs.1 fun c hc => hs.2.2 c hc p (by simp)

end
end HG
