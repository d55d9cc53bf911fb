import Verif.Lemmas.Hull
import Mathlib.Data.List.GetD

/-!
# Closed hulls made of two monotone chains
-/

set_option linter.unusedSectionVars false

namespace HG

open Spec

section
variable {K : Type} [CommRing K] [LinearOrder K] [IsStrictOrderedRing K]
variable {t : Point K → Point K → Point K → Bool} {A B : K}

/-- Both chains, without their last points. -/
def hullG (t : Point K → Point K → Point K → Bool) (s : List (Point K)) : List (Point K) :=
  (scanG t s).reverse.dropLast ++ (scanG t s.reverse).reverse.dropLast

theorem lin_neg (A B : K) (p : Point K) : lin (-A) (-B) p = - lin A B p := by unfold lin; ring

theorem getLast?_wrap {a b : Point K} (l : List (Point K)) :
    (a :: (l ++ [b])).getLast? = some b := by
  rw [← List.cons_append, List.getLast?_append]; simp

/-- A chain closed by repeating its first element, read cyclically. -/
theorem cyc_of_isChain {E : Point K → Point K → Prop} {h : List (Point K)} {x : Point K}
    (hc : (h ++ [x]).IsChain E) (hx : h.head? = some x) (i : Nat) (hi : i < h.length) :
    E (cyc h i) (cyc h (i + 1)) := by
  have h1 := List.isChain_iff_getElem.1 hc i (by simp; omega)
  have e1 : (h ++ [x])[i]'(by simp; omega) = cyc h i := by
    rw [List.getElem_append_left hi]
    unfold cyc
    rw [Nat.mod_eq_of_lt hi, List.getD_eq_getElem _ _ hi]
  have e2 : (h ++ [x])[i + 1]'(by simp; omega) = cyc h (i + 1) := by
    unfold cyc
    by_cases hi' : i + 1 < h.length
    · rw [List.getElem_append_left hi', Nat.mod_eq_of_lt hi', List.getD_eq_getElem _ _ hi']
    · have : i + 1 = h.length := by omega
      rw [List.head?_eq_getElem?, List.getElem?_eq_getElem (by omega)] at hx
      have hm : (i + 1) % h.length = 0 := by rw [this, Nat.mod_self]
      rw [List.getElem_append_right (by omega), hm, List.getD_eq_getElem _ _ (by omega)]
      simpa using hx.symm
  rw [← e1, ← e2]; exact h1

/-- The two chains of a sorted list with at least two points. -/
theorem hull_split (ht : PopTest t) (s : List (Point K)) (h2 : 2 ≤ s.length)
    (hs : s.Pairwise fun u v => lin A B u < lin A B v) :
    ∃ (x y : Point K) (l u : List (Point K)),
      scanG t s = y :: l.reverse ++ [x] ∧ scanG t s.reverse = x :: u.reverse ++ [y] ∧
      s.head? = some x ∧ s.getLast? = some y ∧
      hullG t s = x :: l ++ (y :: u) := by
  have hne : s ≠ [] := by rintro rfl; simp at h2
  have i1 := scanG_inv ht s hne hs
  have i2 := scanG_inv (A := -A) (B := -B) ht s.reverse (by simpa using hne) (by
    rw [List.pairwise_reverse]
    exact hs.imp fun h => by rw [lin_neg, lin_neg]; linarith)
  obtain ⟨x, y, m, rfl⟩ : ∃ x y m, s = x :: m ++ [y] := by
    cases s with
    | nil => exact absurd rfl hne
    | cons x s =>
      have : s ≠ [] := by rintro rfl; simp at h2
      exact ⟨x, s.getLast this, s.dropLast, by
        rw [List.cons_append, List.dropLast_append_getLast this]⟩
  have key : ∀ (acc : List (Point K)) (a b : Point K), a ≠ b → acc.head? = some a →
      acc.getLast? = some b → ∃ l : List (Point K), acc = a :: l.reverse ++ [b] := by
    intro acc a b hab ha hb
    cases acc with
    | nil => simp at ha
    | cons c acc =>
      simp only [List.head?_cons, Option.some.injEq] at ha
      subst ha
      have hacc : acc ≠ [] := by
        rintro rfl
        simp at hb
        exact hab hb
      refine ⟨acc.dropLast.reverse, ?_⟩
      rw [List.getLast?_cons, Option.some.injEq] at hb
      rw [List.getLast?_eq_getLast_of_ne_nil hacc] at hb
      simp only [Option.getD_some] at hb
      rw [List.reverse_reverse, List.cons_append, ← hb, List.dropLast_append_getLast hacc]
  have hxy : x ≠ y := by
    rintro rfl
    rw [List.pairwise_append] at hs
    exact absurd (hs.2.2 x (by simp) x (by simp)) (lt_irrefl _)
  obtain ⟨l, hl⟩ := key _ y x hxy.symm (by rw [i1.head]; simp [getLast?_wrap]) (by rw [i1.last]; simp)
  obtain ⟨u, hu⟩ := key _ x y hxy (by rw [i2.head]; simp [getLast?_wrap]) (by rw [i2.last]; simp)
  refine ⟨x, y, l, u, hl, hu, by simp, by simp [getLast?_wrap], ?_⟩
  unfold hullG
  rw [hl, hu]
  simp [List.dropLast_append_of_ne_nil, List.dropLast_cons_of_ne_nil]

theorem isChain_of_reverse {R : Point K → Point K → Prop} {l : List (Point K)}
    (h : l.reverse.IsChain R) : l.IsChain (fun a b => R b a) := by
  rw [List.isChain_reverse] at h
  exact h

/-- Edges of the closed hull, from properties of the edges of both (reversed) chains. -/
theorem hull_edges (ht : PopTest t) (s : List (Point K)) (h2 : 2 ≤ s.length)
    (hs : s.Pairwise fun u v => lin A B u < lin A B v) {E : Point K → Point K → Prop}
    (h1 : (scanG t s).IsChain fun u v => E v u)
    (h1' : (scanG t s.reverse).IsChain fun u v => E v u) (i : Nat) (hi : i < (hullG t s).length) :
    E (cyc (hullG t s) i) (cyc (hullG t s) (i + 1)) := by
  obtain ⟨x, y, l, u, e1, e2, -, -, e⟩ := hull_split ht s h2 hs
  rw [e] at hi ⊢
  refine cyc_of_isChain (x := x) ?_ (by simp) i hi
  rw [e1] at h1
  rw [e2] at h1'
  have f1 : (x :: l ++ [y]).IsChain E := by
    have : (x :: l ++ [y]).reverse.IsChain fun u v => E v u := by simpa using h1
    exact isChain_of_reverse this
  have f2 : (y :: u ++ [x]).IsChain E := by
    have : (y :: u ++ [x]).reverse.IsChain fun u v => E v u := by simpa using h1'
    exact isChain_of_reverse this
  rw [List.append_assoc, List.isChain_append]
  rw [List.isChain_append] at f1
  exact ⟨f1.1, f2, by simpa using f1.2.2⟩

/-- Weak support of the hull. -/
theorem hullG_left (ht : PopTest t) (s : List (Point K)) (h2 : 2 ≤ s.length)
    (hs : s.Pairwise fun u v => lin A B u < lin A B v) :
    (∀ p ∈ hullG t s, p ∈ s) ∧ 2 ≤ (hullG t s).length ∧
    ∀ i < (hullG t s).length, ∀ q ∈ s, 0 ≤ area2 (cyc (hullG t s) i) (cyc (hullG t s) (i + 1)) q := by
  have hne : s ≠ [] := by rintro rfl; simp at h2
  have i1 := scanG_inv ht s hne hs
  have i2 := scanG_inv (A := -A) (B := -B) ht s.reverse (by simpa using hne) (by
    rw [List.pairwise_reverse]
    exact hs.imp fun h => by rw [lin_neg, lin_neg]; linarith)
  obtain ⟨x, y, l, u, e1, e2, -, -, e⟩ := hull_split ht s h2 hs
  refine ⟨?_, by rw [e]; simp; omega, ?_⟩
  · intro p hp
    rw [e] at hp
    rcases List.mem_append.1 hp with hp | hp
    · apply i1.sub
      rw [e1]
      rcases List.mem_cons.1 hp with rfl | hp
      · simp
      · simp [hp]
    · have := i2.sub p (by
        rw [e2]
        rcases List.mem_cons.1 hp with rfl | hp
        · simp
        · simp [hp])
      simpa using this
  · intro i hi
    exact hull_edges ht s h2 hs (E := fun a b => ∀ q ∈ s, 0 ≤ area2 a b q) i1.left
      (i2.left.imp fun u v h q hq => h q (by simpa using hq)) i hi

/-- Tests that keep points on the line: the hull contains every point of its boundary. -/
theorem hullG_boundary (ht : PopTest t) (hstr : ∀ a b p, t a b p = true → area2 a b p < 0)
    (s : List (Point K)) (h2 : 2 ≤ s.length)
    (hs : s.Pairwise fun u v => lin A B u < lin A B v) :
    ∀ i < (hullG t s).length, ∀ q ∈ s, q ∉ hullG t s →
      0 < area2 (cyc (hullG t s) i) (cyc (hullG t s) (i + 1)) q := by
  have hne : s ≠ [] := by rintro rfl; simp at h2
  have i1 := scanG_inv ht s hne hs
  have i2 := scanG_inv (A := -A) (B := -B) ht s.reverse (by simpa using hne) (by
    rw [List.pairwise_reverse]
    exact hs.imp fun h => by rw [lin_neg, lin_neg]; linarith)
  obtain ⟨x, y, l, u, e1, e2, -, -, e⟩ := hull_split ht s h2 hs
  intro i hi
  refine hull_edges ht s h2 hs (E := fun a b => ∀ q ∈ s, q ∉ hullG t s → 0 < area2 a b q) ?_ ?_ i hi
  · refine (i1.strict hstr).imp fun u v h q hq hn => h q hq ?_
    rw [e1]; rw [e] at hn
    simp at hn ⊢
    tauto
  · refine (i2.strict hstr).imp fun u v h q hq hn => h q (by simpa using hq) ?_
    rw [e2]; rw [e] at hn
    simp at hn ⊢
    tauto

/-- The two chains have no inner vertex in common, unless all points are on one line. -/
theorem hullG_nodup (ht : PopTest t) (s : List (Point K)) (h2 : 2 ≤ s.length)
    (hs : s.Pairwise fun u v => lin A B u < lin A B v)
    (hc : ∃ a ∈ s, ∃ b ∈ s, ∃ c ∈ s, area2 a b c ≠ 0) : (hullG t s).Nodup := by
  have hne : s ≠ [] := by rintro rfl; simp at h2
  have i1 := scanG_inv ht s hne hs
  have i2 := scanG_inv (A := -A) (B := -B) ht s.reverse (by simpa using hne) (by
    rw [List.pairwise_reverse]
    exact hs.imp fun h => by rw [lin_neg, lin_neg]; linarith)
  obtain ⟨x, y, l, u, e1, e2, -, -, e⟩ := hull_split ht s h2 hs
  have d1 := i1.desc
  have d2 := i2.desc
  have n1 : (scanG t s).Nodup := d1.imp fun h h' => by rw [h'] at h; exact lt_irrefl _ h
  have n2 : (scanG t s.reverse).Nodup := d2.imp fun h h' => by rw [h'] at h; exact lt_irrefl _ h
  rw [e1] at n1
  rw [e2] at n2
  have hdis : ∀ q ∈ l, q ∉ u := by
    intro q hl hu
    simp only [List.cons_append, List.nodup_cons, List.mem_append, List.mem_reverse,
      List.mem_singleton, not_or, List.nodup_append, List.nodup_reverse] at n1 n2
    obtain ⟨s1, s2, rfl⟩ := List.append_of_mem hl
    obtain ⟨t1, t2, rfl⟩ := List.append_of_mem hu
    have key : ∀ (a b : Point K) (l1 l2 : List (Point K)), ∃ m1 c d m2,
        a :: (l1 ++ q :: l2).reverse ++ [b] = m1 ++ c :: q :: d :: m2 := by
      intro a b l1 l2
      have h1 : ∃ m1 c, a :: l2.reverse = m1 ++ [c] :=
        ⟨(a :: l2.reverse).dropLast, (a :: l2.reverse).getLast (by simp), by
          rw [List.dropLast_append_getLast]⟩
      obtain ⟨m1, c, h1⟩ := h1
      have h3 : ∃ d m2, l1.reverse ++ [b] = d :: m2 := by
        cases l1.reverse with
        | nil => exact ⟨b, [], rfl⟩
        | cons d m => exact ⟨d, m ++ [b], rfl⟩
      obtain ⟨d, m2, h3⟩ := h3
      refine ⟨m1, c, d, m2, ?_⟩
      have : a :: (l1 ++ q :: l2).reverse ++ [b] = (a :: l2.reverse) ++ q :: (l1.reverse ++ [b]) := by
        simp
      rw [this, h1, h3]
      simp
    obtain ⟨m1, b, a, m2, f1⟩ := key y x s1 s2
    obtain ⟨m1', a', b', m2', f2⟩ := key x y t1 t2
    rw [f1] at e1
    rw [f2] at e2
    have L1 := i1.left
    have L2 := i2.left
    rw [e1] at L1 d1
    rw [e2] at L2 d2
    have g1 : ∀ p ∈ s, 0 ≤ area2 a q p := by
      have : (m1 ++ b :: q :: a :: m2) = (m1 ++ [b]) ++ q :: a :: m2 := by simp
      rw [this] at L1
      exact isChain_mid L1
    have g2 : ∀ p ∈ s, 0 ≤ area2 b' q p := by
      have : (m1' ++ a' :: q :: b' :: m2') = (m1' ++ [a']) ++ q :: b' :: m2' := by simp
      rw [this] at L2
      exact fun p hp => isChain_mid L2 p (by simpa using hp)
    have ha : a ∈ s := i1.sub a (by rw [e1]; simp)
    have hq : q ∈ s := i1.sub q (by rw [e1]; simp)
    have hb' : b' ∈ s := by simpa using i2.sub b' (by rw [e2]; simp)
    have o1 : lin A B a < lin A B q := by
      rw [List.pairwise_append, List.pairwise_cons, List.pairwise_cons] at d1
      exact d1.2.1.2.1 a (by simp)
    have o2 : lin A B q < lin A B b' := by
      rw [List.pairwise_append, List.pairwise_cons, List.pairwise_cons] at d2
      have := d2.2.1.2.1 b' (by simp)
      rw [lin_neg, lin_neg] at this
      linarith
    have z : area2 a q b' = 0 := by
      have h1 := g1 b' hb'
      have h2 := g2 a ha
      have : area2 b' q a = - area2 a q b' := by unfold area2; ring
      linarith
    have all : ∀ p ∈ s, area2 a q p = 0 := by
      intro p hp
      refine le_antisymm ?_ (g1 p hp)
      have id : area2 a q p * (lin A B b' - lin A B q) =
          area2 a q b' * (lin A B p - lin A B q) -
            area2 b' q p * (lin A B q - lin A B a) := by unfold area2 lin; ring
      rw [z] at id
      have := mul_nonneg (g2 p hp) (sub_pos.2 o1).le
      have h3 : area2 a q p * (lin A B b' - lin A B q) ≤ 0 := by linarith
      by_contra hcon
      push Not at hcon
      have := mul_pos hcon (sub_pos.2 o2)
      linarith
    obtain ⟨p, hp, p', hp', r, hr, h⟩ := hc
    refine h ?_
    have k1 := all p hp
    have k2 := all p' hp'
    have k3 := all r hr
    have id : area2 p p' r * (lin A B q - lin A B a) =
        area2 a q p * (lin A B r - lin A B p') + area2 a q p' * (lin A B p - lin A B r) +
          area2 a q r * (lin A B p' - lin A B p) := by unfold area2 lin; ring
    rw [k1, k2, k3] at id
    have : area2 p p' r * (lin A B q - lin A B a) = 0 := by linarith
    exact (mul_eq_zero.1 this).resolve_right (by linarith)
  rw [e]
  simp only [List.cons_append, List.nodup_cons, List.mem_append, List.mem_reverse, List.mem_cons,
    not_or, List.nodup_append, List.nodup_reverse] at n1 n2 ⊢
  refine ⟨⟨?_, ?_, ?_⟩, ?_, ?_, ?_⟩
  all_goals aesop

/-! ## Strict hulls -/

/-- Strictly on the left of every edge that does not contain it: any three vertices in order make
a left turn. -/
theorem strictlyConvex_of_edges {h : List (Point K)} (hn : h.Nodup)
    (he : ∀ i < h.length, ∀ q ∈ h, q ≠ cyc h i → q ≠ cyc h (i + 1) →
      0 < area2 (cyc h i) (cyc h (i + 1)) q) : StrictlyConvex h := by
  refine ⟨hn, fun i j k hij hjk hk => ?_⟩
  have hcyc : ∀ i, i < h.length → cyc h i = h.getD i ⟨0, 0⟩ := fun i hi => by
    unfold cyc; rw [Nat.mod_eq_of_lt hi]
  have hmem : ∀ i, i < h.length → h.getD i ⟨0, 0⟩ ∈ h := fun i hi => by
    rw [List.getD_eq_getElem _ _ hi]; exact List.getElem_mem hi
  have hne : ∀ i j, i < h.length → j < h.length → i ≠ j → h.getD i ⟨0, 0⟩ ≠ h.getD j ⟨0, 0⟩ :=
    fun i j hi hj hij => getD_ne hn hi hj hij
  have hedge : ∀ a b, a + 1 < h.length → b < h.length → b ≠ a → b ≠ a + 1 →
      0 < area2 (h.getD a ⟨0, 0⟩) (h.getD (a + 1) ⟨0, 0⟩) (h.getD b ⟨0, 0⟩) := by
    intro a b ha hb h1 h2
    have := he a (by omega) (h.getD b ⟨0, 0⟩) (hmem b hb)
    rw [hcyc a (by omega), hcyc (a + 1) ha] at this
    exact this (hne _ _ hb (by omega) h1) (hne _ _ hb ha h2)
  unfold LeftTurn
  -- all later points lie in the half plane of the first edge; they are sorted by angle there
  obtain ⟨d, rfl⟩ : ∃ d, k = j + 1 + d := ⟨k - (j + 1), by omega⟩
  clear hjk
  induction d with
  | zero =>
    have := hedge j i (by omega) (by omega) (by omega) (by omega)
    rw [← area2_rot, ← area2_rot] 
    rw [← area2_rot]
    rw [← area2_rot] at this
    rw [← area2_rot] at this
    simpa [area2_rot] using this
  | succ d ih =>
    have h1 := ih (by omega)
    have h2 := hedge (j + 1 + d) i (by omega) (by omega) (by omega) (by omega)
    by_cases hji : j = i + 1
    · subst hji
      exact hedge i _ (by omega) hk (by omega) (by omega)
    · have p1 := hedge i j (by omega) (by omega) (by omega) hji
      have p2 := hedge i (j + 1 + d) (by omega) (by omega) (by omega) (by omega)
      have p3 := hedge i (j + 1 + (d + 1)) (by omega) hk (by omega) (by omega)
      rw [show j + 1 + d + 1 = j + 1 + (d + 1) by omega] at h2
      generalize h.getD i ⟨0, 0⟩ = p at *
      generalize h.getD (i + 1) ⟨0, 0⟩ = o at *
      generalize h.getD j ⟨0, 0⟩ = a at *
      generalize h.getD (j + 1 + d) ⟨0, 0⟩ = b at *
      generalize h.getD (j + 1 + (d + 1)) ⟨0, 0⟩ = c at *
      have key : area2 p a c * area2 p o b = area2 p a b * area2 p o c + area2 p b c * area2 p o a := by
        unfold area2; ring
      have h2' : 0 < area2 p b c := by rw [← area2_rot] at h2; rw [area2_rot] at h2; rwa [← area2_rot]
      by_contra hc
      push Not at hc
      have b1 := mul_nonpos_of_nonpos_of_nonneg hc p2.le
      have b2 := mul_pos h1 p3
      have b3 := mul_pos h2' p1
      linarith

/-- `turn` on decompositions. -/
theorem ScanInv.turn' {s acc : List (Point K)} (h : ScanInv t A B s acc)
    (hturn : ∀ a b p, t a b p = false → 0 < area2 a b p) {l1 l2 : List (Point K)}
    {c b a : Point K} (e : acc = l1 ++ c :: b :: a :: l2) : 0 < area2 a b c := by
  refine h.turn hturn l1.length a b c ?_ ?_ ?_
  · rw [e, List.getElem?_append_right (by omega)]; simp
  · rw [e, List.getElem?_append_right (by omega)]; simp
  · rw [e, List.getElem?_append_right (by omega)]
    rw [show l1.length + 2 - l1.length = 2 by omega]; rfl

/-- A point of the line of an edge lies between the endpoints of the edge. -/
theorem ScanInv.on_edge {s acc : List (Point K)} (h : ScanInv t A B s acc)
    (hs : s.Pairwise fun u v => lin A B u < lin A B v)
    (hturn : ∀ a b p, t a b p = false → 0 < area2 a b p) {l1 l2 : List (Point K)}
    {b a q : Point K} (e : acc = l1 ++ b :: a :: l2) (hq : q ∈ s) (h0 : area2 a b q = 0) :
    lin A B a ≤ lin A B q ∧ lin A B q ≤ lin A B b := by
  have hab : lin A B a < lin A B b := by
    have := h.desc
    rw [e, List.pairwise_append] at this
    exact (List.pairwise_cons.1 this.2.1).1 a (by simp)
  constructor
  · by_contra hc
    push Not at hc
    cases l2 with
    | nil =>
      have h1 := h.last
      rw [e] at h1
      simp only [List.getLast?_append, List.getLast?_cons_cons, List.getLast?_singleton,
        Option.some_or] at h1
      cases s with
      | nil => simp at hq
      | cons z s' =>
        simp only [List.head?_cons, Option.some.injEq] at h1
        subst h1
        rcases List.mem_cons.1 hq with rfl | hq
        · exact absurd hc (lt_irrefl _)
        · exact absurd hc (not_lt.2 ((List.pairwise_cons.1 hs).1 q hq).le)
    | cons z l2 =>
      have ht := h.turn' hturn e
      have hz : 0 ≤ area2 z a q := by
        have := h.left
        rw [e, show l1 ++ b :: a :: z :: l2 = (l1 ++ [b]) ++ a :: z :: l2 by simp] at this
        exact isChain_mid this q hq
      have hza : lin A B z < lin A B a := by
        have := h.desc
        rw [e, List.pairwise_append] at this
        exact (List.pairwise_cons.1 (List.pairwise_cons.1 this.2.1).2).1 z (by simp)
      have key : area2 a b q * (lin A B a - lin A B z) =
          area2 z a b * (lin A B a - lin A B q) + area2 z a q * (lin A B b - lin A B a) := by
        unfold area2 lin; ring
      rw [h0] at key
      have a1 := mul_pos ht (sub_pos.2 hc)
      have a2 := mul_nonneg hz (sub_pos.2 hab).le
      linarith
  · by_contra hc
    push Not at hc
    rcases List.eq_nil_or_concat l1 with rfl | ⟨l1', c, rfl⟩
    · have h1 := h.head
      rw [e] at h1
      simp only [List.nil_append, List.head?_cons] at h1
      obtain ⟨s', rfl⟩ := List.getLast?_eq_some_iff.1 h1.symm
      rcases List.mem_append.1 hq with hq | hq
      · exact absurd hc (not_lt.2 ((List.pairwise_append.1 hs).2.2 q hq b (by simp)).le)
      · simp only [List.mem_cons, List.not_mem_nil, or_false] at hq
        rw [hq] at hc
        exact absurd hc (lt_irrefl _)
    · have e' : acc = l1' ++ c :: b :: a :: l2 := by rw [e]; simp
      have ht := h.turn' hturn e'
      have hz : 0 ≤ area2 b c q := by
        have := h.left
        rw [e'] at this
        exact isChain_mid this q hq
      have hbc : lin A B b < lin A B c := by
        have := h.desc
        rw [e', List.pairwise_append] at this
        exact (List.pairwise_cons.1 this.2.1).1 b (by simp)
      have key := lin_step A B a b c q
      rw [h0] at key
      have a1 := mul_pos ht (sub_pos.2 hc)
      have a2 := mul_nonneg hz (sub_pos.2 hab).le
      linarith

theorem lin_inj {s : List (Point K)} (hs : s.Pairwise fun u v => lin A B u < lin A B v)
    {p q : Point K} (hp : p ∈ s) (hq : q ∈ s) (h : lin A B p = lin A B q) : p = q := by
  obtain ⟨i, hi, rfl⟩ := List.getElem_of_mem hp
  obtain ⟨j, hj, rfl⟩ := List.getElem_of_mem hq
  have hs' := List.pairwise_iff_getElem.1 hs
  rcases Nat.lt_trichotomy i j with hij | hij | hij
  · exact absurd h (hs' i j hi hj hij).ne
  · subst hij; rfl
  · exact absurd h (hs' j i hj hi hij).ne'

/-- Neighbours of an inner element of a chain. -/
theorem inner_split {acc : List (Point K)} {q : Point K} (hq : q ∈ acc) (h1 : acc.head? ≠ some q)
    (h2 : acc.getLast? ≠ some q) : ∃ l1 c a l2, acc = l1 ++ c :: q :: a :: l2 := by
  obtain ⟨s, t, rfl⟩ := List.append_of_mem hq
  rcases List.eq_nil_or_concat s with rfl | ⟨s', c, rfl⟩
  · simp at h1
  · cases t with
    | nil => simp at h2
    | cons a t => exact ⟨s', c, a, t, by simp⟩

/-- A vertex of one chain is strictly on the left of the edges of the same chain that do not
contain it. -/
theorem ScanInv.strict_same {s acc : List (Point K)} (h : ScanInv t A B s acc)
    (hs : s.Pairwise fun u v => lin A B u < lin A B v)
    (hturn : ∀ a b p, t a b p = false → 0 < area2 a b p) {l1 l2 : List (Point K)}
    {b a q : Point K} (e : acc = l1 ++ b :: a :: l2) (hq : q ∈ acc) (ha : q ≠ a) (hb : q ≠ b) :
    0 < area2 a b q := by
  have hl : 0 ≤ area2 a b q := by
    have := h.left
    rw [e] at this
    exact isChain_mid this q (h.sub q hq)
  refine lt_of_le_of_ne hl fun h0 => ?_
  obtain ⟨g1, g2⟩ := h.on_edge hs hturn e (h.sub q hq) h0.symm
  have hd := h.desc
  rw [e, List.pairwise_append, List.pairwise_cons, List.pairwise_cons] at hd
  rw [e] at hq
  rcases List.mem_append.1 hq with hq | hq
  · exact absurd g2 (not_le.2 (hd.2.2 q hq b (by simp)))
  · rcases List.mem_cons.1 hq with hq | hq
    · exact hb hq
    · rcases List.mem_cons.1 hq with hq | hq
      · exact ha hq
      · exact absurd g1 (not_le.2 (hd.2.1.2.1 q hq))

/-- A vertex of the opposite chain is strictly on the left of the edges that do not contain it. -/
theorem ScanInv.strict_other {s acc acc' : List (Point K)} (h : ScanInv t A B s acc)
    (h' : ScanInv t (-A) (-B) s.reverse acc')
    (hs : s.Pairwise fun u v => lin A B u < lin A B v)
    (hturn : ∀ a b p, t a b p = false → 0 < area2 a b p) {l1 l2 : List (Point K)}
    {b a q : Point K} (e : acc = l1 ++ b :: a :: l2) (hq : q ∈ acc') (ha : q ≠ a) (hb : q ≠ b) :
    0 < area2 a b q := by
  have hqs : q ∈ s := by simpa using h'.sub q hq
  have has : a ∈ s := h.sub a (by rw [e]; simp)
  have hbs : b ∈ s := h.sub b (by rw [e]; simp)
  have hl : 0 ≤ area2 a b q := by
    have := h.left
    rw [e] at this
    exact isChain_mid this q hqs
  refine lt_of_le_of_ne hl fun h0 => ?_
  have h0 := h0.symm
  obtain ⟨g1, g2⟩ := h.on_edge hs hturn e hqs h0
  have g1 : lin A B a < lin A B q := lt_of_le_of_ne g1 fun h => ha (lin_inj hs has hqs h).symm
  have g2 : lin A B q < lin A B b := lt_of_le_of_ne g2 fun h => hb (lin_inj hs hqs hbs h)
  -- `q` is an inner vertex of the other chain
  have hmin : acc'.head? ≠ some q := by
    rw [h'.head, List.getLast?_reverse]
    intro hc
    cases s with
    | nil => simp at hc
    | cons z s' =>
      simp only [List.head?_cons, Option.some.injEq] at hc
      subst hc
      rcases List.mem_cons.1 has with rfl | has
      · exact absurd g1 (lt_irrefl _)
      · exact absurd g1 (not_lt.2 ((List.pairwise_cons.1 hs).1 a has).le)
  have hmax : acc'.getLast? ≠ some q := by
    rw [h'.last, List.head?_reverse]
    intro hc
    obtain ⟨s', rfl⟩ := List.getLast?_eq_some_iff.1 hc
    rcases List.mem_append.1 hbs with hbs | hbs
    · exact absurd g2 (not_lt.2 ((List.pairwise_append.1 hs).2.2 b hbs q (by simp)).le)
    · simp only [List.mem_cons, List.not_mem_nil, or_false] at hbs
      exact hb hbs.symm
  obtain ⟨m1, c, d, m2, e'⟩ := inner_split hq hmin hmax
  have ht := h'.turn' hturn e'
  have hd := h'.desc
  rw [e', List.pairwise_append, List.pairwise_cons, List.pairwise_cons] at hd
  have hcq : lin A B c < lin A B q := by
    have := hd.2.1.1 q (by simp)
    rw [lin_neg, lin_neg] at this; linarith
  have hqd : lin A B q < lin A B d := by
    have := hd.2.1.2.1 d (by simp)
    rw [lin_neg, lin_neg] at this; linarith
  have hL := h'.left
  have f1 : ∀ r ∈ s, 0 ≤ area2 d q r := by
    rw [e', show m1 ++ c :: q :: d :: m2 = (m1 ++ [c]) ++ q :: d :: m2 by simp] at hL
    exact fun r hr => isChain_mid hL r (by simpa using hr)
  have k1 := lin_between A B d q a b q
  rw [area2_self', h0] at k1
  have n1 : 0 ≤ area2 d q a * (lin A B b - lin A B q) := mul_nonneg (f1 a has) (by linarith)
  have n2 : 0 ≤ area2 d q b * (lin A B q - lin A B a) := mul_nonneg (f1 b hbs) (by linarith)
  have z1 : area2 d q a * (lin A B b - lin A B q) = 0 := by linarith
  have z1' : area2 d q a = 0 := (mul_eq_zero.1 z1).resolve_right (by linarith)
  have f2 : ∀ r ∈ s, 0 ≤ area2 q c r := by
    have hL := h'.left
    rw [e'] at hL
    exact fun r hr => isChain_mid hL r (by simpa using hr)
  have k2 := lin_between A B q c a b q
  rw [area2_self, h0] at k2
  have n3 : 0 ≤ area2 q c a * (lin A B b - lin A B q) := mul_nonneg (f2 a has) (by linarith)
  have n4 : 0 ≤ area2 q c b * (lin A B q - lin A B a) := mul_nonneg (f2 b hbs) (by linarith)
  have z2 : area2 q c a * (lin A B b - lin A B q) = 0 := by linarith
  have z2' : area2 q c a = 0 := (mul_eq_zero.1 z2).resolve_right (by linarith)
  have key : area2 d q c * (lin A B q - lin A B a) =
      area2 d q a * (lin A B q - lin A B c) + area2 q c a * (lin A B q - lin A B d) := by
    unfold area2 lin; ring
  rw [z1', z2'] at key
  have := mul_pos ht (sub_pos.2 g1)
  linarith

theorem ScanInv.disjoint {s acc acc' : List (Point K)} (h : ScanInv t A B s acc)
    (h' : ScanInv t (-A) (-B) s.reverse acc')
    (hs : s.Pairwise fun u v => lin A B u < lin A B v)
    (hturn : ∀ a b p, t a b p = false → 0 < area2 a b p) {l1 l2 l1' l2' : List (Point K)}
    {b q a c d : Point K} (e : acc = l1 ++ b :: q :: a :: l2)
    (e' : acc' = l1' ++ c :: q :: d :: l2') : False := by
  have hds : d ∈ s := by simpa using h'.sub d (by rw [e']; simp)
  have has : a ∈ s := h.sub a (by rw [e]; simp)
  have hL := h'.left
  have f1 : 0 ≤ area2 d q a := by
    rw [e', show l1' ++ c :: q :: d :: l2' = (l1' ++ [c]) ++ q :: d :: l2' by simp] at hL
    exact isChain_mid hL a (by simpa using has)
  have e2 : acc = (l1 ++ [b]) ++ q :: a :: l2 := by rw [e]; simp
  have f2 : 0 ≤ area2 a q d := by
    have := h.left
    rw [e2] at this
    exact isChain_mid this d hds
  have h0 : area2 a q d = 0 := by
    have : area2 d q a = - area2 a q d := by unfold area2; ring
    linarith
  have hd := h'.desc
  rw [e', List.pairwise_append, List.pairwise_cons, List.pairwise_cons] at hd
  have hqd : lin A B q < lin A B d := by
    have := hd.2.1.2.1 d (by simp)
    rw [lin_neg, lin_neg] at this; linarith
  exact absurd (h.on_edge hs hturn e2 hds h0).2 (not_le.2 hqd)

/-- A scan that pops points on the line yields a strictly convex hull. -/
theorem hullG_strict (ht : PopTest t) (hturn : ∀ a b p, t a b p = false → 0 < area2 a b p)
    (s : List (Point K)) (h2 : 2 ≤ s.length)
    (hs : s.Pairwise fun u v => lin A B u < lin A B v) : StrictlyConvex (hullG t s) := by
  have hne : s ≠ [] := by rintro rfl; simp at h2
  have i1 := scanG_inv ht s hne hs
  have hs' : s.reverse.Pairwise fun u v => lin (-A) (-B) u < lin (-A) (-B) v := by
    rw [List.pairwise_reverse]
    exact hs.imp fun h => by rw [lin_neg, lin_neg]; linarith
  have i2 := scanG_inv (A := -A) (B := -B) ht s.reverse (by simpa using hne) hs'
  have i1' : ScanInv t (- -A) (- -B) s.reverse.reverse (scanG t s) := by simpa using i1
  obtain ⟨x, y, l, u, e1, e2, ex, ey, e⟩ := hull_split ht s h2 hs
  have hmem : ∀ q ∈ hullG t s, q ∈ scanG t s ∨ q ∈ scanG t s.reverse := by
    intro q hq
    rw [e] at hq; rw [e1, e2]
    simp at hq ⊢
    tauto
  refine strictlyConvex_of_edges ?_ ?_
  · rw [e]
    have d1 := i1.desc
    have d2 := i2.desc
    rw [e1] at d1
    rw [e2] at d2
    have n1 : (y :: l.reverse ++ [x]).Nodup := d1.imp fun h he => by
      rw [he] at h; exact lt_irrefl _ h
    have n2 : (x :: u.reverse ++ [y]).Nodup := d2.imp fun h he => by
      rw [he] at h; exact lt_irrefl _ h
    rw [List.nodup_append]
    refine ⟨?_, ?_, ?_⟩
    · have := (List.nodup_reverse.2 n1)
      simp [List.nodup_append] at this ⊢
      tauto
    · have := (List.nodup_reverse.2 n2)
      simp [List.nodup_append] at this ⊢
      tauto
    · rintro p hp q hq rfl
      rcases List.mem_cons.1 hp with rfl | hp
      · simp at n1 n2 hq; tauto
      · rcases List.mem_cons.1 hq with rfl | hq
        · simp at n1 n2; tauto
        · have m1 : p ∈ scanG t s := by rw [e1]; simp [hp]
          have m2 : p ∈ scanG t s.reverse := by rw [e2]; simp [hq]
          obtain ⟨a1, a2, a3, a4, f1⟩ := inner_split m1 (by
            rw [e1]; simp; rintro rfl; simp at n1; tauto) (by
            rw [e1]; simp [getLast?_wrap]; rintro rfl; simp [List.nodup_append] at n1; tauto)
          obtain ⟨b1, b2, b3, b4, f2⟩ := inner_split m2 (by
            rw [e2]; simp; rintro rfl; simp at n2; tauto) (by
            rw [e2]; simp [getLast?_wrap]; rintro rfl; simp [List.nodup_append] at n2; tauto)
          exact i1.disjoint i2 hs hturn f1 f2
  · intro i hi
    refine hull_edges ht s h2 hs (E := fun a b => ∀ q ∈ hullG t s, q ≠ a → q ≠ b → 0 < area2 a b q)
      ?_ ?_ i hi
    · rw [isChain_iff_mid]
      intro l1 b a l2 ee q hq ha hb
      rcases hmem q hq with hq | hq
      · exact i1.strict_same hs hturn ee hq ha hb
      · exact i1.strict_other i2 hs hturn ee hq ha hb
    · rw [isChain_iff_mid]
      intro l1 b a l2 ee q hq ha hb
      rcases hmem q hq with hq | hq
      · exact i2.strict_other i1' hs' hturn ee hq ha hb
      · exact i2.strict_same hs' hturn ee hq ha hb

end
end HG
