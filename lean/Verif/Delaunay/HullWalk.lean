import Verif.Delaunay.Ring

/-!
# The walk around the triangulation visits the convex hull
-/

set_option linter.unusedSectionVars false

namespace HG

variable {K : Type} [CommRing K] [LinearOrder K] [IsStrictOrderedRing K]
variable {P : List (Point K)} {m : Mesh K} {D : Ref → Prop} {t : Tri}

/-- All points lie on one line. -/
def AllCol (P : List (Point K)) : Prop := ∀ x ∈ P, ∀ y ∈ P, ∀ z ∈ P, cross x y z = 0

/-- Darts with all points on their left. -/
def HullDart (P : List (Point K)) (m : Mesh K) (D : Ref → Prop) (e : Ref) : Prop :=
  D e ∧ ∀ p ∈ P, 0 ≤ cross (m.org e) (m.org e.opp) p

theorem HullDart.rfe (h : Tgl m D P t) {e : Ref} (he : HullDart P m D e) : HullDart P m D (m.rfe e) := by
  refine ⟨h.next (h.opp he.1), ?_⟩
  intro p hp
  have := h.hull he.1 he.2 p hp
  show 0 ≤ cross (m.org (m.next e.opp)) _ p
  rw [h.org (h.opp he.1)]
  exact this

theorem both_col (h : Tgl m D P t) {e : Ref} (he : D e)
    (h1 : ∀ p ∈ P, 0 ≤ cross (m.org e) (m.org e.opp) p)
    (h2 : ∀ p ∈ P, cross (m.org e) (m.org e.opp) p ≤ 0) : AllCol P := by
  intro x hx y hy z hz
  have e0 : ∀ p ∈ P, cross (m.org e) (m.org e.opp) p = 0 := fun p hp => le_antisymm (h2 p hp) (h1 p hp)
  exact rcol3 (Ne.symm (h.ne he)) (e0 x hx) (e0 y hy) (e0 z hz)

theorem Tgl.ray (h : Tgl m D P t) {e f : Ref} (he : D e) (hf : D f) (ho : m.org e = m.org f)
    (h0 : cross (m.org e) (m.org e.opp) (m.org f.opp) = 0)
    (h1 : 0 < rdot (m.org e) (m.org e.opp) (m.org f.opp)) : e = f := by
  refine h.simple he hf ho (rray_eq h0 h1 (h.nomid he (h.mem (h.opp hf))) ?_).symm
  rw [ho]
  exact h.nomid hf (h.mem (h.opp he))

theorem HullDart.inj (h : Tgl m D P t) (nc : ¬ AllCol P) {e f : Ref} (he : HullDart P m D e)
    (hf : HullDart P m D f) (ho : m.org e = m.org f) : e = f := by
  have m1 := h.mem (h.opp he.1)
  have m2 := h.mem (h.opp hf.1)
  have c1 := he.2 _ m2
  have c2 := hf.2 _ m1
  rw [← ho, cross_swap23] at c2
  have c0 : cross (m.org e) (m.org e.opp) (m.org f.opp) = 0 := by linarith
  have n1 := Ne.symm (h.ne he.1)
  have n2 := Ne.symm (h.ne hf.1)
  rw [← ho] at n2
  rcases lt_or_gt_of_ne (rdot_ne_zero n1 n2 c0) with hd | hd
  · exfalso
    refine nc (both_col h he.1 he.2 fun p hp => ?_)
    have q1 := he.2 p hp
    have q2 := hf.2 p hp
    rw [← ho] at q2
    have e1 := rcross_dot (m.org e) (m.org e.opp) (m.org f.opp) p
    rw [c0, mul_zero, sub_zero] at e1
    by_contra hc
    have t1 := mul_neg_of_neg_of_pos hd (not_le.1 hc)
    have t2 := mul_nonneg q2 (rdot_self_pos n1).le
    linarith
  · exact h.ray he.1 hf.1 ho c0 hd

theorem leB_anti (p q : Point K) (h : Point.leB p q = true) (g : Point.leB q p = true) :
    p = q := by
  rw [leB_iff] at h g
  rcases h with h | ⟨h, h'⟩ <;> rcases g with g | ⟨g, g'⟩
  · exact absurd h (lt_asymm g)
  · exact absurd h (by rw [g]; exact lt_irrefl _)
  · exact absurd g (by rw [h]; exact lt_irrefl _)
  · rcases p with ⟨px, py⟩; rcases q with ⟨qx, qy⟩
    simp only at h h' g'
    rw [h, le_antisymm h' g']

theorem exists_lexmin (l : List Ref) (m : Mesh K) (hl : l ≠ []) :
    ∃ e ∈ l, ∀ f ∈ l, Point.leB (m.org e) (m.org f) = true := by
  induction l with
  | nil => exact absurd rfl hl
  | cons a l ih =>
    have rfl' : ∀ p : Point K, Point.leB p p = true := fun p => (leB_iff p p).2 (.inr ⟨rfl, le_refl _⟩)
    by_cases h0 : l = []
    · subst h0
      exact ⟨a, by simp, by simp [rfl']⟩
    · obtain ⟨e, he, hm⟩ := ih h0
      rcases leB_total (m.org a) (m.org e) with h | h
      · refine ⟨a, by simp, ?_⟩
        intro f hf
        rcases List.mem_cons.1 hf with rfl | hf
        · exact rfl' _
        · exact leB_trans _ _ _ h (hm f hf)
      · refine ⟨e, by simp [he], ?_⟩
        intro f hf
        rcases List.mem_cons.1 hf with rfl | hf
        · exact h
        · exact hm f hf

/-- The walk from any hull dart reaches the first point. -/
theorem hull_reach (h : Tgl m D P t) (nc : ¬ AllCol P) {e : Ref} (he : HullDart P m D e) :
    ∃ k, m.rfe^[k] t.leftSide = e := by
  have wf := h.wf
  have hH : ∀ i, HullDart P m D (m.rfe^[i] e) := by
    intro i
    induction i with
    | zero => exact he
    | succ i ih => rw [Function.iterate_succ_apply']; exact ih.rfe h
  obtain ⟨n, hn, -, hfix⟩ := orbit_finite m m.rfe (fun e he => wf.rfe_closed he)
    (fun a b ha hb hab => wf.rfe_inj ha hb hab) e (h.edge he.1).alloc
  obtain ⟨f, hf, hmin⟩ := exists_lexmin ((List.range n).map fun i => m.rfe^[i] e) m (by
    simp; omega)
  obtain ⟨i, hi, rfl⟩ := List.mem_map.1 hf
  rw [List.mem_range] at hi
  have hmin' : ∀ j, Point.leB (m.org (m.rfe^[i] e)) (m.org (m.rfe^[j] e)) = true := by
    intro j
    have : m.rfe^[j] e = m.rfe^[j % n] e := by
      conv_lhs => rw [← Nat.mod_add_div j n]
      rw [Function.iterate_add_apply]
      congr 1
      generalize j / n = k
      induction k with
      | zero => rfl
      | succ k ih => rw [Nat.mul_succ, Function.iterate_add_apply, hfix, ih]
    rw [this]
    exact hmin _ (List.mem_map.2 ⟨j % n, List.mem_range.2 (Nat.mod_lt _ hn), rfl⟩)
  -- the previous dart
  obtain ⟨j, hj⟩ : ∃ j, m.rfe (m.rfe^[j] e) = m.rfe^[i] e := by
    rcases i with _ | i
    · refine ⟨n - 1, ?_⟩
      rw [← Function.iterate_succ_apply' m.rfe]
      rw [show (n - 1).succ = n by omega, hfix]; rfl
    · exact ⟨i, (Function.iterate_succ_apply' m.rfe i e).symm⟩
  have Hd := hH j
  have Hf := hH i
  set d := m.rfe^[j] e with hd
  set f := m.rfe^[i] e with hf'
  have dstop : m.org d.opp = m.org f := by
    have := h.org (h.opp Hd.1)
    rw [← this]; exact congrArg m.org hj
  have nd := h.ne Hd.1
  have nf := h.ne Hf.1
  have lz : Point.leB (m.org f) (m.org d) = true := hmin' j
  have lb : Point.leB (m.org f) (m.org f.opp) = true := by
    have := hmin' (i + 1)
    rw [Function.iterate_succ_apply'] at this
    have e1 : m.org (m.rfe f) = m.org f.opp := h.org (h.opp Hf.1)
    rw [← e1]; exact this
  have least : ∀ p ∈ P, Point.leB (m.org f) p = true := by
    intro p hp
    rcases leB_total (m.org f) p with h1 | h1
    · exact h1
    by_cases hpf : p = m.org f
    · rw [hpf] at h1 ⊢; exact h1
    exfalso
    have pu := lexPos_of lz (by rw [← dstop]; exact nd)
    have pv := lexPos_of lb (Ne.symm nf)
    have pq := lexPos_of h1 (Ne.symm hpf)
    have x1 := Hd.2 p hp
    have x2 := Hf.2 p hp
    have x3 := Hd.2 _ (h.mem (h.opp Hf.1))
    rw [dstop] at x1 x3
    have z := lex_cone pu pv pq (by unfold cross at x1; dsimp only; linarith)
      (by unfold cross at x2; dsimp only; linarith) (by unfold cross at x3; dsimp only; linarith)
    have z' := lex_dot pu pv z
    have hfd : f = d.opp := by
      refine h.ray Hf.1 (h.opp Hd.1) dstop.symm ?_ ?_
      · rw [Ref.opp_opp]; unfold cross; dsimp only at z; linarith
      · rw [Ref.opp_opp]; unfold rdot; dsimp only at z'; linarith
    refine nc (both_col h Hd.1 Hd.2 fun p hp => ?_)
    have := Hf.2 p hp
    rw [hfd, Ref.opp_opp, cross_swap12] at this
    linarith
  have hl : f = t.leftSide := by
    refine HullDart.inj h nc Hf ⟨h.dl, h.lhull⟩ ?_
    exact leB_anti _ _ (least _ (h.mem h.dl)) (h.lmin _ (h.mem Hf.1))
  refine ⟨n - i, ?_⟩
  rw [← hl, hf', ← Function.iterate_add_apply, show n - i + i = n by omega, hfix]

end HG
