import Verif.Props.Multisegments
import Verif.Props.GeneralPosition
import Verif.Props.Sizes
import Verif.Props.Attainable

/-!
# C60: convex contours with more than three vertices have an edge parallel to an axis

The points from which a convex contour is made are in general position on a grid of indices: the
`i`-th point has the index `s i² mod p` in one of the axes, so that every coordinate of that axis but
the smallest one occurs twice.  In particular the largest one does, and one of the vectors the
contour is made of has a zero.
-/

set_option linter.unusedSectionVars false

namespace HG

open Strategy Spec

section
variable {K : Type} [CommRing K] [LinearOrder K]

/-- The four open quadrants and the four half axes between them, in the order of angles from `-π`
(excluded) to `π` (included). -/
def Spec.sector (x y : K) : Nat :=
  if y < 0 then (if x < 0 then 0 else if x = 0 then 1 else 2)
  else if y = 0 then (if x < 0 then 7 else 3)
  else (if 0 < x then 4 else if x = 0 then 5 else 6)

/-- The angle function respects quadrants and axes. -/
def Spec.SectorOk (atan2 : K → K → ℚ) : Prop :=
  ∀ x y x' y' : K, (x ≠ 0 ∨ y ≠ 0) → (x' ≠ 0 ∨ y' ≠ 0) → sector x y < sector x' y' →
    atan2 y x < atan2 y' x'

/-- An edge of a contour is parallel to an axis. -/
def Spec.HasAxisEdge (l : List (Point K)) : Prop :=
  ∃ i < l.length, (cyc l i).x = (cyc l (i + 1)).x ∨ (cyc l i).y = (cyc l (i + 1)).y

end

section
variable {K : Type} [CommRing K] [LinearOrder K] [IsStrictOrderedRing K]

/-! ### Hulls -/

/-- The two edges at a vertex of a hull and a point of the hull in the direction of a linear
functional: if both edges go strictly up, then the point is strictly higher. -/
theorem corner_support {e1x e1y e2x e2y wx wy A B : K} (hc : 0 < e1x * e2y - e1y * e2x)
    (h1 : 0 ≤ e1x * wy - e1y * wx) (h2 : 0 ≤ e2x * wy - e2y * wx)
    (g1 : A * e1x + B * e1y < 0) (g2 : 0 < A * e2x + B * e2y) (hw : A * wx + B * wy ≤ 0) :
    wx = 0 ∧ wy = 0 := by
  have key : (e1x * e2y - e1y * e2x) * (A * wx + B * wy) =
      -(e2x * wy - e2y * wx) * (A * e1x + B * e1y) +
        (e1x * wy - e1y * wx) * (A * e2x + B * e2y) := by ring
  have n1 : 0 ≤ -(e2x * wy - e2y * wx) * (A * e1x + B * e1y) := by
    nlinarith [mul_nonneg h2 (neg_nonneg.2 g1.le)]
  have n2 : 0 ≤ (e1x * wy - e1y * wx) * (A * e2x + B * e2y) := mul_nonneg h1 g2.le
  have n3 : (e1x * e2y - e1y * e2x) * (A * wx + B * wy) ≤ 0 := by
    nlinarith [mul_nonneg hc.le (neg_nonneg.2 hw)]
  have z1 : (e1x * wy - e1y * wx) * (A * e2x + B * e2y) = 0 := by linarith
  have z2 : (e2x * wy - e2y * wx) * (A * e1x + B * e1y) = 0 := by linarith
  have c1 : e1x * wy - e1y * wx = 0 := (mul_eq_zero.1 z1).resolve_right g2.ne'
  have c2 : e2x * wy - e2y * wx = 0 := (mul_eq_zero.1 z2).resolve_right g1.ne
  have k1 : (e1x * e2y - e1y * e2x) * wx = 0 := by linear_combination e2x * c1 - e1x * c2
  have k2 : (e1x * e2y - e1y * e2x) * wy = 0 := by linear_combination e2y * c1 - e1y * c2
  exact ⟨(mul_eq_zero.1 k1).resolve_left hc.ne', (mul_eq_zero.1 k2).resolve_left hc.ne'⟩

/-- A linear functional that is least at two different given points is constant along an edge of
the hull. -/
theorem hull_edge {h pts : List (Point K)} (ho : HullOk h pts) (h3 : 3 ≤ h.length) (A B : K)
    {p q : Point K} (hp : p ∈ pts) (hq : q ∈ pts) (hne : p ≠ q) (he : lin A B p = lin A B q)
    (hmin : ∀ r ∈ pts, lin A B p ≤ lin A B r) :
    ∃ i < h.length, lin A B (cyc h i) = lin A B (cyc h (i + 1)) := by
  by_contra hno
  push Not at hno
  obtain ⟨i, hi, hmi⟩ : ∃ i < h.length, ∀ j, lin A B (cyc h i) ≤ lin A B (cyc h j) := by
    obtain ⟨i, hi, hm⟩ := Finset.exists_min_image (Finset.range h.length)
      (fun j => lin A B (cyc h j)) ⟨0, Finset.mem_range.2 (by omega)⟩
    refine ⟨i, Finset.mem_range.1 hi, fun j => ?_⟩
    have := hm (j % h.length) (Finset.mem_range.2 (Nat.mod_lt _ (by omega)))
    rwa [cyc_mod] at this
  obtain ⟨k, hk, hki⟩ : ∃ k < h.length, (k + 1) % h.length = i := by
    by_cases h0 : i = 0
    · exact ⟨h.length - 1, by omega, by rw [h0, Nat.sub_add_cancel (by omega), Nat.mod_self]⟩
    · exact ⟨i - 1, by omega, by rw [Nat.sub_add_cancel (by omega), Nat.mod_eq_of_lt hi]⟩
  have ek : cyc h (k + 1) = cyc h i := by rw [← hki, cyc_mod]
  have hlt : lin A B (cyc h i) < lin A B (cyc h (i + 1)) := lt_of_le_of_ne (hmi _) (hno i hi)
  have hlt' : lin A B (cyc h i) < lin A B (cyc h k) :=
    lt_of_le_of_ne (hmi _) fun e => hno k hk (by rw [ek]; exact e.symm)
  have hkne : k ≠ i ∧ k ≠ (i + 1) % h.length := by
    rcases Nat.lt_or_ge (k + 1) h.length with h1 | h1
    · rw [Nat.mod_eq_of_lt h1] at hki
      subst hki
      refine ⟨by omega, ?_⟩
      rcases Nat.lt_or_ge (k + 1 + 1) h.length with h2 | h2
      · rw [Nat.mod_eq_of_lt h2]; omega
      · rw [show k + 1 + 1 = h.length by omega, Nat.mod_self]; omega
    · rw [show k + 1 = h.length by omega, Nat.mod_self] at hki
      subst hki
      rw [Nat.mod_eq_of_lt (by omega)]
      omega
  have hturn := strictlyConvex_left ho.convex hi hk hkne.1 hkne.2
  have hci : cyc h i ∈ pts := ho.sub _ (cyc_mem (by omega) i)
  have eq_of : ∀ r ∈ pts, lin A B r = lin A B p → r = cyc h i := by
    intro r hr e
    have l1 := ho.left k hk r hr
    have l2 := ho.left i hi r hr
    rw [ek] at l1
    have hle := hmin _ hci
    unfold lin at *
    unfold area2 at *
    have := corner_support (e1x := (cyc h i).x - (cyc h k).x) (e1y := (cyc h i).y - (cyc h k).y)
      (e2x := (cyc h (i + 1)).x - (cyc h i).x) (e2y := (cyc h (i + 1)).y - (cyc h i).y)
      (wx := r.x - (cyc h i).x) (wy := r.y - (cyc h i).y) (A := A) (B := B)
      (by linarith) (by linarith) (by linarith) (by linarith) (by linarith) (by linarith)
    have e1 : r.x = (cyc h i).x := by linarith [this.1]
    have e2 : r.y = (cyc h i).y := by linarith [this.2]
    cases r
    cases hc : cyc h i
    rw [hc] at e1 e2
    simp_all
  exact hne ((eq_of p hp rfl).trans (eq_of q hq he.symm).symm)

/-! ### Closed walks along vectors sorted by angle -/

theorem prefix_nonneg {u w : List K} (h : (u ++ w).Pairwise fun a b => 0 < b → 0 ≤ a)
    (hs : (u ++ w).sum = 0) : 0 ≤ u.sum := by
  by_cases hn : ∀ a ∈ u, 0 ≤ a
  · exact List.sum_nonneg hn
  · push Not at hn
    obtain ⟨a, ha, hlt⟩ := hn
    rw [List.pairwise_append] at h
    have : w.sum ≤ 0 := by
      have := List.sum_nonneg (l := w.map Neg.neg) (by
        intro b hb
        obtain ⟨c, hc, rfl⟩ := List.mem_map.1 hb
        rw [neg_nonneg]
        by_contra hpos
        exact absurd (h.2.2 a ha c hc (not_le.1 hpos)) (not_le.2 hlt))
      have e : ∀ l : List K, (l.map Neg.neg).sum = -l.sum := by
        intro l
        induction l with
        | nil => simp
        | cons a l ih => simp only [List.map_cons, List.sum_cons, ih]; ring
      rw [e] at this
      linarith
    rw [List.sum_append] at hs
    linarith

theorem rotated_nonneg {l1 l2 k1 k2 : List K} (e : l1 ++ l2 = k1 ++ k2)
    (h : (l2 ++ l1).Pairwise fun a b => 0 < b → 0 ≤ a) (hs : (l1 ++ l2).sum = 0) :
    l1.sum ≤ k1.sum := by
  rcases List.append_eq_append_iff.1 e with ⟨t, rfl, rfl⟩ | ⟨t, rfl, rfl⟩
  · rw [List.append_assoc] at h
    have := prefix_nonneg h (by
      simp only [List.sum_append] at hs ⊢
      linarith)
    rw [List.sum_append]
    linarith
  · rw [← List.append_assoc] at h
    have := prefix_nonneg h (by
      simp only [List.sum_append] at hs ⊢
      linarith)
    simp only [List.sum_append] at hs this ⊢
    linarith

theorem sector_le_three {x y : K} (h : sector x y ≤ 3) : y ≤ 0 := by
  unfold sector at h
  split_ifs at h <;> first | omega | (exact le_of_lt ‹_›) | (exact le_of_eq ‹_›)

theorem three_le_sector {x y : K} (h : 3 ≤ sector x y) : 0 ≤ y := by
  unfold sector at h
  split_ifs at h <;> first | omega | exact not_lt.1 ‹_›

theorem sector_neg {x y : K} (h : y < 0) : sector x y ≤ 2 := by
  unfold sector
  rw [if_pos h]
  split_ifs <;> omega

theorem sector_seven {x y : K} (h : 7 ≤ sector x y) : y = 0 := by
  unfold sector at h
  split_ifs at h <;> first | omega | rfl | assumption

theorem sector_le_one {x y : K} (h : sector x y ≤ 1) : x ≤ 0 := by
  unfold sector at h
  split_ifs at h <;> first | omega | (exact le_of_lt ‹_›) | (exact le_of_eq ‹_›)

theorem sector_mid {x y : K} (h1 : 1 ≤ sector x y) (h5 : sector x y ≤ 5) : 0 ≤ x := by
  unfold sector at h1 h5
  split_ifs at h1 h5 <;> first
    | omega | (exact not_lt.1 ‹_›) | (exact le_of_lt ‹_›) | (exact ge_of_eq ‹_›)

theorem five_le_sector {x y : K} (h : 5 ≤ sector x y) : x ≤ 0 := by
  unfold sector at h
  split_ifs at h <;> first
    | omega | (exact not_lt.1 ‹_›) | (exact le_of_lt ‹_›) | (exact le_of_eq ‹_›)

theorem sector_pos {x y : K} (h : 0 < x) : 2 ≤ sector x y ∧ sector x y ≤ 4 := by
  unfold sector
  split_ifs <;> first | omega | (exfalso; exact absurd h (not_lt.2 (le_of_lt ‹_›))) |
    (exfalso; exact h.ne' ‹_›)

/-- The point of a closed walk where a vector parallel to an axis starts is extreme. -/
theorem axis_support {l1 l2 : List (K × K)} {v : K × K}
    (hq : (l1 ++ v :: l2).Pairwise fun v w => sector v.1 v.2 ≤ sector w.1 w.2)
    (hx : ((l1 ++ v :: l2).map Prod.fst).sum = 0) (hy : ((l1 ++ v :: l2).map Prod.snd).sum = 0)
    (hne : v.1 ≠ 0 ∨ v.2 ≠ 0) (hv : v.1 = 0 ∨ v.2 = 0) :
    ∃ A B : K, (A = 0 ∧ B ≠ 0 ∨ A ≠ 0 ∧ B = 0) ∧ A * v.1 + B * v.2 = 0 ∧
      ∀ k1 k2, l1 ++ v :: l2 = k1 ++ k2 →
        A * (l1.map Prod.fst).sum + B * (l1.map Prod.snd).sum ≤
          A * (k1.map Prod.fst).sum + B * (k1.map Prod.snd).sum := by
  have lift : ∀ (A B : K), ((v :: l2) ++ l1).Pairwise
      (fun a b => 0 < A * b.1 + B * b.2 → 0 ≤ A * a.1 + B * a.2) →
      ∀ k1 k2, l1 ++ v :: l2 = k1 ++ k2 →
        A * (l1.map Prod.fst).sum + B * (l1.map Prod.snd).sum ≤
          A * (k1.map Prod.fst).sum + B * (k1.map Prod.snd).sum := by
    intro A B hp k1 k2 e
    have hsum : ∀ l : List (K × K), (l.map fun a => A * a.1 + B * a.2).sum =
        A * (l.map Prod.fst).sum + B * (l.map Prod.snd).sum := by
      intro l
      induction l with
      | nil => simp
      | cons a l ih => simp only [List.map_cons, List.sum_cons, ih]; ring
    rw [← hsum, ← hsum]
    refine rotated_nonneg (l2 := (v :: l2).map fun a => A * a.1 + B * a.2)
      (k2 := k2.map fun a => A * a.1 + B * a.2) ?_ ?_ ?_
    · rw [← List.map_append, e, List.map_append]
    · rw [← List.map_append, List.pairwise_map]
      exact hp
    · rw [← List.map_append, hsum, hx, hy]; ring
  have hq2 := hq
  rw [List.pairwise_append] at hq2
  obtain ⟨qa, qb, qab⟩ := hq2
  have after : ∀ w ∈ v :: l2, sector v.1 v.2 ≤ sector w.1 w.2 := by
    intro w hw
    rcases List.mem_cons.1 hw with rfl | hw
    · exact le_rfl
    · exact List.rel_of_pairwise_cons qb hw
  have before : ∀ w ∈ l1, sector w.1 w.2 ≤ sector v.1 v.2 := fun w hw =>
    qab w hw v (by simp)
  have mem_imp : ∀ {l : List (K × K)} {R S : K × K → K × K → Prop}, l.Pairwise R →
      (∀ a ∈ l, ∀ b ∈ l, R a b → S a b) → l.Pairwise S := by
    intro l R S h1 h2
    exact List.Pairwise.imp_of_mem (fun ha hb hab => h2 _ ha _ hb hab) h1
  by_cases h0 : v.2 = 0
  · have hv1 : v.1 ≠ 0 := hne.resolve_right (not_not.2 h0)
    rcases lt_or_gt_of_ne hv1 with hneg | hpos
    · -- left
      have hs : sector v.1 v.2 = 7 := by
        unfold sector; rw [h0]; simp [hneg]
      refine ⟨0, -1, .inl ⟨rfl, by simp⟩, by rw [h0]; ring, lift _ _ ?_⟩
      rw [List.pairwise_append]
      have fb : ∀ b ∈ v :: l2, b.2 = 0 := fun b hb => sector_seven (hs ▸ after b hb)
      refine ⟨mem_imp qb fun a ha b hb _ _ => by rw [fb a ha]; simp, mem_imp qa fun a ha b hb r h => ?_,
        fun b hb a _ _ => by rw [fb b hb]; simp⟩
      have hb2 : b.2 < 0 := by linarith
      have := sector_le_three (x := a.1) (y := a.2) (by have := sector_neg (x := b.1) hb2; omega)
      linarith
    · -- right
      have hs : sector v.1 v.2 = 3 := by
        unfold sector; rw [h0]; simp [hpos.le, not_lt.2 hpos.le]
      refine ⟨0, 1, .inl ⟨rfl, by simp⟩, by rw [h0]; ring, lift _ _ ?_⟩
      rw [List.pairwise_append]
      have fb : ∀ b ∈ v :: l2, 0 ≤ b.2 := fun b hb => three_le_sector (hs ▸ after b hb)
      have fa : ∀ b ∈ l1, b.2 ≤ 0 := fun b hb => sector_le_three (hs ▸ before b hb)
      refine ⟨mem_imp qb fun a ha b hb _ _ => by linarith [fb a ha],
        mem_imp qa fun a ha b hb r h => by linarith [fa b hb], fun b hb a _ _ => by linarith [fb b hb]⟩
  · have hv1 : v.1 = 0 := hv.resolve_right h0
    rcases lt_or_gt_of_ne h0 with hneg | hpos
    · -- down
      have hs : sector v.1 v.2 = 1 := by
        unfold sector; rw [hv1]; simp [hneg]
      refine ⟨1, 0, .inr ⟨by simp, rfl⟩, by rw [hv1]; ring, lift _ _ ?_⟩
      rw [List.pairwise_append]
      have fa : ∀ b ∈ l1, b.1 ≤ 0 := fun b hb => sector_le_one (hs ▸ before b hb)
      refine ⟨mem_imp qb fun a ha b hb r h => ?_, mem_imp qa fun a ha b hb r h => by
        linarith [fa b hb], fun b hb a ha h => by linarith [fa a ha]⟩
      have := sector_pos (x := b.1) (y := b.2) (by linarith)
      have := sector_mid (x := a.1) (y := a.2) (by have := after a ha; omega) (by omega)
      linarith
    · -- up
      have hs : sector v.1 v.2 = 5 := by
        unfold sector; rw [hv1]; simp [hpos.ne', not_lt.2 hpos.le]
      refine ⟨-1, 0, .inr ⟨by simp, rfl⟩, by rw [hv1]; ring, lift _ _ ?_⟩
      rw [List.pairwise_append]
      have fb : ∀ b ∈ v :: l2, b.1 ≤ 0 := fun b hb => five_le_sector (hs ▸ after b hb)
      refine ⟨mem_imp qb fun a ha b hb r h => by linarith [fb a ha], mem_imp qa fun a ha b hb r h => ?_,
        fun b hb a _ _ => by linarith [fb b hb]⟩
      have hlt : b.1 < 0 := by linarith
      have hb0 : sector b.1 b.2 = 0 := by
        by_contra hb0
        have := sector_mid (x := b.1) (y := b.2) (by omega) (by have := before b hb; omega)
        linarith
      have := sector_le_one (x := a.1) (y := a.2) (by omega)
      linarith

/-! ### Vectors with a zero -/

theorem vectorCoordinates_ne (l : List (K × Bool)) (a b m : K) (ha : ∀ c ∈ l, a < c.1)
    (hb : ∀ c ∈ l, b < c.1) (hm : ∀ c ∈ l, c.1 < m) (ham : a < m) (hbm : b < m)
    (hp : (l.map Prod.fst).Pairwise (· < ·)) : ∀ w ∈ vectorCoordinates l a b m, w ≠ 0 := by
  induction l generalizing a b with
  | nil =>
    intro w hw
    simp only [vectorCoordinates, List.mem_cons, List.not_mem_nil, or_false] at hw
    rcases hw with rfl | rfl
    · exact (sub_pos.2 ham).ne'
    · exact (sub_neg.2 hbm).ne
  | cons c l ih =>
    rw [List.map_cons, List.pairwise_cons] at hp
    have hc : ∀ d ∈ l, c.1 < d.1 := fun d hd => hp.1 _ (List.mem_map_of_mem hd)
    intro w hw
    rcases c with ⟨c, _ | _⟩
    · rw [vectorCoordinates] at hw
      rcases List.mem_cons.1 hw with rfl | hw
      · exact (sub_neg.2 (hb (c, false) (by simp))).ne
      · exact ih a c (fun d hd => ha d (by simp [hd])) hc (fun d hd => hm d (by simp [hd])) ham
          (hm (c, false) (by simp)) hp.2 w hw
    · rw [vectorCoordinates] at hw
      rcases List.mem_cons.1 hw with rfl | hw
      · exact (sub_pos.2 (ha (c, true) (by simp))).ne'
      · exact ih c b hc (fun d hd => hb d (by simp [hd])) (fun d hd => hm d (by simp [hd]))
          (hm (c, true) (by simp)) hbm hp.2 w hw

theorem vectorCoordinates_zero (l : List (K × Bool)) (a b m : K) (hm : ∀ c ∈ l, c.1 ≤ m)
    (hp : (l.map Prod.fst).Pairwise (· ≤ ·)) (h : ∃ c ∈ l, c.1 = m) :
    0 ∈ vectorCoordinates l a b m := by
  induction l generalizing a b with
  | nil => simp at h
  | cons c l ih =>
    rw [List.map_cons, List.pairwise_cons] at hp
    by_cases h' : ∃ d ∈ l, d.1 = m
    · rcases c with ⟨c, _ | _⟩
      · exact List.mem_cons_of_mem _ (ih _ _ (fun d hd => hm d (by simp [hd])) hp.2 h')
      · exact List.mem_cons_of_mem _ (ih _ _ (fun d hd => hm d (by simp [hd])) hp.2 h')
    · obtain ⟨d, hd, e⟩ := h
      rcases List.mem_cons.1 hd with rfl | hd
      · have hl : l = [] := by
          rcases l with _ | ⟨f, l⟩
          · rfl
          · exfalso
            refine h' ⟨f, by simp, le_antisymm (hm f (by simp)) ?_⟩
            rw [← e]
            exact hp.1 _ (by simp)
        subst hl
        rcases d with ⟨c, _ | _⟩ <;> simp only at e <;> subst e <;> simp [vectorCoordinates]
      · exact absurd ⟨d, hd, e⟩ h'


/-- The largest element of a list occurs twice, and is not the only one. -/
def DoubledMax (l : List K) : Prop :=
  ∃ b rest, l.Perm (b :: b :: rest) ∧ (∀ c ∈ rest, c ≤ b) ∧ ∃ c ∈ rest, c < b

theorem axis_zero {pts : List (Point K)} {f : Point K → K} {a b : K} {m : List K}
    (h : splitEnds (pySort (fun a b : K => decide (a ≤ b)) (pts.map f)) = .ok (a, m, b))
    (hd : DoubledMax (pts.map f)) (bits : Nat → Bool) :
    0 ∈ vectorCoordinates (m.zip ((List.range m.length).map bits)) a a b := by
  obtain ⟨d, rest, hp, hle, c, hc, hlt⟩ := hd
  obtain ⟨-, -, hab, hbt, hs, -⟩ := ends_mem h
  have hall : ∀ e ∈ pts.map f, a ≤ e ∧ e ≤ b := by
    intro e he
    obtain ⟨q, hq, rfl⟩ := List.mem_map.1 he
    exact hbt q hq
  have hperm : (a :: m ++ [b]).Perm (d :: d :: rest) := by
    rw [← splitEnds_ok h]
    exact (pySort_perm _ _).trans hp
  have hdb : d = b := by
    refine le_antisymm (hall d (hp.mem_iff.2 (by simp))).2 ?_
    rcases List.mem_cons.1 (hperm.mem_iff.1 (by simp : b ∈ a :: m ++ [b])) with e | hb
    · rw [e]
    · rcases List.mem_cons.1 hb with e | hb
      · rw [e]
      · exact hle _ hb
  subst hdb
  have hperm2 : (a :: m).Perm (d :: rest) :=
    (List.perm_cons d).1 (((List.perm_append_singleton d (a :: m)).symm).trans hperm)
  have had : a < d := lt_of_le_of_lt (hall c (hp.mem_iff.2 (by simp [hc]))).1 hlt
  have hdm : d ∈ m := by
    rcases List.mem_cons.1 (hperm2.mem_iff.2 (by simp : d ∈ d :: rest)) with e | e
    · exact absurd e had.ne'
    · exact e
  have hfst : (m.zip ((List.range m.length).map bits)).map Prod.fst = m :=
    List.map_fst_zip (by simp)
  have hs2 := hs
  rw [List.cons_append, List.pairwise_cons, List.pairwise_append] at hs2
  refine vectorCoordinates_zero _ a a d (fun c hc => ?_) (by rw [hfst]; exact hs2.2.1) ?_
  · refine hs2.2.2.2 c.1 ?_ d (by simp)
    rw [← hfst]
    exact List.mem_map_of_mem hc
  · rw [← hfst] at hdm
    obtain ⟨e, he, e'⟩ := List.mem_map.1 hdm
    exact ⟨e, he, e'⟩

theorem axis_ne {pts : List (Point K)} {f : Point K → K} {a b : K} {m : List K}
    (h : splitEnds (pySort (fun a b : K => decide (a ≤ b)) (pts.map f)) = .ok (a, m, b))
    (hn : (pts.map f).Nodup) (bits : Nat → Bool) :
    ∀ w ∈ vectorCoordinates (m.zip ((List.range m.length).map bits)) a a b, w ≠ 0 := by
  have hs := (ends_mem h).2.2.2.2.1
  have hnd : (a :: m ++ [b]).Nodup := by
    rw [← splitEnds_ok h]
    exact (pySort_perm _ _).nodup_iff.2 hn
  have hlt : (a :: m ++ [b]).Pairwise (· < ·) :=
    (hs.and hnd).imp fun h => lt_of_le_of_ne h.1 h.2
  have hfst : (m.zip ((List.range m.length).map bits)).map Prod.fst = m :=
    List.map_fst_zip (by simp)
  have hmem : ∀ c ∈ m.zip ((List.range m.length).map bits), c.1 ∈ m := by
    intro c hc
    rw [← hfst]; exact List.mem_map_of_mem hc
  rw [List.cons_append, List.pairwise_cons, List.pairwise_append] at hlt
  exact vectorCoordinates_ne _ a a b (fun c hc => hlt.1 _ (by simp [hmem c hc]))
    (fun c hc => hlt.1 _ (by simp [hmem c hc])) (fun c hc => hlt.2.2.2 _ (hmem c hc) b (by simp))
    (hlt.1 b (by simp)) (hlt.1 b (by simp)) (by rw [hfst]; exact hlt.2.1)

/-! ### The doubled axis -/

theorem getD_strictMono {l : List K} (h : l.Pairwise (· < ·)) {i j : ℕ} (hj : j < l.length)
    (hij : i < j) : l.getD i 0 < l.getD j 0 := by
  rw [List.getD_eq_getElem _ _ hj, List.getD_eq_getElem _ _ (hij.trans hj)]
  exact List.pairwise_iff_getElem.1 h i j _ hj hij

theorem getD_monotone {l : List K} (h : l.Pairwise (· < ·)) {i j : ℕ} (hj : j < l.length)
    (hij : i ≤ j) : l.getD i 0 ≤ l.getD j 0 := by
  rcases hij.eq_or_lt with rfl | hij
  · exact le_rfl
  · exact (getD_strictMono h hj hij).le

theorem parabola_doubled {p : ℕ} (hp : p.Prime) (h5 : 5 ≤ p) {s : ℤ} (hs : ¬ (p : ℤ) ∣ s)
    {xs : List K} (hx : xs.Pairwise (· < ·)) (hl : p ≤ xs.length) :
    DoubledMax ((intRange p).map fun i => xs.getD (parabola p s i).toNat 0) := by
  have hrange : ∀ i, 0 ≤ parabola p s i ∧ parabola p s i < p :=
    fun i => parabola_range p s i (by omega)
  obtain ⟨i, hi, hmax⟩ := Finset.exists_max_image (intRange p).toFinset (parabola p s)
    ⟨0, by rw [List.mem_toFinset, mem_intRange]; omega⟩
  simp only [List.mem_toFinset] at hi hmax
  have hpar0 : parabola p s 0 = 0 := by simp [parabola]
  have hpar1 : 0 < parabola p s 1 := by
    rcases (hrange 1).1.eq_or_lt with e | e
    · exfalso
      have := parabola_dvd p s 1
      rw [← e] at this
      exact hs (by simpa using this)
    · exact e
  have h1 := hmax 1 (by rw [mem_intRange]; omega)
  have hi0 : i ≠ 0 := by rintro rfl; omega
  rw [mem_intRange] at hi
  have hodd : ¬ 2 ∣ p := by
    intro h2
    have := (Nat.prime_dvd_prime_iff_eq Nat.prime_two hp).1 h2
    omega
  have hpi : parabola p s (p - i) = parabola p s i := by
    unfold parabola
    apply Int.emod_emod_of_dvd _ (dvd_refl _) |>.symm.trans
    rw [Int.emod_emod_of_dvd _ (dvd_refl _)]
    apply Int.ModEq.eq
    refine (Int.modEq_iff_dvd.2 ⟨s * (2 * i - p), ?_⟩)
    ring
  have hne : (p : ℤ) - i ≠ i := by omega
  have pm : (intRange p).Perm (i :: (p - i) :: ((intRange p).erase i).erase (p - i)) := by
    refine (List.perm_cons_erase (mem_intRange.2 hi)).trans (List.Perm.cons _ ?_)
    refine List.perm_cons_erase ?_
    rw [List.mem_erase_of_ne hne, mem_intRange]
    omega
  refine ⟨xs.getD (parabola p s i).toNat 0, (((intRange p).erase i).erase (p - i)).map fun i =>
    xs.getD (parabola p s i).toNat 0, ?_, ?_, xs.getD (parabola p s 0).toNat 0, ?_, ?_⟩
  · have := pm.map fun i => xs.getD (parabola p s i).toNat 0
    simpa only [List.map_cons, hpi] using this
  · intro c hc
    obtain ⟨j, hj, rfl⟩ := List.mem_map.1 hc
    have hj' : j ∈ intRange p := List.mem_of_mem_erase (List.mem_of_mem_erase hj)
    have := hmax j hj'
    have := hrange i
    have := hrange j
    exact getD_monotone hx (by omega) (by omega)
  · refine List.mem_map.2 ⟨0, ?_, rfl⟩
    rw [List.mem_erase_of_ne (by omega), List.mem_erase_of_ne (by omega), mem_intRange]
    omega
  · have := hrange i
    exact getD_strictMono hx (by omega) (by omega)

theorem identity_nodup {p : ℕ} {ys : List K} (hy : ys.Pairwise (· < ·)) (hl : p ≤ ys.length) :
    ((intRange p).map fun i => ys.getD i.toNat 0).Nodup := by
  refine List.Nodup.map_on ?_ (intRange_nodup _)
  intro i hi j hj e
  rw [mem_intRange] at hi hj
  have := getD_injOn hy (by omega) (by omega) e
  omega

theorem gp_axes {x : Strategy K} {y : Option (Strategy K)} {lo : Int} {hi : Option Int}
    (hlo : 3 ≤ lo) {pts : List (Point K)} (h : (toGeneralPositionStrategy x y lo hi).val pts) :
    DoubledMax (pts.map Point.x) ∧ (pts.map Point.y).Nodup ∨
      DoubledMax (pts.map Point.y) ∧ (pts.map Point.x).Nodup := by
  obtain ⟨p, s, swap, xs, ys, hp, h5, -, -, hs, hx, hy, -, -, lx, ly, rfl⟩ :=
    generalPosition_val hlo h
  cases swap
  · right
    constructor
    · have := parabola_doubled hp h5 hs hy ly
      simpa [List.map_map, Function.comp_def, pointAt, indexPair] using this
    · have := identity_nodup hx lx
      simpa [List.map_map, Function.comp_def, pointAt, indexPair] using this
  · left
    constructor
    · have := parabola_doubled hp h5 hs hx lx
      simpa [List.map_map, Function.comp_def, pointAt, indexPair] using this
    · have := identity_nodup hy ly
      simpa [List.map_map, Function.comp_def, pointAt, indexPair] using this

/-- The candidates of a convex contour are a closed walk along vectors none of which is parallel to one
of the axes, and one of which is parallel to the other. -/
theorem candidates_axis {env : Env K} {pts : List (Point K)} {r : ConvexRandom K}
    (hr : ∀ l, (r.shuffle l).Perm l) {c : List (Point K)}
    (h : convexCandidates env pts r = .ok c)
    (ha : DoubledMax (pts.map Point.x) ∧ (pts.map Point.y).Nodup ∨
      DoubledMax (pts.map Point.y) ∧ (pts.map Point.x).Nodup) :
    ∃ (p : Point K) (vs : List (K × K)), c = walk p vs ∧
      vs.Pairwise (fun v w => env.atan2 v.2 v.1 ≤ env.atan2 w.2 w.1) ∧
      (vs.map Prod.fst).sum = 0 ∧ (vs.map Prod.snd).sum = 0 ∧
      ((∀ v ∈ vs, v.1 ≠ 0) ∨ ∀ v ∈ vs, v.2 ≠ 0) ∧ ∃ v ∈ vs, v.1 = 0 ∨ v.2 = 0 := by
  simp only [convexCandidates, exc_bind_ok, exc_pure_ok] at h
  obtain ⟨⟨a, m, b⟩, hx, ⟨a', m', b'⟩, hy, rfl⟩ := h
  obtain ⟨x1, x2, x3⟩ := axis_parts hx r.xBits
  obtain ⟨y1, y2, y3⟩ := axis_parts hy r.yBits
  have zx := fun h => axis_zero hx h r.xBits
  have zy := fun h => axis_zero hy h r.yBits
  have nx := fun h => axis_ne hx h r.xBits
  have ny := fun h => axis_ne hy h r.yBits
  dsimp only at x1 x2 x3 y1 y2 y3 ⊢
  generalize vectorCoordinates (m.zip ((List.range m.length).map r.xBits)) a a b = vx at *
  generalize vectorCoordinates (m'.zip ((List.range m'.length).map r.yBits)) a' a' b' = vy at *
  have hsh := hr vy
  have hperm := pySort_perm (fun v w : K × K => decide (env.atan2 v.2 v.1 ≤ env.atan2 w.2 w.1))
    (vx.zip (r.shuffle vy))
  have hlen : (r.shuffle vy).length = pts.length := by rw [hsh.length_eq, y1]
  have pf : ((pySort (fun v w : K × K => decide (env.atan2 v.2 v.1 ≤ env.atan2 w.2 w.1))
      (vx.zip (r.shuffle vy))).map Prod.fst).Perm vx := by
    refine (hperm.map _).trans ?_
    rw [List.map_fst_zip (by omega)]
  have ps : ((pySort (fun v w : K × K => decide (env.atan2 v.2 v.1 ≤ env.atan2 w.2 w.1))
      (vx.zip (r.shuffle vy))).map Prod.snd).Perm vy := by
    refine (hperm.map _).trans ?_
    rw [List.map_snd_zip (by omega)]
    exact hsh
  have hsort : (pySort (fun v w : K × K => decide (env.atan2 v.2 v.1 ≤ env.atan2 w.2 w.1))
      (vx.zip (r.shuffle vy))).Pairwise
      (fun v w => env.atan2 v.2 v.1 ≤ env.atan2 w.2 w.1) := by
    refine (pySort_sorted _ ?_ ?_ _).imp ?_
    · intro v w; simp only [decide_eq_true_eq]; exact le_total _ _
    · intro v w u; simp only [decide_eq_true_eq]; exact le_trans
    · intro v w h; simpa using h
  generalize pySort (fun v w : K × K => decide (env.atan2 v.2 v.1 ≤ env.atan2 w.2 w.1))
      (vx.zip (r.shuffle vy)) = vs at *
  have h1 : ((vs.map Prod.fst).map fun w => max w 0).sum = b - a := by rw [(pf.map _).sum_eq, x2]
  have h2 : ((vs.map Prod.fst).map fun w => min w 0).sum = -(b - a) := by
    rw [(pf.map _).sum_eq, x3]
  have h3 : ((vs.map Prod.snd).map fun w => max w 0).sum = b' - a' := by
    rw [(ps.map _).sum_eq, y2]
  have h4 : ((vs.map Prod.snd).map fun w => min w 0).sum = -(b' - a') := by
    rw [(ps.map _).sum_eq, y3]
  have mx : ∀ v ∈ vs, v.1 ∈ vx := fun v hv => pf.mem_iff.1 (List.mem_map_of_mem hv)
  have my : ∀ v ∈ vs, v.2 ∈ vy := fun v hv => ps.mem_iff.1 (List.mem_map_of_mem hv)
  refine ⟨⟨0 + (a - chainMin Prod.fst 0 0 vs), 0 + (a' - chainMin Prod.snd 0 0 vs)⟩, vs, ?_, hsort,
    ?_, ?_, ?_, ?_⟩
  · rw [candidates_walk h1 h2 h3 h4]
    exact walk_shift vs _ _ _
  · rw [← sum_parts, h1, h2]; ring
  · rw [← sum_parts, h3, h4]; ring
  · rcases ha with ⟨-, ha⟩ | ⟨-, ha⟩
    · exact .inr fun v hv => ny ha _ (my v hv)
    · exact .inl fun v hv => nx ha _ (mx v hv)
  · rcases ha with ⟨ha, -⟩ | ⟨ha, -⟩
    · obtain ⟨v, hv, e⟩ := List.mem_map.1 (pf.mem_iff.2 (zx ha))
      exact ⟨v, hv, .inl e⟩
    · obtain ⟨v, hv, e⟩ := List.mem_map.1 (ps.mem_iff.2 (zy ha))
      exact ⟨v, hv, .inr e⟩

/-- C60: given that the dependencies compute convex hulls and angles, every contour of
`convex_contours` is a triangle or has an edge parallel to an axis. -/
theorem C60_axis_edge (env : Env K) (hhull : ∀ pts, HullOk (env.convexHull pts) pts)
    (hangle : SectorOk env.atan2) (x : Strategy K) (y : Option (Strategy K)) (lo : Int)
    (hi : Option Int) (s : Made (Contour K)) (hs : convexContours env x y lo hi = .ok s)
    (c : Contour K) (h : s.2.val c) : c.vertices.length = 3 ∨ HasAxisEdge c.vertices := by
  have hsize := (C10_contour_sizes env x y lo hi c).2.1 s hs h
  simp only [convexContours, exc_bind_ok, exc_pure_ok, validate_ok] at hs
  obtain ⟨w, -, rfl⟩ := hs
  obtain ⟨vs, hv, rfl⟩ := h
  rcases convexStrategy_cases hv with h | h | ⟨pts, r, cand, hgp, hr, hc, rfl⟩
  · simp only [toTriangularStrategy, val_map, val_filter] at h
    obtain ⟨t, -, rfl⟩ := h
    left
    rcases t with ⟨a, b, c⟩
    simp only [toCcwTriplet]
    split <;> rfl
  · right
    simp only [toRectangularStrategy, val_map] at h
    obtain ⟨b, hb, rfl⟩ := h
    exact ⟨0, by simp [boxVertices], by simp [boxVertices, cyc]⟩
  · right
    have h3 : 3 ≤ (env.convexHull cand).length := by
      have := hsize.1
      simp only at this
      omega
    obtain ⟨p, vs, rfl, hsorted, sx, sy, hnz', v, hv, hv0⟩ :=
      candidates_axis hr hc (gp_axes (by omega) hgp)
    have hnz : ∀ v ∈ vs, v.1 ≠ 0 ∨ v.2 ≠ 0 := fun v hv =>
      hnz'.elim (fun h => .inl (h v hv)) fun h => .inr (h v hv)
    have hq : vs.Pairwise fun v w => sector v.1 v.2 ≤ sector w.1 w.2 := by
      refine List.Pairwise.imp_of_mem (fun {v w} hv hw h => ?_) hsorted
      by_contra hlt
      exact absurd (hangle _ _ _ _ (hnz w hw) (hnz v hv) (not_le.1 hlt)) (not_lt.2 h)
    obtain ⟨l1, l2, rfl⟩ := List.append_of_mem hv
    obtain ⟨A, B, hAB, hz, hmin⟩ := axis_support hq sx sy (hnz v hv) hv0
    rw [walk_eq] at *
    obtain ⟨i, hi, e⟩ := hull_edge (hhull _) h3 A B
      (p := ⟨p.x + (l1.map Prod.fst).sum, p.y + (l1.map Prod.snd).sum⟩)
      (q := ⟨p.x + ((l1 ++ [v]).map Prod.fst).sum, p.y + ((l1 ++ [v]).map Prod.snd).sum⟩)
      (mem_chainPositions l1 (v :: l2) p (by simp)) (by
        by_cases hl : l2 = []
        · subst hl
          have := mem_chainPositions [] (l1 ++ [v]) p (by simp)
          rw [sx, sy]
          simpa using this
        · have := mem_chainPositions (l1 ++ [v]) l2 p hl
          simpa using this) (by
        intro e
        simp only [List.map_append, List.sum_append, Point.mk.injEq, List.map_cons, List.map_nil,
          List.sum_cons, List.sum_nil] at e
        rcases hnz v hv with h | h
        · exact h (by linarith [e.1])
        · exact h (by linarith [e.2])) (by
        simp only [lin, List.map_append, List.sum_append, List.map_cons, List.map_nil,
          List.sum_cons, List.sum_nil]
        linear_combination -hz) (by
        intro q hq
        obtain ⟨k1, k2, ek, e1, e2⟩ := chainPositions_mem _ _ _ hq
        have := hmin k1 k2 ek
        simp only [lin, e1, e2]
        linarith)
    refine ⟨i, hi, ?_⟩
    rcases hAB with ⟨rfl, hB⟩ | ⟨hA, rfl⟩
    · right
      simp only [lin, zero_mul, zero_add] at e
      exact mul_left_cancel₀ hB e
    · left
      simp only [lin, zero_mul, add_zero] at e
      exact mul_left_cancel₀ hA e

end

/-- The angle function of the sample environment respects quadrants and axes. -/
theorem sample_sectorOk : SectorOk Sample.env.atan2 := by
  have key : ∀ x y : ℤ, (x ≠ 0 ∨ y ≠ 0) → ∃ u : ℚ, Sample.env.atan2 y x =
      (if 0 ≤ y then 1 - u else u - 1) ∧ (0 < x → 0 < u) ∧ (x < 0 → u < 0) ∧ (x = 0 → u = 0) ∧
      (y ≠ 0 → -1 < u ∧ u < 1) ∧ (y = 0 → 0 < x → u = 1) ∧ (y = 0 → x < 0 → u = -1) := by
    intro x y hne
    have hx := abs_nonneg x
    have hy := abs_nonneg y
    have hpos : 0 < |x| + |y| := by
      rcases hne with h | h
      · have := abs_pos.2 h; omega
      · have := abs_pos.2 h; omega
    have hpos' : (0 : ℚ) < (|x| + |y| : ℤ) := by exact_mod_cast hpos
    refine ⟨(x : ℚ) / (|x| + |y| : ℤ), rfl, fun h => ?_, fun h => ?_, fun h => ?_, fun h => ?_,
      fun h0 h => ?_, fun h0 h => ?_⟩
    · exact div_pos (by exact_mod_cast h) hpos'
    · exact div_neg_of_neg_of_pos (by exact_mod_cast h) hpos'
    · rw [h]; simp
    · have := abs_pos.2 h
      have h1 := neg_abs_le x
      have h2 := le_abs_self x
      rw [lt_div_iff₀ hpos', div_lt_one hpos']
      constructor
      · have : -(|x| + |y|) < x := by omega
        have : -((|x| + |y| : ℤ) : ℚ) < x := by exact_mod_cast this
        linarith
      · exact_mod_cast (by omega : x < |x| + |y|)
    · rw [h0, abs_of_pos h, abs_zero, add_zero]
      exact div_self (by exact_mod_cast h.ne')
    · rw [h0, abs_of_neg h, abs_zero, add_zero, Int.cast_neg, div_neg]
      rw [div_self (by exact_mod_cast h.ne)]
  intro x y x' y' h h' hlt
  obtain ⟨u, e, u1, u2, u3, u4, u5, u6⟩ := key x y h
  obtain ⟨u', e', v1, v2, v3, v4, v5, v6⟩ := key x' y' h'
  rw [e, e']
  have bound : ∀ (x y : ℤ) (u : ℚ), (x ≠ 0 ∨ y ≠ 0) → (0 < x → 0 < u) → (x < 0 → u < 0) →
      (x = 0 → u = 0) → (y ≠ 0 → -1 < u ∧ u < 1) → (y = 0 → 0 < x → u = 1) →
      (y = 0 → x < 0 → u = -1) →
      let a := if 0 ≤ y then 1 - u else u - 1
      ∃ k : ℤ, (sector x y : ℤ) = k ∧ (k : ℚ) - 4 < 2 * a ∧ 2 * a < k - 2 ∧
        (k % 2 = 1 → 2 * a = k - 3) := by
    intro x y u hne u1 u2 u3 u4 u5 u6
    dsimp only
    rcases lt_trichotomy y 0 with hy | hy | hy <;> rcases lt_trichotomy x 0 with hx | hx | hx
    · have := u2 hx; have := u4 hy.ne
      refine ⟨0, by simp [sector, hy, hx], ?_⟩
      rw [if_neg (by omega)]
      push_cast
      exact ⟨by linarith, by linarith, fun h => absurd h (by decide)⟩
    · have := u3 hx
      refine ⟨1, by simp [sector, hy, hx], ?_⟩
      rw [if_neg (by omega)]
      push_cast
      exact ⟨by linarith, by linarith, fun _ => by linarith⟩
    · have := u1 hx; have := u4 hy.ne
      refine ⟨2, by simp [sector, hy, hx.ne', not_lt.2 hx.le], ?_⟩
      rw [if_neg (by omega)]
      push_cast
      exact ⟨by linarith, by linarith, fun h => absurd h (by decide)⟩
    · have := u6 hy hx
      refine ⟨7, by simp [sector, hy, hx], ?_⟩
      rw [if_pos (by omega)]
      push_cast
      exact ⟨by linarith, by linarith, fun _ => by linarith⟩
    · omega
    · have := u5 hy hx
      refine ⟨3, by simp [sector, hy, not_lt.2 hx.le], ?_⟩
      rw [if_pos (by omega)]
      push_cast
      exact ⟨by linarith, by linarith, fun _ => by linarith⟩
    · have := u2 hx; have := u4 hy.ne'
      refine ⟨6, by simp [sector, not_lt.2 hy.le, hy.ne', not_lt.2 hx.le, hx.ne], ?_⟩
      rw [if_pos (by omega)]
      push_cast
      exact ⟨by linarith, by linarith, fun h => absurd h (by decide)⟩
    · have := u3 hx
      refine ⟨5, by simp [sector, not_lt.2 hy.le, hy.ne', hx], ?_⟩
      rw [if_pos (by omega)]
      push_cast
      exact ⟨by linarith, by linarith, fun _ => by linarith⟩
    · have := u1 hx; have := u4 hy.ne'
      refine ⟨4, by simp [sector, not_lt.2 hy.le, hy.ne', hx], ?_⟩
      rw [if_pos (by omega)]
      push_cast
      exact ⟨by linarith, by linarith, fun h => absurd h (by decide)⟩
  obtain ⟨k, hk, k1, k2, k3⟩ := bound x y u h u1 u2 u3 u4 u5 u6
  obtain ⟨k', hk', k1', k2', k3'⟩ := bound x' y' u' h' v1 v2 v3 v4 v5 v6
  generalize (if 0 ≤ y then 1 - u else u - 1) = a at *
  generalize (if 0 ≤ y' then 1 - u' else u' - 1) = a' at *
  have hkk : k < k' := by omega
  rcases (Int.add_one_le_iff.2 hkk).eq_or_lt with e1 | e1
  · have e2 : (k : ℚ) + 1 = k' := by exact_mod_cast e1
    rcases Int.emod_two_eq_zero_or_one k with h0 | h0
    · have := k3' (by omega)
      linarith
    · have := k3 h0
      linarith
  · have e2 : (k : ℚ) + 2 ≤ k' := by exact_mod_cast (by omega : k + 2 ≤ k')
    linarith

/-- The hypotheses of C60 are met by a draw of a heptagon. -/
example : (∀ pts, HullOk (Sample.env.convexHull pts) pts) ∧ SectorOk Sample.env.atan2 ∧
    ∃ s c, convexContours Sample.env (sampledFrom (Sample.coords 7)) none 7 none = .ok s ∧
      s.2.val c ∧ c.vertices.length ≠ 3 := by
  obtain ⟨h1, s, h2, h3⟩ := sample_convex
  exact ⟨h1, sample_sectorOk, s, _, h2, h3, by decide⟩

/-- Triangles without an edge parallel to an axis are generated: the exception of C60 is needed. -/
example : ∃ s c, convexContours Sample.env (sampledFrom (Sample.coords 7)) none 3 none = .ok s ∧
    s.2.val c ∧ ¬ HasAxisEdge c.vertices := by
  refine ⟨_, ⟨[⟨0, 0⟩, ⟨2, 1⟩, ⟨1, 2⟩]⟩, rfl, ?_, ?_⟩
  · exact (C53_triangles Sample.env (sampledFrom (Sample.coords 7)) none 3 none (by decide) _ _ _
      (by simp only [Drawn, sampledFrom]; decide) (by simp only [Drawn, sampledFrom]; decide)
      (by simp only [Drawn, sampledFrom]; decide)
      (by unfold LeftTurn area2; decide)).1 _ rfl
  · rintro ⟨i, hi, h⟩
    simp only [List.length_cons, List.length_nil] at hi
    interval_cases i <;> simp [cyc] at h

end HG
