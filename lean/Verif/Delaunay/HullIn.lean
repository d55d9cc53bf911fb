import Verif.Delaunay.Winding

/-!
# Points strictly inside the convex hull of a triangulation
-/

set_option linter.unusedSectionVars false

namespace HG

open Spec

variable {K : Type} [CommRing K] [LinearOrder K] [IsStrictOrderedRing K]
variable {P : List (Point K)} {m : Mesh K} {D : Ref → Prop} {t : Tri} {B : List Ref} {e f : Ref}

theorem Bord.pred (h : Bord P m D B) (he : e ∈ B) : ∃ g ∈ B, m.next g.opp = e := by
  obtain ⟨i, hi, rfl⟩ := List.getElem_of_mem he
  rcases i with _ | i
  · exact ⟨_, List.getElem_mem _, h.getElem_last hi⟩
  · exact ⟨_, List.getElem_mem _, h.getElem_next hi⟩

/-- An element of a nonempty finite list with the greatest value. -/
theorem exists_greatest {α : Type} (l : List α) (v : α → K) (hl : l ≠ []) :
    ∃ a ∈ l, ∀ b ∈ l, v b ≤ v a := by
  induction l with
  | nil => exact absurd rfl hl
  | cons a l ih =>
    by_cases h0 : l = []
    · subst h0; exact ⟨a, by simp, by simp⟩
    · obtain ⟨b, hb, hm⟩ := ih h0
      rcases le_total (v a) (v b) with h | h
      · refine ⟨b, by simp [hb], fun c hc => ?_⟩
        rcases List.mem_cons.1 hc with rfl | hc
        · exact h
        · exact hm c hc
      · refine ⟨a, by simp, fun c hc => ?_⟩
        rcases List.mem_cons.1 hc with rfl | hc
        · exact le_refl _
        · exact (hm c hc).trans h

theorem line_cross {u v p q : Point K} (hp : cross u v p = 0) (hq : cross u v q = 0) (w : Point K) :
    rdot u v v * cross p q w = (rdot u v q - rdot u v p) * cross u v w := by
  have ex : rdot u v v * (q.x - p.x) = (rdot u v q - rdot u v p) * (v.x - u.x) := by
    linear_combination line_x hq - line_x hp
  have ey : rdot u v v * (q.y - p.y) = (rdot u v q - rdot u v p) * (v.y - u.y) := by
    linear_combination line_y hq - line_y hp
  have e1 : cross p q w = (q.x - p.x) * (w.y - p.y) - (q.y - p.y) * (w.x - p.x) := rfl
  have e2 : cross u v w - cross u v p = (v.x - u.x) * (w.y - p.y) - (v.y - u.y) * (w.x - p.x) := by
    unfold cross; ring
  rw [e1]
  linear_combination (w.y - p.y) * ex - (w.x - p.x) * ey - (rdot u v q - rdot u v p) * e2 -
    (rdot u v q - rdot u v p) * hp

/-- A point on the line of a hull edge is a vertex of the hull walk. -/
theorem hull_line (h : Tgl m D P t) (nc : ¬ AllCol P) (hB : Bord P m D B)
    (hiff : ∀ e, e ∈ B ↔ HullDart P m D e) (he : e ∈ B) {p : Point K} (hp : p ∈ P)
    (h0 : cross (m.org e) (m.org e.opp) p = 0) : ∃ f ∈ B, m.org f = p := by
  classical
  have He := (hiff e).1 he
  have huv := h.ne He.1
  set u := m.org e with hu
  set v := m.org e.opp with hv
  have N := rdot_self_pos (Ne.symm huv)
  have zu : rdot u v u = 0 := by unfold rdot; simp
  have cu : cross u v u = 0 := by simp
  have cv : cross u v v = 0 := by simp
  -- no hull edge goes back along the line
  have back : ∀ {q r : Point K}, cross u v q = 0 → cross u v r = 0 → rdot u v r < rdot u v q →
      (∀ w ∈ P, 0 ≤ cross q r w) → False := by
    intro q r hq hr hlt hall
    refine nc (both_col h He.1 He.2 fun w hw => ?_)
    have e1 := line_cross hq hr w
    have := mul_nonneg N.le (hall w hw)
    rw [e1] at this
    by_contra hc
    have := mul_neg_of_neg_of_pos (sub_neg.2 hlt) (not_le.1 hc)
    linarith
  rcases le_or_gt (rdot u v v) (rdot u v p) with h1 | h1
  · -- beyond the end
    obtain ⟨f, hf, hmax⟩ := exists_greatest
      (B.filter fun f => cross u v (m.org f) = 0 ∧ cross u v (m.org f.opp) = 0 ∧
        rdot u v (m.org f.opp) ≤ rdot u v p) (fun f => rdot u v (m.org f.opp))
      (List.ne_nil_of_mem (a := e) (List.mem_filter.2 ⟨he, by
        simp only [decide_eq_true_eq]; exact ⟨cu, cv, h1⟩⟩))
    simp only [List.mem_filter, decide_eq_true_eq] at hf hmax
    obtain ⟨hf, -, f2, f3⟩ := hf
    have Hf := (hiff f).1 hf
    have hg := hB.rfe hf
    have og : m.org (m.next f.opp) = m.org f.opp := h.org (h.opp Hf.1)
    rcases eq_or_lt_of_le f3 with h2 | h2
    · exact ⟨_, hg, og.trans (line_eq huv f2 h0 h2)⟩
    · exfalso
      have Hg := (hiff _).1 hg
      set g := m.next f.opp with hgd
      have q1 := Hg.2 p hp
      rw [og] at q1
      have r0 := He.2 _ (h.mem (h.opp Hg.1))
      have r1 : cross u v (m.org g.opp) = 0 := by
        have e1 := line_cross f2 h0 (m.org g.opp)
        have e2 : cross (m.org f.opp) p (m.org g.opp) = - cross (m.org f.opp) (m.org g.opp) p := by
          unfold cross; ring
        rw [e2] at e1
        have := mul_nonneg N.le q1
        rcases eq_or_lt_of_le r0 with r0 | r0
        · exact r0.symm
        · have := mul_pos (sub_pos.2 h2) r0
          linarith
      have ne : m.org f.opp ≠ m.org g.opp := by rw [← og]; exact h.ne Hg.1
      rcases lt_trichotomy (rdot u v (m.org g.opp)) (rdot u v (m.org f.opp)) with h3 | h3 | h3
      · refine back f2 r1 h3 fun w hw => ?_
        rw [← og]; exact Hg.2 w hw
      · exact ne (line_eq huv f2 r1 h3.symm)
      · have nm := h.nomid Hg.1 hp
        rw [og, line_inside huv f2 r1 h0, not_lt] at nm
        have h4 : rdot u v (m.org g.opp) ≤ rdot u v p := by
          by_contra hc
          have := mul_pos (sub_pos.2 h2) (sub_pos.2 (not_le.1 hc))
          linarith
        exact absurd (hmax g ⟨hg, by rw [og]; exact f2, r1, h4⟩) (not_le.2 h3)
  rcases le_or_gt (rdot u v p) 0 with h2 | h2
  · -- before the start
    obtain ⟨f, hf, hmax⟩ := exists_greatest
      (B.filter fun f => cross u v (m.org f) = 0 ∧ cross u v (m.org f.opp) = 0 ∧
        rdot u v p ≤ rdot u v (m.org f)) (fun f => - rdot u v (m.org f))
      (List.ne_nil_of_mem (a := e) (List.mem_filter.2 ⟨he, by
        simp only [decide_eq_true_eq]; exact ⟨cu, cv, by rw [← hu, zu]; exact h2⟩⟩))
    simp only [List.mem_filter, decide_eq_true_eq] at hf hmax
    obtain ⟨hf, f1, -, f3⟩ := hf
    have Hf := (hiff f).1 hf
    rcases eq_or_lt_of_le f3 with h3 | h3
    · exact ⟨f, hf, line_eq huv f1 h0 h3.symm⟩
    · exfalso
      obtain ⟨g, hg, hgf⟩ := hB.pred hf
      have Hg := (hiff _).1 hg
      have og : m.org g.opp = m.org f := by rw [← hgf, h.org (h.opp Hg.1)]
      have q1 := Hg.2 p hp
      rw [og] at q1
      have r0 := He.2 _ (h.mem Hg.1)
      have r1 : cross u v (m.org g) = 0 := by
        have e1 := line_cross f1 h0 (m.org g)
        have e2 : cross (m.org f) p (m.org g) = cross (m.org g) (m.org f) p := by
          unfold cross; ring
        rw [e2] at e1
        have := mul_nonneg N.le q1
        rcases eq_or_lt_of_le r0 with r0 | r0
        · exact r0.symm
        · have := mul_neg_of_neg_of_pos (sub_neg.2 h3) r0
          linarith
      have ne : m.org g ≠ m.org f := by rw [← og]; exact h.ne Hg.1
      rcases lt_trichotomy (rdot u v (m.org g)) (rdot u v (m.org f)) with h4 | h4 | h4
      · have nm := h.nomid Hg.1 hp
        rw [og, line_inside huv r1 f1 h0, not_lt] at nm
        have h5 : rdot u v p ≤ rdot u v (m.org g) := by
          by_contra hc
          have := mul_pos (sub_pos.2 (not_le.1 hc)) (sub_pos.2 h3)
          linarith
        have := hmax g ⟨hg, r1, by rw [og]; exact f1, h5⟩
        linarith
      · exact ne (line_eq huv r1 f1 h4)
      · refine back r1 f1 h4 fun w hw => ?_
        rw [← og]; exact Hg.2 w hw
  · exfalso
    refine h.nomid He.1 hp ((line_inside huv cu cv h0).2 ?_)
    rw [zu]
    exact mul_pos (by linarith) (by linarith)

/-- Points that are not on the hull walk lie strictly inside. -/
theorem hull_strict (h : Tgl m D P t) (nc : ¬ AllCol P) (hB : Bord P m D B)
    (hiff : ∀ e, e ∈ B ↔ HullDart P m D e) {p : Point K} (hp : p ∈ P) (hn : p ∉ B.map m.org)
    (he : e ∈ B) : 0 < cross (m.org e) (m.org e.opp) p := by
  rcases eq_or_lt_of_le (((hiff e).1 he).2 p hp) with h0 | h0
  · obtain ⟨f, hf, e1⟩ := hull_line h nc hB hiff he hp h0.symm
    exact absurd (List.mem_map.2 ⟨f, hf, e1⟩) hn
  · exact h0

/-- The hull winds once around a point strictly inside. -/
theorem hull_winding (h : Tgl m D P t) (hB : Bord P m D B)
    (hiff : ∀ e, e ∈ B ↔ HullDart P m D e) {p : Point K}
    (hs : ∀ e ∈ B, 0 < cross (m.org e) (m.org e.opp) p) (hl : (m.org t.leftSide).x ≤ p.x)
    (hr : p.x ≤ (m.org t.rightSide).x) : winding (B.map m.org) p = 1 := by
  rw [hB.winding_eq]
  have w1 : ∀ f ∈ B, (m.org f).x ≤ p.x → p.x < (m.org f.opp).x → wind m p f = 1 := by
    intro f hf a b
    unfold wind
    rw [rayCrossing_right a b, if_pos (by rw [← cross_area2]; exact hs f hf)]
  have w0 : ∀ f ∈ B, ¬ ((m.org f).x ≤ p.x ∧ p.x < (m.org f.opp).x) → wind m p f = 0 := by
    intro f hf hn
    unfold wind
    rcases le_or_gt (m.org f).x p.x with a | a
    · exact rayCrossing_low a (not_lt.1 fun b => hn ⟨a, b⟩)
    · rcases le_or_gt (m.org f.opp).x p.x with b | b
      · rw [rayCrossing_left b a, if_neg]
        rw [← cross_area2]; exact not_lt.2 (hs f hf).le
      · exact rayCrossing_high a b
  -- existence
  obtain ⟨f, hf, fa, fb⟩ : ∃ f ∈ B, (m.org f).x ≤ p.x ∧ p.x < (m.org f.opp).x := by
    by_contra hne
    push Not at hne
    have hL : t.leftSide ∈ B := (hiff _).2 ⟨h.dl, h.lhull⟩
    have all : ∀ f ∈ B, (m.org f).x ≤ p.x := by
      obtain ⟨i, hi, e0⟩ := List.getElem_of_mem hL
      have n0 : 0 < B.length := by omega
      have key : ∀ k, (m.org (B[(i + k) % B.length]'(Nat.mod_lt _ n0))).x ≤ p.x := by
        intro k
        induction k with
        | zero =>
          have : (i + 0) % B.length = i := Nat.mod_eq_of_lt hi
          simp only [this, e0]; exact hl
        | succ k ih =>
          have hm := hne _ (List.getElem_mem (Nat.mod_lt (i + k) n0)) ih
          rw [← h.org (h.opp (hB.bd _ (List.getElem_mem _)))] at hm
          have hlt := Nat.mod_lt (i + k) n0
          rcases Nat.lt_or_ge ((i + k) % B.length + 1) B.length with h1 | h1
          · rw [hB.getElem_next h1] at hm
            have e1 : (i + (k + 1)) % B.length = (i + k) % B.length + 1 := by
              rw [← Nat.add_assoc, Nat.add_mod, Nat.mod_eq_of_lt (a := 1) (by omega), Nat.mod_eq_of_lt h1]
            simp only [e1]; exact hm
          · have e2 : (i + k) % B.length = B.length - 1 := by omega
            simp only [e2] at hm
            rw [hB.getElem_last n0] at hm
            have e1 : (i + (k + 1)) % B.length = 0 := by
              rw [← Nat.add_assoc, Nat.add_mod, e2]
              rcases Nat.lt_or_ge 1 B.length with h3 | h3
              · rw [Nat.mod_eq_of_lt (a := 1) h3, show B.length - 1 + 1 = B.length by omega, Nat.mod_self]
              · have : B.length = 1 := by omega
                rw [this]
            simp only [e1]; exact hm
      intro f hf
      obtain ⟨j, hj, rfl⟩ := List.getElem_of_mem hf
      have := key (j + B.length - i)
      have e1 : (i + (j + B.length - i)) % B.length = j := by
        rw [show i + (j + B.length - i) = j + B.length by omega, Nat.add_mod_right, Nat.mod_eq_of_lt hj]
      simp only [e1] at this
      exact this
    have hR : t.rightSide.opp ∈ B := by
      refine (hiff _).2 ⟨h.opp h.dr, fun q hq => ?_⟩
      have := h.rhull q hq
      rw [Ref.opp_opp, cross_swap12]; linarith
    have hS := hB.rfe hR
    rw [Ref.opp_opp] at hS
    have oS : m.org (m.next t.rightSide) = m.org t.rightSide := h.org h.dr
    have z1 := all _ hS
    rw [oS] at z1
    have zx : (m.org t.rightSide).x = p.x := le_antisymm z1 hr
    have c1 := hs _ hR
    have c2 := hs _ hS
    rw [Ref.opp_opp] at c1
    rw [oS] at c2
    have y1 := all _ hR
    have y2 := all _ (hB.rfe hS)
    rw [h.org (h.opp (h.next h.dr))] at y2
    generalize m.org t.rightSide = z at *
    generalize m.org t.rightSide.opp = y at *
    generalize m.org (m.next t.rightSide).opp = w at *
    unfold cross at c1 c2
    rw [← zx] at c1 c2 y1 y2
    have c1' : 0 < (z.x - y.x) * (p.y - z.y) := by linarith
    have c2' : 0 < (w.x - z.x) * (p.y - z.y) := by linarith
    have d : 0 < p.y - z.y := by
      by_contra hc
      have := mul_nonpos_of_nonneg_of_nonpos (show 0 ≤ z.x - y.x by linarith) (not_lt.1 hc)
      linarith
    have := mul_nonpos_of_nonpos_of_nonneg (show w.x - z.x ≤ 0 by linarith) d.le
    linarith
  -- uniqueness
  have uniq : ∀ {f g : Ref}, f ∈ B → g ∈ B → (m.org f).x ≤ p.x → p.x < (m.org f.opp).x →
      (m.org g).x ≤ p.x → p.x < (m.org g.opp).x → (m.org f).x ≤ (m.org g).x → f = g := by
    intro f g hf hg fa fb ga gb hle
    have Hf := (hiff f).1 hf
    have Hg := (hiff g).1 hg
    refine hB.inj hf hg ?_
    have k1 := Hf.2 _ (h.mem Hg.1)
    have k2 := Hg.2 _ (h.mem Hf.1)
    have k3 := Hg.2 _ (h.mem (h.opp Hf.1))
    have nm := h.nomid Hf.1 (h.mem Hg.1)
    have hne := h.ne Hf.1
    generalize m.org f = a at *
    generalize m.org f.opp = b at *
    generalize m.org g = c at *
    generalize m.org g.opp = d at *
    have id : (b.x - c.x) * cross c d a + (c.x - a.x) * cross c d b = - (d.x - c.x) * cross a b c := by
      unfold cross; ring
    have l1 := mul_nonneg (show 0 ≤ b.x - c.x by linarith) k2
    have l2 := mul_nonneg (show 0 ≤ c.x - a.x by linarith) k3
    have c0 : cross a b c = 0 := by
      rcases eq_or_lt_of_le k1 with h0 | h0
      · exact h0.symm
      · have := mul_pos (show 0 < d.x - c.x by linarith) h0
        linarith
    have hon : OnSeg ⟨a, b⟩ c := by
      refine onSeg_iff.2 ⟨c0, mul_nonneg (by linarith) (by linarith), ?_⟩
      unfold cross at c0
      have hx : 0 < b.x - a.x := by linarith
      by_contra hlt
      have q1 := mul_neg_of_neg_of_pos (not_le.1 hlt) (mul_pos hx hx)
      have q2 := mul_nonneg (mul_nonneg (show 0 ≤ c.x - a.x by linarith) (show 0 ≤ b.x - c.x by linarith))
        (mul_self_nonneg (b.y - a.y))
      have e1 : (b.x - a.x) * (c.y - a.y) = (b.y - a.y) * (c.x - a.x) := by linarith
      have e2 : (b.x - a.x) * (b.y - c.y) = (b.y - a.y) * (b.x - c.x) := by linarith
      have e3 : (c.y - a.y) * (b.y - c.y) * ((b.x - a.x) * (b.x - a.x)) =
          (c.x - a.x) * (b.x - c.x) * ((b.y - a.y) * (b.y - a.y)) := by
        calc _ = ((b.x - a.x) * (c.y - a.y)) * ((b.x - a.x) * (b.y - c.y)) := by ring
          _ = _ := by rw [e1, e2]; ring
      linarith
    rcases onSeg_cases hne hon with h1 | h1 | h1
    · exact h1.symm
    · exfalso; rw [h1] at ga; linarith
    · exact absurd h1 nm
  have uniq' : ∀ g ∈ B, g ≠ f → wind m p g = 0 := by
    intro g hg hne
    refine w0 g hg fun ⟨ga, gb⟩ => hne ?_
    rcases le_total (m.org f).x (m.org g).x with h1 | h1
    · exact (uniq hf hg fa fb ga gb h1).symm
    · exact uniq hg hf ga gb fa fb h1
  obtain ⟨l₁, l₂, hBs, n1, n2⟩ := hB.split hf
  have z : ∀ l : List Ref, (∀ g ∈ l, g ∈ B) → f ∉ l → (l.map (wind m p)).sum = 0 := by
    intro l hl hfl
    apply List.sum_eq_zero
    intro x hx
    obtain ⟨g, hg, rfl⟩ := List.mem_map.1 hx
    exact uniq' g (hl g hg) (fun e => hfl (e ▸ hg))
  rw [hBs, List.map_append, List.map_cons, List.sum_append, List.sum_cons,
    z l₁ (fun g hg => by rw [hBs]; simp [hg]) n1, z l₂ (fun g hg => by rw [hBs]; simp [hg]) n2, w1 f hf fa fb]
  rfl

end HG
