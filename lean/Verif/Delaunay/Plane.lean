import Verif.Delaunay.Ring
import Verif.Lemmas.Segments

/-!
# Common points of segments, over ordered rings
-/

set_option linter.unusedSectionVars false

namespace HG

open Spec

variable {K : Type} [CommRing K] [LinearOrder K] [IsStrictOrderedRing K]

theorem line_x {u v p : Point K} (h : cross u v p = 0) :
    rdot u v v * (p.x - u.x) = rdot u v p * (v.x - u.x) := by
  unfold cross at h; unfold rdot
  linear_combination (u.y - v.y) * h

theorem line_y {u v p : Point K} (h : cross u v p = 0) :
    rdot u v v * (p.y - u.y) = rdot u v p * (v.y - u.y) := by
  unfold cross at h; unfold rdot
  linear_combination (v.x - u.x) * h

theorem line_eq {u v p q : Point K} (huv : u ≠ v) (hp : cross u v p = 0) (hq : cross u v q = 0)
    (h : rdot u v p = rdot u v q) : p = q := by
  have n := (rdot_self_pos (Ne.symm huv)).ne'
  refine point_ext (mul_left_cancel₀ n ?_) (mul_left_cancel₀ n ?_)
  · linear_combination line_x hp - line_x hq + (v.x - u.x) * h
  · linear_combination line_y hp - line_y hq + (v.y - u.y) * h

theorem between_iff (a b p : K) : (min a b ≤ p ∧ p ≤ max a b) ↔ 0 ≤ (p - a) * (b - p) := by
  constructor
  · rintro ⟨h1, h2⟩
    rcases le_total a b with h | h
    · rw [min_eq_left h] at h1; rw [max_eq_right h] at h2
      exact mul_nonneg (by linarith) (by linarith)
    · rw [min_eq_right h] at h1; rw [max_eq_left h] at h2
      exact mul_nonneg_of_nonpos_of_nonpos (by linarith) (by linarith)
  · intro h
    rw [min_le_iff, le_max_iff]
    rcases lt_trichotomy p a with h1 | h1 | h1
    · refine ⟨.inr ?_, .inl h1.le⟩
      by_contra hc
      have := mul_neg_of_neg_of_pos (sub_neg.2 h1) (sub_pos.2 (not_le.1 hc))
      linarith
    · exact ⟨.inl h1.ge, .inl h1.le⟩
    · refine ⟨.inl h1.le, .inr ?_⟩
      by_contra hc
      have := mul_neg_of_pos_of_neg (sub_pos.2 h1) (sub_neg.2 (not_le.1 hc))
      linarith

theorem onSeg_iff {c d p : Point K} : OnSeg ⟨c, d⟩ p ↔
    cross c d p = 0 ∧ 0 ≤ (p.x - c.x) * (d.x - p.x) ∧ 0 ≤ (p.y - c.y) * (d.y - p.y) := by
  unfold OnSeg
  rw [← between_iff, ← between_iff, cross_area2]
  unfold Collinear
  tauto

section
variable {u v c d p : Point K}

theorem line_rdot (huv : u ≠ v) (hc : cross u v c = 0) (hd : cross u v d = 0) (hp : cross u v p = 0) :
    rdot u v v * rdot p c d = (rdot u v c - rdot u v p) * (rdot u v d - rdot u v p) := by
  have n := (rdot_self_pos (Ne.symm huv)).ne'
  refine mul_left_cancel₀ n ?_
  have e1 : rdot u v v * (c.x - p.x) = (rdot u v c - rdot u v p) * (v.x - u.x) := by
    linear_combination line_x hc - line_x hp
  have e2 : rdot u v v * (c.y - p.y) = (rdot u v c - rdot u v p) * (v.y - u.y) := by
    linear_combination line_y hc - line_y hp
  have e3 : rdot u v v * (d.x - p.x) = (rdot u v d - rdot u v p) * (v.x - u.x) := by
    linear_combination line_x hd - line_x hp
  have e4 : rdot u v v * (d.y - p.y) = (rdot u v d - rdot u v p) * (v.y - u.y) := by
    linear_combination line_y hd - line_y hp
  have n1 : rdot u v v = (v.x - u.x) * (v.x - u.x) + (v.y - u.y) * (v.y - u.y) := rfl
  have n2 : rdot p c d = (c.x - p.x) * (d.x - p.x) + (c.y - p.y) * (d.y - p.y) := rfl
  calc rdot u v v * (rdot u v v * rdot p c d)
      = (rdot u v v * (c.x - p.x)) * (rdot u v v * (d.x - p.x))
        + (rdot u v v * (c.y - p.y)) * (rdot u v v * (d.y - p.y)) := by rw [n2]; ring
    _ = ((rdot u v c - rdot u v p) * (rdot u v d - rdot u v p)) *
        ((v.x - u.x) * (v.x - u.x) + (v.y - u.y) * (v.y - u.y)) := by rw [e1, e2, e3, e4]; ring
    _ = _ := by rw [← n1]; ring

theorem line_onSeg (huv : u ≠ v) (hc : cross u v c = 0) (hd : cross u v d = 0) (hp : cross u v p = 0) :
    OnSeg ⟨c, d⟩ p ↔ 0 ≤ (rdot u v p - rdot u v c) * (rdot u v d - rdot u v p) := by
  have n := rdot_self_pos (Ne.symm huv)
  have e1 : rdot u v v * (p.x - c.x) = (rdot u v p - rdot u v c) * (v.x - u.x) := by
    linear_combination line_x hp - line_x hc
  have e2 : rdot u v v * (p.y - c.y) = (rdot u v p - rdot u v c) * (v.y - u.y) := by
    linear_combination line_y hp - line_y hc
  have e3 : rdot u v v * (d.x - p.x) = (rdot u v d - rdot u v p) * (v.x - u.x) := by
    linear_combination line_x hd - line_x hp
  have e4 : rdot u v v * (d.y - p.y) = (rdot u v d - rdot u v p) * (v.y - u.y) := by
    linear_combination line_y hd - line_y hp
  rw [onSeg_iff]
  constructor
  · rintro ⟨-, h1, h2⟩
    have h3 := line_rdot huv hc hd hp
    have h4 : 0 ≤ - rdot p c d := by unfold rdot; linarith
    have := mul_nonneg n.le h4
    linarith
  · intro h
    refine ⟨rcol3 (Ne.symm huv) hc hd hp, ?_, ?_⟩
    · by_contra hlt
      have h1 := mul_pos_of_neg_of_neg (not_le.1 hlt) (neg_neg_of_pos (mul_pos n n))
      have h2 := mul_nonneg h (mul_self_nonneg (v.x - u.x))
      have h3 : (rdot u v v * (p.x - c.x)) * (rdot u v v * (d.x - p.x))
        = (rdot u v p - rdot u v c) * (rdot u v d - rdot u v p) * ((v.x - u.x) * (v.x - u.x)) := by
        rw [e1, e3]; ring
      linarith
    · by_contra hlt
      have h1 := mul_pos_of_neg_of_neg (not_le.1 hlt) (neg_neg_of_pos (mul_pos n n))
      have h2 := mul_nonneg h (mul_self_nonneg (v.y - u.y))
      have h3 : (rdot u v v * (p.y - c.y)) * (rdot u v v * (d.y - p.y))
        = (rdot u v p - rdot u v c) * (rdot u v d - rdot u v p) * ((v.y - u.y) * (v.y - u.y)) := by
        rw [e2, e4]; ring
      linarith

theorem line_inside (huv : u ≠ v) (hc : cross u v c = 0) (hd : cross u v d = 0) (hp : cross u v p = 0) :
    Inside c d p ↔ 0 < (rdot u v p - rdot u v c) * (rdot u v d - rdot u v p) := by
  have n := rdot_self_pos (Ne.symm huv)
  have h3 := line_rdot huv hc hd hp
  rw [inside_iff]
  constructor
  · rintro ⟨-, h⟩
    have := mul_pos n (neg_pos.2 h)
    linarith
  · intro h
    refine ⟨rcol3 (Ne.symm huv) hc hd hp, ?_⟩
    by_contra hc'
    have := mul_nonneg n.le (not_lt.1 hc')
    linarith

end

theorem inside_onSeg {a b p : Point K} (h : Inside a b p) : OnSeg ⟨a, b⟩ p := by
  have hab : a ≠ b := by
    rintro rfl
    have := h.2
    nlinarith [mul_self_nonneg (a.x - p.x), mul_self_nonneg (a.y - p.y)]
  rw [line_onSeg hab (by simp) (by simp) h.1]
  exact ((line_inside hab (by simp) (by simp) h.1).1 h).le

theorem inside_ne {a b p : Point K} (h : Inside a b p) : p ≠ a ∧ p ≠ b ∧ a ≠ b := by
  refine ⟨?_, ?_, ?_⟩
  · rintro rfl; have := h.2; simp at this
  · rintro rfl; have := h.2; simp at this
  · rintro rfl
    have := h.2
    nlinarith [mul_self_nonneg (a.x - p.x), mul_self_nonneg (a.y - p.y)]

theorem onSeg_cases {a b p : Point K} (hab : a ≠ b) (h : OnSeg ⟨a, b⟩ p) :
    p = a ∨ p = b ∨ Inside a b p := by
  have hc : cross a b p = 0 := by rw [cross_area2]; exact h.1
  by_cases h1 : rdot a b p = rdot a b a
  · exact .inl (line_eq hab hc (by simp) h1)
  by_cases h2 : rdot a b p = rdot a b b
  · exact .inr (.inl (line_eq hab hc (by simp) h2))
  right; right
  rw [line_inside hab (by simp) (by simp) hc]
  rw [line_onSeg hab (by simp) (by simp) hc] at h
  exact lt_of_le_of_ne h (Ne.symm (mul_ne_zero (sub_ne_zero.2 h1) (sub_ne_zero.2 (Ne.symm h2))))

/-- How two segments can meet. -/
theorem meet_cases {a b c d p : Point K} (hab : a ≠ b) (hcd : c ≠ d) (h1 : Inside a b p)
    (h2 : Inside c d p) : Crossing a b c d ∨ Inside a b c ∨ Inside a b d ∨ Inside c d a ∨
      Inside c d b ∨ (a = c ∧ b = d) ∨ (a = d ∧ b = c) := by
  have n1 := inside_ne h1
  have n2 := inside_ne h2
  obtain ⟨s, t, hs, ht, e1, e2⟩ := onSeg_interior (inside_onSeg h1) n1.1 n1.2.1
  obtain ⟨s', t', hs', ht', e3, e4⟩ := onSeg_interior (inside_onSeg h2) n2.1 n2.2.1
  have k1 := area2_combination (a := c) (b := d) e1 e2
  have k2 := area2_combination (a := a) (b := b) e3 e4
  rw [← cross_area2, h2.1, mul_zero] at k1
  rw [← cross_area2, h1.1, mul_zero] at k2
  have col : ∀ (hc : cross a b c = 0) (hd : cross a b d = 0), Inside a b c ∨ Inside a b d ∨ Inside c d a ∨
      Inside c d b ∨ (a = c ∧ b = d) ∨ (a = d ∧ b = c) := by
    intro hc hd
    have ca : cross a b a = 0 := by simp
    have cb : cross a b b = 0 := by simp
    rw [line_inside hab ca cb hc, line_inside hab ca cb hd, line_inside hab hc hd ca,
      line_inside hab hc hd cb]
    have g2 := (line_inside hab hc hd h1.1).1 h2
    have g1 := (line_inside hab ca cb h1.1).1 h1
    have za : rdot a b a = 0 := by unfold rdot; simp
    have nb := rdot_self_pos (Ne.symm hab)
    have eq1 : rdot a b c = rdot a b a → a = c := fun h => (line_eq hab hc ca h).symm
    have eq2 : rdot a b c = rdot a b b → b = c := fun h => (line_eq hab hc cb h).symm
    have eq3 : rdot a b d = rdot a b a → a = d := fun h => (line_eq hab hd ca h).symm
    have eq4 : rdot a b d = rdot a b b → b = d := fun h => (line_eq hab hd cb h).symm
    rw [za] at g1 eq1 eq3 ⊢
    generalize rdot a b b = N at *
    generalize rdot a b c = x at *
    generalize rdot a b d = y at *
    generalize rdot a b p = z at *
    simp only [sub_zero, zero_sub] at g1 g2 ⊢
    rcases lt_trichotomy x 0 with hx | hx | hx
    · -- x < 0
      have hz : 0 < z := by
        by_contra hh
        rcases (not_lt.1 hh).lt_or_eq with hh | hh
        · have := mul_neg_of_neg_of_pos hh (show 0 < N - z by linarith); linarith
        · rw [hh] at g1; simp at g1
      have hy : 0 < y := by
        by_contra hh
        have := mul_nonpos_of_nonneg_of_nonpos (show 0 ≤ z - x by linarith)
          (show y - z ≤ 0 by linarith)
        linarith
      right; right; left
      nlinarith
    · have e := eq1 hx
      rcases lt_trichotomy y N with hy | hy | hy
      · have hz : 0 < z := by
          by_contra hh
          rcases (not_lt.1 hh).lt_or_eq with hh | hh
          · have := mul_neg_of_neg_of_pos hh (show 0 < N - z by linarith); linarith
          · rw [hh] at g1; simp at g1
        have hy' : 0 < y := by
          by_contra hh
          have := mul_nonpos_of_nonneg_of_nonpos (show 0 ≤ z - x by linarith)
            (show y - z ≤ 0 by linarith)
          linarith
        right; left; exact mul_pos hy' (by linarith)
      · exact .inr (.inr (.inr (.inr (.inl ⟨e, eq4 hy⟩))))
      · right; right; right; left
        exact mul_pos (by linarith) (by linarith)
    · rcases lt_trichotomy x N with hx' | hx' | hx'
      · left; exact mul_pos hx (by linarith)
      · have e := eq2 hx'
        rcases lt_trichotomy y 0 with hy | hy | hy
        · right; right; left
          rw [neg_mul]
          have := mul_neg_of_pos_of_neg hx hy
          linarith
        · exact .inr (.inr (.inr (.inr (.inr ⟨eq3 hy, e⟩))))
        · rcases lt_trichotomy y N with hy' | hy' | hy'
          · right; left; exact mul_pos hy (by linarith)
          · exfalso
            rw [hx', hy'] at g2
            nlinarith [mul_self_nonneg (z - N)]
          · exfalso
            -- z < N ≤ x, z < y
            have hz : z < N := by
              by_contra hh
              have := mul_nonpos_of_nonneg_of_nonpos (show 0 ≤ z by linarith)
                (show N - z ≤ 0 by linarith)
              linarith
            have := mul_neg_of_neg_of_pos (show z - x < 0 by linarith) (show 0 < y - z by linarith)
            linarith
      · -- x > N
        have hz : z < N := by
          by_contra hh
          have := mul_nonpos_of_nonneg_of_nonpos (show 0 ≤ z by linarith)
            (show N - z ≤ 0 by linarith)
          linarith
        have hy : y < z := by
          by_contra hh
          have := mul_nonpos_of_nonpos_of_nonneg (show z - x ≤ 0 by linarith)
            (show 0 ≤ y - z by linarith)
          linarith
        right; right; right; left
        exact mul_pos_of_neg_of_neg (by linarith) (by linarith)
  rcases opposite_of_sum hs ht k1.symm with ⟨z1, z2⟩ | o1
  · right
    rw [← cross_area2] at z1 z2
    exact col (rcol3 (Ne.symm hcd) z1 z2 (by simp)) (rcol3 (Ne.symm hcd) z1 z2 (by simp))
  · rcases opposite_of_sum hs' ht' k2.symm with ⟨z1, z2⟩ | o2
    · rw [← cross_area2] at z1 z2
      exact .inr (col z1 z2)
    · left
      unfold Crossing
      rw [cross_area2, cross_area2, cross_area2, cross_area2]
      exact ⟨o2, o1⟩

end HG
