import Verif.Delaunay.Area
import Verif.Lemmas.Separation

/-!
# Winding numbers of borders of triangulated regions
-/

set_option linter.unusedSectionVars false

namespace HG

open Spec

variable {K : Type} [CommRing K] [LinearOrder K] [IsStrictOrderedRing K]
variable {P : List (Point K)} {m : Mesh K} {D : Ref → Prop} {t : Tri} {B : List Ref} {e f : Ref}

theorem area2_neg (a b p : Point K) : area2 b a p = - area2 a b p := by unfold area2; ring

theorem rayCrossing_right {p a b : Point K} (h1 : a.x ≤ p.x) (h2 : p.x < b.x) :
    rayCrossing p a b = if 0 < area2 a b p then 1 else 0 := by
  unfold rayCrossing
  simp only [h1, h2, true_and, not_lt.2 h1, not_le.2 h2, false_and, if_false]

theorem rayCrossing_left {p a b : Point K} (h1 : b.x ≤ p.x) (h2 : p.x < a.x) :
    rayCrossing p a b = if area2 a b p < 0 then -1 else 0 := by
  unfold rayCrossing
  simp only [h1, h2, true_and, not_lt.2 h1, not_le.2 h2, false_and, if_false]

theorem rayCrossing_low {p a b : Point K} (h1 : a.x ≤ p.x) (h2 : b.x ≤ p.x) : rayCrossing p a b = 0 := by
  unfold rayCrossing
  simp only [not_lt.2 h1, not_lt.2 h2, false_and, and_false, if_false]

theorem rayCrossing_high {p a b : Point K} (h1 : p.x < a.x) (h2 : p.x < b.x) : rayCrossing p a b = 0 := by
  unfold rayCrossing
  simp only [not_le.2 h1, not_le.2 h2, false_and, if_false]

theorem rayCrossing_swap (p a b : Point K) : rayCrossing p b a = - rayCrossing p a b := by
  rcases le_or_gt a.x p.x with h1 | h1 <;> rcases le_or_gt b.x p.x with h2 | h2
  · rw [rayCrossing_low h1 h2, rayCrossing_low h2 h1]; rfl
  · rw [rayCrossing_right h1 h2, rayCrossing_left h1 h2, area2_neg]
    simp only [neg_lt_zero]
    split_ifs <;> rfl
  · rw [rayCrossing_left h2 h1, rayCrossing_right h2 h1, area2_neg]
    simp only [neg_pos]
    split_ifs <;> rfl
  · rw [rayCrossing_high h1 h2, rayCrossing_high h2 h1]; rfl

/-- Barycentric coordinates of a point outside a triangle: one vertex on the left. -/
theorem tri_left {u v w α β γ : K} (h : u * α + v * β + w * γ = 0) (hN : 0 < u + v + w)
    (hn : ¬ (0 ≤ u ∧ 0 ≤ v ∧ 0 ≤ w)) (ha : α ≤ 0) (hb : 0 < β) (hc : 0 < γ) : 0 < w ↔ v < 0 := by
  constructor
  · intro hw
    by_contra hv
    rw [not_lt] at hv
    refine hn ⟨?_, hv, hw.le⟩
    by_contra hu
    have := mul_nonneg_of_nonpos_of_nonpos (not_le.1 hu).le ha
    have := mul_nonneg hv hb.le
    have := mul_pos hw hc
    linarith
  · intro hv
    by_contra hw
    rw [not_lt] at hw
    have h1 := mul_neg_of_neg_of_pos hv hb
    have h2 := mul_nonpos_of_nonpos_of_nonneg hw hc.le
    have hu : 0 ≤ u := by linarith
    have := mul_nonpos_of_nonneg_of_nonpos hu ha
    linarith

/-- Barycentric coordinates of a point outside a triangle: one vertex on the right. -/
theorem tri_right {u v w α β γ : K} (h : u * α + v * β + w * γ = 0) (hN : 0 < u + v + w)
    (hn : ¬ (0 ≤ u ∧ 0 ≤ v ∧ 0 ≤ w)) (ha : 0 < α) (hb : β ≤ 0) (hc : γ ≤ 0) : w < 0 ↔ 0 < v := by
  constructor
  · intro hw
    by_contra hv
    rw [not_lt] at hv
    have h1 := mul_nonneg_of_nonpos_of_nonpos hv hb
    have h2 := mul_nonneg_of_nonpos_of_nonpos hw.le hc
    have hu : 0 < u := by linarith
    have := mul_pos hu ha
    linarith
  · intro hv
    by_contra hw
    rw [not_lt] at hw
    refine hn ⟨?_, hv.le, hw⟩
    by_contra hu
    have := mul_neg_of_neg_of_pos (not_le.1 hu) ha
    have := mul_nonpos_of_nonneg_of_nonpos hv.le hb
    have := mul_nonpos_of_nonneg_of_nonpos hw hc
    linarith

/-- A triangle does not wind around a point outside. -/
theorem rayCrossing_tri {a b c p : Point K} (hpos : 0 < cross a b c)
    (hn : ¬ (0 ≤ cross a b p ∧ 0 ≤ cross b c p ∧ 0 ≤ cross c a p)) :
    rayCrossing p a b + rayCrossing p b c + rayCrossing p c a = 0 := by
  have key : ∀ a b c : Point K, 0 < cross a b c →
      ¬ (0 ≤ cross a b p ∧ 0 ≤ cross b c p ∧ 0 ≤ cross c a p) → (a.x ≤ p.x ↔ ¬ b.x ≤ p.x) →
      (a.x ≤ p.x ↔ ¬ c.x ≤ p.x) →
      rayCrossing p a b + rayCrossing p b c + rayCrossing p c a = 0 := by
    intro a b c hpos hn hab hac
    have e : cross b c p * (a.x - p.x) + cross c a p * (b.x - p.x) + cross a b p * (c.x - p.x) = 0 := by
      unfold cross; ring
    have N : 0 < cross b c p + cross c a p + cross a b p := by
      refine lt_of_lt_of_eq hpos ?_
      unfold cross; ring
    have hn' : ¬ (0 ≤ cross b c p ∧ 0 ≤ cross c a p ∧ 0 ≤ cross a b p) := fun h => hn ⟨h.2.2, h.1, h.2.1⟩
    rw [not_le] at hab hac
    rcases le_or_gt a.x p.x with ha | ha
    · have hb := hab.1 ha
      have hc := hac.1 ha
      rw [rayCrossing_right ha hb, rayCrossing_high hb hc, rayCrossing_left ha hc, ← cross_area2, ← cross_area2]
      have := tri_left e N hn' (by linarith) (by linarith) (by linarith)
      simp only [this]
      split_ifs <;> rfl
    · have hb : b.x ≤ p.x := by
        by_contra h; exact absurd (hab.2 (not_le.1 h)) (not_le.2 ha)
      have hc : c.x ≤ p.x := by
        by_contra h; exact absurd (hac.2 (not_le.1 h)) (not_le.2 ha)
      rw [rayCrossing_left hb ha, rayCrossing_low hb hc, rayCrossing_right hc ha, ← cross_area2, ← cross_area2]
      have := tri_right e N hn' (by linarith) (by linarith) (by linarith)
      simp only [this]
      split_ifs <;> rfl
  have r1 : cross b c a = cross a b c := cross_rot a b c
  have r2 : cross c a b = cross a b c := by rw [cross_rot b c a]; exact r1
  by_cases hA : a.x ≤ p.x <;> by_cases hB : b.x ≤ p.x <;> by_cases hC : c.x ≤ p.x
  · rw [rayCrossing_low hA hB, rayCrossing_low hB hC, rayCrossing_low hC hA]; rfl
  · have := key c a b (by rw [r2]; exact hpos) (fun h => hn ⟨h.2.1, h.2.2, h.1⟩) (by tauto) (by tauto)
    rw [← this]; ring
  · have := key b c a (by rw [r1]; exact hpos) (fun h => hn ⟨h.2.2, h.1, h.2.1⟩) (by tauto) (by tauto)
    rw [← this]; ring
  · exact key a b c hpos hn (by tauto) (by tauto)
  · exact key a b c hpos hn (by tauto) (by tauto)
  · have := key b c a (by rw [r1]; exact hpos) (fun h => hn ⟨h.2.2, h.1, h.2.1⟩) (by tauto) (by tauto)
    rw [← this]; ring
  · have := key c a b (by rw [r2]; exact hpos) (fun h => hn ⟨h.2.1, h.2.2, h.1⟩) (by tauto) (by tauto)
    rw [← this]; ring
  · rw [not_le] at hA hB hC
    rw [rayCrossing_high hA hB, rayCrossing_high hB hC, rayCrossing_high hC hA]; rfl

/-- Crossings of collinear edges add up. -/
theorem rayCrossing_line {a b c : Point K} (h : cross a b c = 0) (p : Point K) :
    rayCrossing p a b + rayCrossing p b c = rayCrossing p a c := by
  have e1 : area2 a b p * (c.x - b.x) = area2 b c p * (b.x - a.x) := by
    unfold cross at h; unfold area2
    linear_combination (p.x - b.x) * h
  have e2 : area2 a b p * (c.x - a.x) = area2 a c p * (b.x - a.x) := by
    unfold cross at h; unfold area2
    linear_combination (p.x - a.x) * h
  have e3 : area2 b c p * (c.x - a.x) = area2 a c p * (c.x - b.x) := by
    unfold cross at h; unfold area2
    linear_combination (c.x - p.x) * h
  have same : ∀ {u v α β : K}, u * α = v * β → 0 < α → 0 < β → (0 < u ↔ 0 < v) := by
    intro u v α β h ha hb
    rw [← mul_pos_iff_of_pos_right ha, h, mul_pos_iff_of_pos_right hb]
  rcases le_or_gt a.x p.x with ha | ha <;> rcases le_or_gt b.x p.x with hb | hb <;>
    rcases le_or_gt c.x p.x with hc | hc
  · rw [rayCrossing_low ha hb, rayCrossing_low hb hc, rayCrossing_low ha hc]; rfl
  · rw [rayCrossing_low ha hb, rayCrossing_right hb hc, rayCrossing_right ha hc]
    have := same e3 (by linarith) (by linarith)
    simp only [this]; split_ifs <;> rfl
  · rw [rayCrossing_right ha hb, rayCrossing_left hc hb, rayCrossing_low ha hc]
    have := same (u := area2 a b p) (v := - area2 b c p) (α := b.x - c.x) (β := b.x - a.x)
      (by linear_combination -e1) (by linarith) (by linarith)
    rw [neg_pos] at this
    simp only [this]; split_ifs <;> rfl
  · rw [rayCrossing_right ha hb, rayCrossing_high hb hc, rayCrossing_right ha hc]
    have := same e2 (by linarith) (by linarith)
    simp only [this]; split_ifs <;> rfl
  · rw [rayCrossing_left hb ha, rayCrossing_low hb hc, rayCrossing_left hc ha]
    have := same (u := - area2 a b p) (v := - area2 a c p) (α := a.x - c.x) (β := a.x - b.x)
      (by linear_combination e2) (by linarith) (by linarith)
    rw [neg_pos, neg_pos] at this
    simp only [this]; split_ifs <;> rfl
  · rw [rayCrossing_left hb ha, rayCrossing_right hb hc, rayCrossing_high ha hc]
    have := same (u := - area2 a b p) (v := area2 b c p) (α := c.x - b.x) (β := a.x - b.x)
      (by linear_combination -e1) (by linarith) (by linarith)
    rw [neg_pos] at this
    simp only [this]; split_ifs <;> rfl
  · rw [rayCrossing_high ha hb, rayCrossing_left hc hb, rayCrossing_left hc ha]
    have := same (u := - area2 b c p) (v := - area2 a c p) (α := a.x - c.x) (β := b.x - c.x)
      (by linear_combination e3) (by linarith) (by linarith)
    rw [neg_pos, neg_pos] at this
    simp only [this]; split_ifs <;> rfl
  · rw [rayCrossing_high ha hb, rayCrossing_high hb hc, rayCrossing_high ha hc]; rfl

/-- Winding numbers are not changed by `compressContour`. -/
theorem winding_compress (l : List (Point K)) (p : Point K) :
    winding (compressContour l) p = winding l p :=
  compress_ind (Q := fun l' => winding l' p = winding l p)
    (fun _ _ h1 h2 h3 h4 => Eq.trans (cycSum_erase (rayCrossing p) h1 h2 (rayCrossing_line h3 p)) h4) rfl

/-- The term of a dart in a winding number. -/
def wind (m : Mesh K) (p : Point K) (e : Ref) : ℤ := rayCrossing p (m.org e) (m.org e.opp)

theorem Bord.winding_eq (h : Bord P m D B) (p : Point K) :
    winding (B.map m.org) p = (B.map (wind m p)).sum := h.cycSum_eq (rayCrossing p)

/-- Removing a triangle that does not contain a point keeps the winding number around it. -/
theorem Bord.winding_delete (h : Bord P m D B) (he : e ∈ B) (hm : Bord P (m.delete e) (fun x => D x ∧ x ≠ e ∧ x ≠ e.opp) (mouthBorder m B e)) {p : Point K}
    (hn : ¬ (0 ≤ cross (m.org e) (m.org e.opp) p ∧ 0 ≤ cross (m.org e.opp) (m.org (m.next e).opp) p ∧
      0 ≤ cross (m.org (m.next e).opp) (m.org e) p)) :
    winding ((mouthBorder m B e).map (m.delete e).org) p = winding (B.map m.org) p := by
  have hw : wind (m.delete e) p = wind m p := by
    funext x
    unfold wind
    rw [delete_org]
  rw [hm.winding_eq, h.winding_eq, hw]
  obtain ⟨l₁, l₂, rfl, h1, h2⟩ := h.split he
  rw [mouthBorder_append, mouthBorder_cons, mouthBorder_notMem m h1, mouthBorder_notMem m h2]
  simp only [List.map_append, List.map_cons, List.sum_append, List.sum_cons]
  have T := h.triFace he
  have De := h.bd e he
  have := rayCrossing_tri T.pos hn
  have o1 : m.org (m.next e) = m.org e := h.org De
  have o2 : m.org (m.next (m.next e).opp) = m.org (m.next e).opp := h.org (h.opp (h.next De))
  have o3 : m.org (m.next (m.next e).opp).opp = m.org e.opp := by
    have t3 := T.three
    have : m.lf (m.lf e) = (m.next (m.next e).opp).opp := rfl
    rw [← this, ← h.org (h.lf_dart (h.lf_dart De)), ← Ref.opp_opp (m.next (m.lf (m.lf e)))]
    exact congrArg (fun r => m.org r.opp) t3
  unfold wind
  rw [o1, o2, o3]
  have s1 := rayCrossing_swap p (m.org e) (m.org (m.next e).opp)
  have s2 := rayCrossing_swap p (m.org e.opp) (m.org (m.next e).opp)
  linarith

end HG
