import Verif.Delaunay.Merge

/-!
# Directions around a point, and triangles against edges
-/

set_option linter.unusedSectionVars false

namespace HG

variable {K : Type} [Field K] [LinearOrder K] [IsStrictOrderedRing K]

/-- Seen from `o`, the points `a`, `b`, `c` follow each other counterclockwise. -/
def Cyc (o a b c : Point K) : Prop :=
  (0 < cross o a b ∧ 0 < cross o b c) ∨ (0 < cross o b c ∧ 0 < cross o c a) ∨
    (0 < cross o c a ∧ 0 < cross o a b)

theorem Cyc.rot {o a b c : Point K} (h : Cyc o a b c) : Cyc o b c a := by
  rcases h with h | h | h
  · exact .inr (.inr h)
  · exact .inl h
  · exact .inr (.inl h)

theorem pluck (o a b c d : Point K) :
    cross o a b * cross o c d - cross o a c * cross o b d + cross o a d * cross o b c = 0 := by
  unfold cross; ring

theorem cross_neg (o a b : Point K) : cross o b a = - cross o a b := cross_swap23 o a b

theorem cyc_trans_aux {x y z u v w : K} (hp : x * w - y * v + z * u = 0)
    (h1 : (0 < x ∧ 0 < u) ∨ (0 < u ∧ 0 < -y) ∨ (0 < -y ∧ 0 < x))
    (h2 : (0 < y ∧ 0 < w) ∨ (0 < w ∧ 0 < -z) ∨ (0 < -z ∧ 0 < y)) :
    ((0 < x ∧ 0 < v) ∨ (0 < v ∧ 0 < -z) ∨ (0 < -z ∧ 0 < x)) ∧
    ((0 < u ∧ 0 < w) ∨ (0 < w ∧ 0 < -v) ∨ (0 < -v ∧ 0 < u)) := by
  rcases h1 with ⟨a1, a2⟩ | ⟨a1, a2⟩ | ⟨a1, a2⟩ <;> rcases h2 with ⟨b1, b2⟩ | ⟨b1, b2⟩ | ⟨b1, b2⟩
  · -- x u y w
    rcases lt_or_ge 0 v with hv | hv
    · exact ⟨.inl ⟨a1, hv⟩, .inl ⟨a2, b2⟩⟩
    · have : z < 0 := by
        by_contra hz
        have t1 := mul_pos a1 b2
        have t2 := mul_nonpos_of_nonneg_of_nonpos (le_of_lt b1) hv
        have t3 := mul_nonneg (not_lt.1 hz) (le_of_lt a2)
        linarith
      exact ⟨.inr (.inr ⟨by linarith, a1⟩), .inl ⟨a2, b2⟩⟩
  · exact ⟨.inr (.inr ⟨b2, a1⟩), .inl ⟨a2, b1⟩⟩
  · refine ⟨.inr (.inr ⟨b1, a1⟩), ?_⟩
    rcases lt_or_ge v 0 with hv | hv
    · exact .inr (.inr ⟨by linarith, a2⟩)
    · have : 0 < w := by
        by_contra hw
        have t1 := mul_nonpos_of_nonneg_of_nonpos (le_of_lt a1) (not_lt.1 hw)
        have t2 := mul_nonneg (le_of_lt b2) hv
        have t3 := mul_neg_of_neg_of_pos (show z < 0 by linarith) a2
        linarith
      exact .inl ⟨a2, this⟩
  · linarith
  · refine ⟨?_, .inl ⟨a1, b1⟩⟩
    rcases lt_or_ge 0 v with hv | hv
    · exact .inr (.inl ⟨hv, b2⟩)
    · have : 0 < x := by
        by_contra hx
        have t1 := mul_nonpos_of_nonpos_of_nonneg (not_lt.1 hx) (le_of_lt b1)
        have t2 := mul_nonneg_of_nonpos_of_nonpos (show y ≤ 0 by linarith) hv
        have t3 := mul_neg_of_neg_of_pos (show z < 0 by linarith) a1
        linarith
      exact .inr (.inr ⟨b2, this⟩)
  · linarith
  · linarith
  · refine ⟨.inr (.inr ⟨b2, a2⟩), ?_⟩
    rcases lt_or_ge v 0 with hv | hv
    · exact .inr (.inl ⟨b1, by linarith⟩)
    · have : 0 < u := by
        by_contra hu
        have t1 := mul_pos a2 b1
        have t2 := mul_nonpos_of_nonpos_of_nonneg (show y ≤ 0 by linarith) hv
        have t3 := mul_nonneg_of_nonpos_of_nonpos (show z ≤ 0 by linarith) (not_lt.1 hu)
        linarith
      exact .inl ⟨this, b1⟩
  · linarith

theorem cyc_iff {o a b c : Point K} : Cyc o a b c ↔ (0 < cross o a b ∧ 0 < cross o b c) ∨
    (0 < cross o b c ∧ 0 < - cross o a c) ∨ (0 < - cross o a c ∧ 0 < cross o a b) := by
  unfold Cyc; rw [cross_neg o a c]

theorem Cyc.trans {o a b c d : Point K} (h1 : Cyc o a b c) (h2 : Cyc o a c d) :
    Cyc o a b d ∧ Cyc o b c d := by
  rw [cyc_iff] at h1 h2
  rw [cyc_iff, cyc_iff]
  exact cyc_trans_aux (pluck o a b c d) h1 h2

theorem Cyc.asymm {o a b c : Point K} (h1 : Cyc o a b c) (h2 : Cyc o a c b) : False := by
  rw [cyc_iff] at h1 h2
  rw [cross_neg o b c] at h2
  rcases h1 with ⟨a1, a2⟩ | ⟨a1, a2⟩ | ⟨a1, a2⟩ <;> rcases h2 with ⟨b1, b2⟩ | ⟨b1, b2⟩ | ⟨b1, b2⟩ <;>
    linarith

theorem Cyc.ne {o a b c : Point K} (h : Cyc o a b c) : a ≠ b := by
  rintro rfl
  rw [cyc_iff] at h
  simp only [cross_self23] at h
  rcases h with ⟨a1, a2⟩ | ⟨a1, a2⟩ | ⟨a1, a2⟩ <;> linarith

/-- Point on the ray, in the form used below. -/
theorem ray_or {o p z q : Point K} (hpo : p ≠ o) (hz : z ≠ o) (h0 : cross o p z = 0)
    (h1 : 0 < cross o p q) (h2 : 0 ≤ cross o z q) : 0 < dot o p z := by
  have e : cross o z q * dot o p p = dot o p z * cross o p q := by
    have := cross_dot' o p z q
    rw [h0] at this; linarith
  have hd : dot o p z ≠ 0 := by
    intro h
    have h3 := dot_cross_sq o p z
    rw [h, h0] at h3
    have := mul_pos (dot_self_pos hpo) (dot_self_pos hz)
    linarith
  rcases lt_or_gt_of_ne hd with h | h
  · have t1 := mul_neg_of_neg_of_pos h h1
    have t2 := mul_nonneg h2 (le_of_lt (dot_self_pos hpo))
    linarith
  · exact h

/-- An edge at a corner of an empty triangle whose opposite side is an edge stays outside the
angle. -/
theorem wedge {P : List (Point K)} {o p q z : Point K} (ht : DTri P o p q) (hp : p ∈ P) (hq : q ∈ P)
    (hz : z ∈ P) (hzo : z ≠ o) (hzp : z ≠ p) (hzq : z ≠ q) (hm : ∀ x ∈ P, ¬ Mid o z x)
    (hx : ¬ XX o z p q) : Cyc o p q z := by
  have h0 := ht.1
  have npo : p ≠ o := by rintro rfl; simp at h0
  have nqo : q ≠ o := by rintro rfl; simp at h0
  by_contra hc
  have h1 : cross o q z ≤ 0 := by
    by_contra h; exact hc (.inl ⟨h0, not_le.1 h⟩)
  have h2 : cross o z p ≤ 0 := by
    by_contra h; exact hc (.inr (.inr ⟨not_le.1 h, h0⟩))
  have h1' : 0 ≤ cross o z q := by rw [cross_neg]; linarith
  have h2' : 0 ≤ cross o p z := by rw [cross_neg]; linarith
  rcases eq_or_lt_of_le h2' with e2 | e2
  · exact hzp (ray_eq e2.symm (ray_or npo hzo e2.symm h0 h1') (ht.del.not_mid hz) (hm p hp))
  rcases eq_or_lt_of_le h1' with e1 | e1
  · have e3 : cross o q z = 0 := by rw [cross_neg, ← e1, neg_zero]
    have : 0 < dot o q z := by
      have e : - cross o p z * dot o q q = - (dot o q z * cross o p q) := by
        have := cross_dot' o q z p
        rw [e3, cross_neg o p z, cross_neg o p q] at this; linarith
      by_contra hcon
      have t1 := mul_nonpos_of_nonpos_of_nonneg (not_lt.1 hcon) (le_of_lt h0)
      have t2 := mul_pos e2 (dot_self_pos nqo)
      linarith
    exact hzq (ray_eq e3 this (ht.rot.rot.del.symm.not_mid hz) (hm q hq))
  · rcases le_or_gt 0 (cross p q z) with h3 | h3
    · obtain ⟨-, f, hf, fo, fp, fq⟩ := ht
      rcases dtri_corner h0 fo fp fq (q := z) (by rw [cross_rot']; exact h3) (le_of_lt e1)
        (le_of_lt e2) (hf z hz) with h | h | h
      · exact hzo h
      · exact hzp h
      · exact hzq h
    · refine hx ⟨?_, ?_⟩
      · have := mul_pos e1 e2
        rw [cross_neg o p z]; nlinarith
      · rw [cross_rot]
        exact mul_neg_of_pos_of_neg h0 h3

/-- Pasch: an edge that crosses one side of an empty triangle crosses another side or ends in the
opposite corner. -/
theorem pasch {P : List (Point K)} {a b c u v : Point K} (ht : DTri P a b c) (hb : b ∈ P)
    (hu : u ∈ P) (hbu : cross a c u < 0) (hx : XX u v a c) (hm : ¬ Mid u v b) :
    XX u v a b ∨ XX u v b c ∨ u = b := by
  have h0 := ht.1
  obtain ⟨-, f, hf, fa, fb, fc⟩ := ht
  have hv : 0 < cross a c v := by
    by_contra h
    have := mul_nonneg_of_nonpos_of_nonpos (le_of_lt hbu) (not_lt.1 h)
    linarith [hx.2]
  -- barycentric coordinates
  have su : cross b c u + -cross a c u + cross a b u = cross a b c := by
    have := cross_sum a b c u
    rw [cross_rot', cross_neg a c u] at this; linarith
  have sv : cross b c v + -cross a c v + cross a b v = cross a b c := by
    have := cross_sum a b c v
    rw [cross_rot', cross_neg a c v] at this; linarith
  have eA : cross a b c * cross u v a = -cross a c u * cross a b v - cross a b u * -cross a c v := by
    unfold cross; ring
  have eB : cross a b c * cross u v b = cross a b u * cross b c v - cross b c u * cross a b v := by
    unfold cross; ring
  have eC : cross a b c * cross u v c = cross b c u * -cross a c v - -cross a c u * cross b c v := by
    unfold cross; ring
  have syz : cross b c u * cross u v a + -cross a c u * cross u v b + cross a b u * cross u v c = 0 := by
    unfold cross; ring
  have hAC := hx.1
  have hsum : 0 < cross u v a - cross u v c := by
    have e : cross a b c * (cross u v a - cross u v c) = cross a b c * (cross a c v - cross a c u) := by
      have e1 : cross a b v = cross a b c - cross b c v + cross a c v := by linarith
      have e2 : cross a b u = cross a b c - cross b c u + cross a c u := by linarith
      rw [mul_sub, eA, eC, e1, e2]; ring
    have : 0 < cross a b c * (cross u v a - cross u v c) := by
      rw [e]; exact mul_pos h0 (by linarith)
    exact (pos_iff_pos_of_mul_pos this).1 h0
  have hA : 0 < cross u v a := by
    by_contra h
    have h' := not_lt.1 h
    have : cross u v c < 0 := by linarith
    have := mul_nonneg_of_nonpos_of_nonpos h' (le_of_lt this)
    linarith
  have hC : cross u v c < 0 := by
    by_contra h
    have := mul_nonneg (le_of_lt hA) (not_lt.1 h)
    linarith
  have hA' := mul_pos h0 hA
  have hC' := mul_neg_of_pos_of_neg h0 hC
  rw [eA] at hA'
  rw [eC] at hC'
  have gv : cross a b u < 0 → 0 < cross a b v := by
    intro h
    by_contra hc
    have t1 := mul_nonpos_of_nonneg_of_nonpos (show 0 ≤ -cross a c u by linarith) (not_lt.1 hc)
    have t2 := mul_pos_of_neg_of_neg h (show -cross a c v < 0 by linarith)
    linarith
  have av : cross b c u < 0 → 0 < cross b c v := by
    intro h
    by_contra hc
    have t1 := mul_nonpos_of_nonneg_of_nonpos (show 0 ≤ -cross a c u by linarith) (not_lt.1 hc)
    have t2 := mul_pos_of_neg_of_neg h (show -cross a c v < 0 by linarith)
    linarith
  have inside : 0 ≤ cross b c u → 0 ≤ cross a b u → u = b := by
    intro h1 h2
    rcases dtri_corner h0 fa fb fc (q := u) (by rw [cross_rot']; exact h1)
      (by rw [cross_neg]; linarith) h2 (hf u hu) with h | h | h
    · subst h; simp at hbu
    · exact h
    · subst h; simp at hbu
  rcases lt_trichotomy (cross u v b) 0 with hB | hB | hB
  · rcases lt_or_ge (cross a b u) 0 with h | h
    · left
      exact ⟨mul_neg_of_pos_of_neg hA hB, mul_neg_of_neg_of_pos h (gv h)⟩
    · have t1 := mul_neg_of_pos_of_neg (show 0 < -cross a c u by linarith) hB
      have t2 := mul_nonpos_of_nonneg_of_nonpos h (le_of_lt hC)
      have : 0 < cross b c u := by
        by_contra hc
        have := mul_nonpos_of_nonpos_of_nonneg (not_lt.1 hc) (le_of_lt hA)
        linarith
      exact .inr (.inr (inside (le_of_lt this) h))
  · rcases lt_trichotomy (cross b c u) 0 with h | h | h
    · exfalso
      have h2 : cross a b u < 0 := by
        by_contra hc
        have t1 := mul_neg_of_neg_of_pos h hA
        have t2 := mul_nonpos_of_nonneg_of_nonpos (not_lt.1 hc) (le_of_lt hC)
        rw [hB] at syz; linarith
      have bcv := av h
      apply hm
      refine ⟨hB, ?_⟩
      -- `b` lies between `u` and `v`
      have e1 : (diam u v).ev b = dot b u v := by rw [ev_diam]; unfold dot; ring
      rw [e1]
      have hbv : v ≠ b := by rintro rfl; simp at bcv
      have e2 : cross b c u * dot b v v = dot b u v * cross b c v := by
        have := cross_dot' b v u c
        have h3 : cross b v u = 0 := by rw [cross_neg b u v, cross_rot', hB, neg_zero]
        rw [h3, cross_neg b c u, cross_neg b c v, dot_comm b v u] at this
        linarith
      have t1 := mul_neg_of_neg_of_pos h (dot_self_pos hbv)
      by_contra hc
      have := mul_nonneg (not_lt.1 hc) (le_of_lt bcv)
      linarith
    · have h2 : cross a b u = 0 := by
        rw [hB, h] at syz
        have : cross a b u * cross u v c = 0 := by linarith
        rcases mul_eq_zero.1 this with h | h
        · exact h
        · exact absurd h (ne_of_lt hC)
      exact .inr (.inr (inside (le_of_eq h.symm) (le_of_eq h2.symm)))
    · have h2 : 0 < cross a b u := by
        by_contra hc
        have t1 := mul_pos h hA
        have t2 := mul_nonneg_of_nonpos_of_nonpos (not_lt.1 hc) (le_of_lt hC)
        rw [hB] at syz; linarith
      exact .inr (.inr (inside (le_of_lt h) (le_of_lt h2)))
  · rcases lt_or_ge (cross b c u) 0 with h | h
    · right; left
      exact ⟨mul_neg_of_pos_of_neg hB hC, mul_neg_of_neg_of_pos h (av h)⟩
    · have t1 := mul_pos (show 0 < -cross a c u by linarith) hB
      have t2 := mul_nonneg h (le_of_lt hA)
      have : 0 < cross a b u := by
        by_contra hc
        have := mul_nonneg_of_nonpos_of_nonpos (not_lt.1 hc) (le_of_lt hC)
        linarith
      exact .inr (.inr (inside h (le_of_lt this)))

end HG
