import Verif.Delaunay.Face

/-!
# Collinear points, over ordered rings
-/

set_option linter.unusedSectionVars false

namespace HG

variable {K : Type} [CommRing K] [LinearOrder K] [IsStrictOrderedRing K]

/-- Scalar product of the vectors from `o` to `a` and to `b`. -/
def rdot (o a b : Point K) : K := (a.x - o.x) * (b.x - o.x) + (a.y - o.y) * (b.y - o.y)

theorem rdot_self_pos {o a : Point K} (h : a ≠ o) : 0 < rdot o a a := by
  unfold rdot
  rcases a with ⟨ax, ay⟩; rcases o with ⟨ox, oy⟩
  dsimp only
  by_cases hx : ax - ox = 0
  · have hy : ay - oy ≠ 0 := by
      intro hy
      exact h (by rw [sub_eq_zero.1 hx, sub_eq_zero.1 hy])
    have := mul_self_pos.2 hy
    rw [hx]; linarith
  · have := mul_self_pos.2 hx
    have := mul_self_nonneg (ay - oy)
    linarith

theorem rdot_cross_sq (o a b : Point K) :
    rdot o a b * rdot o a b + cross o a b * cross o a b = rdot o a a * rdot o b b := by
  unfold rdot cross; ring

theorem rcross_dot (a b u v : Point K) :
    cross a u v * rdot a b b = rdot a b u * cross a b v - rdot a b v * cross a b u := by
  unfold rdot cross; ring

theorem rcol3 {s p x y z : Point K} (hp : p ≠ s) (hx : cross s p x = 0) (hy : cross s p y = 0)
    (hz : cross s p z = 0) : cross x y z = 0 := by
  have d := ne_of_gt (rdot_self_pos hp)
  have z0 : ∀ {u v}, cross s p u = 0 → cross s p v = 0 → cross s u v = 0 := by
    intro u v hu hv
    have e := rcross_dot s p u v
    rw [hu, hv, mul_zero, mul_zero, sub_zero] at e
    exact (mul_eq_zero.1 e).resolve_right d
  have e : cross x y z = cross s x y + cross s y z + cross s z x := by unfold cross; ring
  rw [e, z0 hx hy, z0 hy hz, z0 hz hx]; ring

theorem inside_iff {a b p : Point K} : Inside a b p ↔ cross a b p = 0 ∧ rdot p a b < 0 := Iff.rfl

theorem inside_symm {a b p : Point K} (h : Inside a b p) : Inside b a p := by
  refine ⟨?_, ?_⟩
  · have := h.1; unfold cross at *; linarith
  · have := h.2; linarith

theorem rray_eq {r w n : Point K} (h0 : cross r w n = 0) (h1 : 0 < rdot r w n) (h2 : ¬ Inside r w n)
    (h3 : ¬ Inside r n w) : n = w := by
  have d1 : rdot n r w = rdot r n n - rdot r w n := by unfold rdot; ring
  have d2 : rdot w r n = rdot r w w - rdot r w n := by unfold rdot; ring
  have e1 : rdot r w n ≤ rdot r n n := by
    by_contra hc
    exact h2 (inside_iff.2 ⟨h0, by rw [d1]; linarith⟩)
  have e2 : rdot r w n ≤ rdot r w w := by
    by_contra hc
    exact h3 (inside_iff.2 ⟨by rw [cross_swap23, h0, neg_zero], by rw [d2]; linarith⟩)
  have e3 := rdot_cross_sq r w n
  rw [h0] at e3
  have e4 : rdot r w w = rdot r w n := by nlinarith
  have e5 : rdot r n n = rdot r w n := by nlinarith
  by_contra hne
  have := rdot_self_pos hne
  have e6 : rdot w n n = rdot r w w + rdot r n n - 2 * rdot r w n := by unfold rdot; ring
  linarith

theorem rdot_ne_zero {r w n : Point K} (hw : w ≠ r) (hn : n ≠ r) (h0 : cross r w n = 0) :
    rdot r w n ≠ 0 := by
  intro h
  have h1 := rdot_cross_sq r w n
  rw [h, h0] at h1
  have := mul_pos (rdot_self_pos hw) (rdot_self_pos hn)
  rw [← h1] at this
  simp at this

/-- Lexicographically positive vectors. -/
def LexPos (u : K × K) : Prop := 0 < u.1 ∨ (u.1 = 0 ∧ 0 < u.2)

theorem LexPos.nonneg {u : K × K} (h : LexPos u) : 0 ≤ u.1 := by
  rcases h with h | ⟨h, -⟩
  · exact h.le
  · exact h.ge

/-- Directions in a half-plane that are cyclically ordered are equal. -/
theorem lex_cone {u v q : K × K} (hu : LexPos u) (hv : LexPos v) (hq : LexPos q)
    (h1 : 0 ≤ u.1 * q.2 - u.2 * q.1) (h2 : 0 ≤ q.1 * v.2 - q.2 * v.1)
    (h3 : 0 ≤ v.1 * u.2 - v.2 * u.1) : v.1 * u.2 - v.2 * u.1 = 0 := by
  have id1 : (u.1 * q.2 - u.2 * q.1) * v.1 + (q.1 * v.2 - q.2 * v.1) * u.1
      + (v.1 * u.2 - v.2 * u.1) * q.1 = 0 := by ring
  have t1 := mul_nonneg h1 hv.nonneg
  have t2 := mul_nonneg h2 hu.nonneg
  have t3 := mul_nonneg h3 hq.nonneg
  rcases hq with hq | ⟨hq, hq'⟩
  · have : (v.1 * u.2 - v.2 * u.1) * q.1 = 0 := by linarith
    exact (mul_eq_zero.1 this).resolve_right (ne_of_gt hq)
  · rw [hq] at h2
    have hv0 : v.1 = 0 := by
      refine le_antisymm ?_ hv.nonneg
      by_contra hc
      have := mul_pos hq' (not_le.1 hc)
      linarith
    have hv2 : 0 < v.2 := by
      rcases hv with h | h
      · rw [hv0] at h; exact absurd h (lt_irrefl _)
      · exact h.2
    have hu0 : u.1 = 0 := by
      refine le_antisymm ?_ hu.nonneg
      by_contra hc
      have := mul_pos hv2 (not_le.1 hc)
      rw [hv0] at h3
      linarith
    rw [hv0, hu0]; ring

theorem lex_dot {u v : K × K} (hu : LexPos u) (hv : LexPos v) (h : v.1 * u.2 - v.2 * u.1 = 0) :
    0 < u.1 * v.1 + u.2 * v.2 := by
  rcases hu with hu | ⟨hu, hu'⟩
  · rcases hv with hv | ⟨hv, hv'⟩
    · have h2 : 0 ≤ u.2 * v.2 := by
        have e : (u.2 * v.2) * (u.1 * v.1) = (v.2 * u.1) * (v.2 * u.1) := by
          have : v.1 * u.2 = v.2 * u.1 := by linarith
          rw [← this]
          calc u.2 * v.2 * (u.1 * v.1) = (v.1 * u.2) * (v.2 * u.1) := by ring
            _ = _ := by rw [this]
        by_contra hc
        have := mul_neg_of_neg_of_pos (not_le.1 hc) (mul_pos hu hv)
        have := mul_self_nonneg (v.2 * u.1)
        linarith
      have := mul_pos hu hv
      linarith
    · exfalso
      rw [hv] at h
      have := mul_pos hv' hu
      linarith
  · rw [hu] at h ⊢
    have hv0 : v.1 * u.2 = 0 := by linarith
    have hv0 := (mul_eq_zero.1 hv0).resolve_right (ne_of_gt hu')
    have hv2 : 0 < v.2 := by
      rcases hv with h | h
      · rw [hv0] at h; exact absurd h (lt_irrefl _)
      · exact h.2
    have := mul_pos hu' hv2
    rw [hv0]; linarith

theorem lexPos_of {a b : Point K} (h : Point.leB a b = true) (hne : b ≠ a) :
    LexPos (b.x - a.x, b.y - a.y) := by
  rcases (leB_iff a b).1 h with h | ⟨h, h'⟩
  · exact .inl (by simpa using h)
  · refine .inr ⟨by simp [h], ?_⟩
    have : a.y ≠ b.y := by
      intro e
      rcases a with ⟨ax, ay⟩; rcases b with ⟨bx, b_y⟩
      simp only at h e
      exact hne (by rw [h, e])
    simpa using lt_of_le_of_ne h' this

end HG
