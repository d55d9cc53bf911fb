import Verif.Lemmas.Orient
import Mathlib.Algebra.Order.Field.Basic
import Mathlib.Data.Finset.Max
import Mathlib.Tactic.FieldSimp
import Mathlib.Tactic.LinearCombination
import Mathlib.Tactic.Positivity
import Mathlib.Tactic.Push

/-!
# Circles as functions on the plane

A circle is represented by the function `x² + y² + u x + v y + w`: zero on the circle, negative
strictly inside, positive strictly outside.  The difference of two such functions is affine, which
turns statements about empty circles into linear algebra.
-/

set_option linter.unusedSectionVars false

namespace HG

variable {K : Type} [Field K] [LinearOrder K] [IsStrictOrderedRing K]

/-- Coefficients of `x² + y² + u x + v y + w`. -/
structure Circ (K : Type) where
  u : K
  v : K
  w : K

/-- The value of the circle function at a point. -/
def Circ.ev (f : Circ K) (p : Point K) : K := p.x * p.x + p.y * p.y + f.u * p.x + f.v * p.y + f.w

/-- No point of `P` is strictly inside. -/
def Circ.Empty (f : Circ K) (P : List (Point K)) : Prop := ∀ p ∈ P, 0 ≤ f.ev p

/-- Add a multiple of the signed distance to the line `a b`. -/
def Circ.tilt (f : Circ K) (k : K) (a b : Point K) : Circ K :=
  ⟨f.u - k * (b.y - a.y), f.v + k * (b.x - a.x),
    f.w + k * ((b.y - a.y) * a.x - (b.x - a.x) * a.y)⟩

/-- The circle with diameter `a b`. -/
def diam (a b : Point K) : Circ K := ⟨-(a.x + b.x), -(a.y + b.y), a.x * b.x + a.y * b.y⟩

/-- Scalar product of the vectors from `o` to `a` and to `b`. -/
def dot (o a b : Point K) : K := (a.x - o.x) * (b.x - o.x) + (a.y - o.y) * (b.y - o.y)

/-- `p` is on the open segment `a b`. -/
def Mid (a b p : Point K) : Prop := cross a b p = 0 ∧ (diam a b).ev p < 0

/-- Some circle through `a` and `b` has no point of `P` strictly inside. -/
def Del (P : List (Point K)) (a b : Point K) : Prop := ∃ f : Circ K, f.Empty P ∧ f.ev a = 0 ∧ f.ev b = 0

/-- `a b c` is counterclockwise and its circumscribed circle has no point of `P` strictly
inside. -/
def DTri (P : List (Point K)) (a b c : Point K) : Prop :=
  0 < cross a b c ∧ ∃ f : Circ K, f.Empty P ∧ f.ev a = 0 ∧ f.ev b = 0 ∧ f.ev c = 0

theorem ev_tilt (f : Circ K) (k : K) (a b p : Point K) :
    (f.tilt k a b).ev p = f.ev p + k * cross a b p := by
  unfold Circ.tilt Circ.ev cross; ring

theorem ev_diam (a b p : Point K) :
    (diam a b).ev p = (p.x - a.x) * (p.x - b.x) + (p.y - a.y) * (p.y - b.y) := by
  unfold diam Circ.ev; ring

theorem dot_self_pos {o a : Point K} (h : a ≠ o) : 0 < dot o a a := by
  unfold dot
  by_contra hc
  have h1 : 0 ≤ (a.x - o.x) * (a.x - o.x) := mul_self_nonneg _
  have h2 : 0 ≤ (a.y - o.y) * (a.y - o.y) := mul_self_nonneg _
  have h3 : (a.x - o.x) * (a.x - o.x) = 0 := by linarith
  have h4 : (a.y - o.y) * (a.y - o.y) = 0 := by linarith
  have h5 := mul_self_eq_zero.1 h3
  have h6 := mul_self_eq_zero.1 h4
  apply h
  cases a; cases o; simp only [Point.mk.injEq] at *
  constructor <;> linarith

/-- The difference of two circle functions is affine. -/
theorem aff3 (f g : Circ K) (a b c q : Point K) :
    (f.ev q - g.ev q) * cross a b c = (f.ev a - g.ev a) * cross q b c +
      (f.ev b - g.ev b) * cross a q c + (f.ev c - g.ev c) * cross a b q := by
  unfold Circ.ev cross; ring

/-- The difference of two circle functions along a line. -/
theorem affline (f g : Circ K) (a b p : Point K) :
    (f.ev p - g.ev p) * dot a b b = (f.ev a - g.ev a) * dot b a p + (f.ev b - g.ev b) * dot a b p
      + cross a b p * ((f.v - g.v) * (b.x - a.x) - (f.u - g.u) * (b.y - a.y)) := by
  unfold Circ.ev cross dot; ring

/-- Strict convexity of circle functions. -/
theorem circ3 (f : Circ K) (a b c q : Point K) :
    cross a b c * (f.ev q * cross a b c - f.ev a * cross q b c - f.ev b * cross a q c
      - f.ev c * cross a b q) = - (cross q b c * cross a q c * dot a b b
        + cross a q c * cross a b q * dot b c c + cross q b c * cross a b q * dot a c c) := by
  unfold Circ.ev cross dot; ring

theorem cross_sum (a b c q : Point K) :
    cross q b c + cross a q c + cross a b q = cross a b c := by unfold cross; ring

theorem circ_line {f : Circ K} {a b p : Point K} (hab : a ≠ b) (ha : f.ev a = 0) (hb : f.ev b = 0)
    (hp : cross a b p = 0) : f.ev p = (diam a b).ev p := by
  have h := affline f (diam a b) a b p
  have h1 : (diam a b).ev a = 0 := by rw [ev_diam]; ring
  have h2 : (diam a b).ev b = 0 := by rw [ev_diam]; ring
  rw [ha, hb, hp, h1, h2] at h
  have h3 : 0 < dot a b b := dot_self_pos (Ne.symm hab)
  have h4 : (f.ev p - (diam a b).ev p) * dot a b b = 0 := by rw [h]; ring
  rcases mul_eq_zero.1 h4 with h5 | h5
  · linarith
  · exact absurd h5 (ne_of_gt h3)

theorem mid_neg {f : Circ K} {a b p : Point K} (ha : f.ev a = 0) (hb : f.ev b = 0)
    (hm : Mid a b p) : f.ev p < 0 := by
  have hab : a ≠ b := by
    rintro rfl
    have := hm.2
    rw [ev_diam] at this
    have h1 : 0 ≤ (p.x - a.x) * (p.x - a.x) := mul_self_nonneg _
    have h2 : 0 ≤ (p.y - a.y) * (p.y - a.y) := mul_self_nonneg _
    linarith
  rw [circ_line hab ha hb hm.1]; exact hm.2

theorem Del.not_mid {P : List (Point K)} {a b p : Point K} (h : Del P a b) (hp : p ∈ P) :
    ¬ Mid a b p := by
  obtain ⟨f, hf, ha, hb⟩ := h
  intro hm
  exact absurd (hf p hp) (not_le.2 (mid_neg ha hb hm))

theorem mid_symm {a b p : Point K} (h : Mid a b p) : Mid b a p := by
  refine ⟨by rw [cross_swap12, h.1, neg_zero], ?_⟩
  have := h.2
  rw [ev_diam] at this ⊢
  linarith

theorem Del.symm {P : List (Point K)} {a b : Point K} (h : Del P a b) : Del P b a := by
  obtain ⟨f, hf, ha, hb⟩ := h
  exact ⟨f, hf, hb, ha⟩

theorem Del.mono {P Q : List (Point K)} (hQ : ∀ p ∈ Q, p ∈ P) {a b : Point K} (h : Del P a b) :
    Del Q a b := by
  obtain ⟨f, hf, ha, hb⟩ := h
  exact ⟨f, fun p hp => hf p (hQ p hp), ha, hb⟩

theorem DTri.rot {P : List (Point K)} {a b c : Point K} (h : DTri P a b c) : DTri P b c a := by
  obtain ⟨h0, f, hf, ha, hb, hc⟩ := h
  exact ⟨by rw [cross_rot]; exact h0, f, hf, hb, hc, ha⟩

theorem DTri.del {P : List (Point K)} {a b c : Point K} (h : DTri P a b c) : Del P a b := by
  obtain ⟨h0, f, hf, ha, hb, hc⟩ := h
  exact ⟨f, hf, ha, hb⟩

theorem DTri.mono {P Q : List (Point K)} (hQ : ∀ p ∈ Q, p ∈ P) {a b c : Point K} (h : DTri P a b c) :
    DTri Q a b c := by
  obtain ⟨h0, f, hf, hh⟩ := h
  exact ⟨h0, f, fun p hp => hf p (hQ p hp), hh⟩

/-- The circle through three points in general position. -/
theorem circ_exists {a b c : Point K} (h : cross a b c ≠ 0) :
    ∃ f : Circ K, ∀ p, f.ev p * cross a b c = - inCircleDet p a b c := by
  refine ⟨⟨-((a.x*a.x+a.y*a.y) * (b.y - c.y) + (b.x*b.x+b.y*b.y) * (c.y - a.y)
      + (c.x*c.x+c.y*c.y) * (a.y - b.y)) / cross a b c,
    ((a.x*a.x+a.y*a.y) * (b.x - c.x) + (b.x*b.x+b.y*b.y) * (c.x - a.x)
      + (c.x*c.x+c.y*c.y) * (a.x - b.x)) / cross a b c,
    -((a.x*a.x+a.y*a.y) * (b.x*c.y - b.y*c.x) + (b.x*b.x+b.y*b.y) * (c.x*a.y - c.y*a.x)
      + (c.x*c.x+c.y*c.y) * (a.x*b.y - a.y*b.x)) / cross a b c⟩, fun p => ?_⟩
  unfold Circ.ev
  simp only
  field_simp
  unfold inCircleDet cross
  ring

/-- Circle functions that agree at three points in general position are equal. -/
theorem circ_unique {f g : Circ K} {a b c : Point K} (h : cross a b c ≠ 0) (ha : f.ev a = g.ev a)
    (hb : f.ev b = g.ev b) (hc : f.ev c = g.ev c) (q : Point K) : f.ev q = g.ev q := by
  have := aff3 f g a b c q
  rw [ha, hb, hc] at this
  have h1 : (f.ev q - g.ev q) * cross a b c = 0 := by rw [this]; ring
  rcases mul_eq_zero.1 h1 with h2 | h2
  · linarith
  · exact absurd h2 h

/-- `DTri` in terms of the predicate that the code evaluates. -/
theorem dtri_iff {P : List (Point K)} {a b c : Point K} :
    DTri P a b c ↔ 0 < cross a b c ∧ ∀ p ∈ P, inCircleDet p a b c ≤ 0 := by
  constructor
  · rintro ⟨h0, f, hf, ha, hb, hc⟩
    refine ⟨h0, fun p hp => ?_⟩
    obtain ⟨g, hg⟩ := circ_exists (ne_of_gt h0)
    have e1 : f.ev p = g.ev p := by
      have ga : g.ev a * cross a b c = 0 := by rw [hg]; unfold inCircleDet; ring
      have gb : g.ev b * cross a b c = 0 := by rw [hg]; unfold inCircleDet; ring
      have gc : g.ev c * cross a b c = 0 := by rw [hg]; unfold inCircleDet; ring
      have hn := ne_of_gt h0
      apply circ_unique hn
      · rw [ha]; exact ((mul_eq_zero.1 ga).resolve_right hn).symm
      · rw [hb]; exact ((mul_eq_zero.1 gb).resolve_right hn).symm
      · rw [hc]; exact ((mul_eq_zero.1 gc).resolve_right hn).symm
    have h1 := hf p hp
    rw [e1] at h1
    have h2 := hg p
    have h3 : 0 ≤ g.ev p * cross a b c := mul_nonneg h1 (le_of_lt h0)
    linarith
  · rintro ⟨h0, h⟩
    obtain ⟨g, hg⟩ := circ_exists (ne_of_gt h0)
    have hn := ne_of_gt h0
    refine ⟨h0, g, fun p hp => ?_, ?_, ?_, ?_⟩
    · by_contra hc
      have := mul_neg_of_neg_of_pos (not_le.1 hc) h0
      have h2 := h p hp
      rw [hg] at this
      linarith
    · have : g.ev a * cross a b c = 0 := by rw [hg]; unfold inCircleDet; ring
      exact (mul_eq_zero.1 this).resolve_right hn
    · have : g.ev b * cross a b c = 0 := by rw [hg]; unfold inCircleDet; ring
      exact (mul_eq_zero.1 this).resolve_right hn
    · have : g.ev c * cross a b c = 0 := by rw [hg]; unfold inCircleDet; ring
      exact (mul_eq_zero.1 this).resolve_right hn

/-- A circle zero at the corners of a triangle is negative at every other point of it. -/
theorem dtri_neg {f : Circ K} {a b c q : Point K} (h0 : 0 < cross a b c) (ha : f.ev a ≤ 0)
    (hb : f.ev b ≤ 0) (hc : f.ev c ≤ 0) (h1 : 0 ≤ cross q b c) (h2 : 0 ≤ cross a q c)
    (h3 : 0 ≤ cross a b q) : f.ev q ≤ 0 := by
  have h := circ3 f a b c q
  have d1 : 0 ≤ dot a b b := by unfold dot; nlinarith [mul_self_nonneg (b.x - a.x), mul_self_nonneg (b.y - a.y)]
  have d2 : 0 ≤ dot b c c := by unfold dot; nlinarith [mul_self_nonneg (c.x - b.x), mul_self_nonneg (c.y - b.y)]
  have d3 : 0 ≤ dot a c c := by unfold dot; nlinarith [mul_self_nonneg (c.x - a.x), mul_self_nonneg (c.y - a.y)]
  have e1 := mul_nonneg (mul_nonneg h1 h2) d1
  have e2 := mul_nonneg (mul_nonneg h2 h3) d2
  have e3 := mul_nonneg (mul_nonneg h1 h3) d3
  have h4 : cross a b c * (f.ev q * cross a b c - f.ev a * cross q b c - f.ev b * cross a q c
      - f.ev c * cross a b q) ≤ 0 := by rw [h]; linarith
  have h5 : f.ev q * cross a b c - f.ev a * cross q b c - f.ev b * cross a q c
      - f.ev c * cross a b q ≤ 0 := by
    by_contra hh
    have := mul_pos h0 (not_le.1 hh)
    linarith
  have g1 := mul_nonneg (neg_nonneg.2 ha) h1
  have g2 := mul_nonneg (neg_nonneg.2 hb) h2
  have g3 := mul_nonneg (neg_nonneg.2 hc) h3
  have h6 : f.ev q * cross a b c ≤ 0 := by nlinarith
  by_contra hh
  have := mul_pos (not_le.1 hh) h0
  linarith

/-- A point of a triangle that is not strictly inside its circumscribed circle is a corner. -/
theorem dtri_corner {f : Circ K} {a b c q : Point K} (h0 : 0 < cross a b c) (ha : f.ev a = 0)
    (hb : f.ev b = 0) (hc : f.ev c = 0) (h1 : 0 ≤ cross q b c) (h2 : 0 ≤ cross a q c)
    (h3 : 0 ≤ cross a b q) (hq : 0 ≤ f.ev q) : q = a ∨ q = b ∨ q = c := by
  have h := circ3 f a b c q
  have nab : a ≠ b := by rintro rfl; simp at h0
  have nbc : b ≠ c := by rintro rfl; simp at h0
  have nac : a ≠ c := by rintro rfl; simp at h0
  have d1 := dot_self_pos (Ne.symm nab)
  have d2 := dot_self_pos (Ne.symm nbc)
  have d3 := dot_self_pos (Ne.symm nac)
  rw [ha, hb, hc] at h
  have h4 : 0 ≤ cross a b c * (f.ev q * cross a b c) :=
    mul_nonneg (le_of_lt h0) (mul_nonneg hq (le_of_lt h0))
  have e1 := mul_nonneg (mul_nonneg h1 h2) (le_of_lt d1)
  have e2 := mul_nonneg (mul_nonneg h2 h3) (le_of_lt d2)
  have e3 := mul_nonneg (mul_nonneg h1 h3) (le_of_lt d3)
  have z1 : cross q b c * cross a q c * dot a b b = 0 := by nlinarith
  have z2 : cross a q c * cross a b q * dot b c c = 0 := by nlinarith
  have z3 : cross q b c * cross a b q * dot a c c = 0 := by nlinarith
  have y1 := (mul_eq_zero.1 z1).resolve_right (ne_of_gt d1)
  have y2 := (mul_eq_zero.1 z2).resolve_right (ne_of_gt d2)
  have y3 := (mul_eq_zero.1 z3).resolve_right (ne_of_gt d3)
  have hs := cross_sum a b c q
  -- two of the three coordinates vanish
  have key : ∀ {a b c : Point K}, 0 < cross a b c → cross a q c = 0 → cross a b q = 0 → q = a := by
    intro a b c h0 h1 h2
    have ex : (q.x - a.x) * cross a b c = 0 := by
      have : (q.x - a.x) * cross a b c = cross a b q * (c.x - a.x) + cross a q c * (b.x - a.x) := by
        unfold cross; ring
      rw [this, h1, h2]; ring
    have ey : (q.y - a.y) * cross a b c = 0 := by
      have : (q.y - a.y) * cross a b c = cross a b q * (c.y - a.y) + cross a q c * (b.y - a.y) := by
        unfold cross; ring
      rw [this, h1, h2]; ring
    have ex' := (mul_eq_zero.1 ex).resolve_right (ne_of_gt h0)
    have ey' := (mul_eq_zero.1 ey).resolve_right (ne_of_gt h0)
    cases q; cases a; simp only [Point.mk.injEq] at *
    constructor <;> linarith
  rcases mul_eq_zero.1 y1 with z | z
  · rcases mul_eq_zero.1 y2 with w | w
    · right; right
      refine key (a := c) (b := a) (c := b) (by rw [cross_rot']; exact h0) ?_ ?_
      · linarith [cross_rot q b c, cross_rot' q b c]
      · linarith [cross_rot a q c, cross_rot' a q c]
    · right; left
      refine key (a := b) (b := c) (c := a) (by rw [cross_rot]; exact h0) ?_ ?_
      · linarith [cross_rot a b q, cross_rot' a b q]
      · linarith [cross_rot q b c, cross_rot' q b c]
  · rcases mul_eq_zero.1 y3 with w | w
    · right; right
      refine key (a := c) (b := a) (c := b) (by rw [cross_rot']; exact h0) ?_ ?_
      · linarith [cross_rot q b c, cross_rot' q b c]
      · linarith [cross_rot a q c, cross_rot' a q c]
    · left
      exact key h0 z w

end HG
