import Verif.Lemmas.Orient
import Verif.Lemmas.Hull
import Verif.Lemmas.Star
import Verif.Model.Factories2
import Verif.Spec.Hulls

/-!
# Segments: internal lemmas

Common points of segments; the test `segmentPairCrossOrOverlap` finds all crossings and overlaps.
-/

set_option linter.unusedSectionVars false

namespace HG

open Spec

section
variable {K : Type} [LinearOrder K]

theorem point_ext {p q : Point K} (h1 : p.x = q.x) (h2 : p.y = q.y) : p = q := by
  cases p; cases q; simp_all

theorem lexLt_trichotomy (p q : Point K) : LexLt p q ∨ p = q ∨ LexLt q p := by
  unfold LexLt
  rcases lt_trichotomy p.x q.x with h | h | h
  · exact .inl (.inl h)
  · rcases lt_trichotomy p.y q.y with g | g | g
    · exact .inl (.inr ⟨h, g⟩)
    · exact .inr (.inl (point_ext h g))
    · exact .inr (.inr (.inr ⟨h.symm, g⟩))
  · exact .inr (.inr (.inl h))

theorem lexLt_trans {p q r : Point K} (h : LexLt p q) (g : LexLt q r) : LexLt p r := by
  unfold LexLt at *
  rcases h with h | ⟨h, h'⟩ <;> rcases g with g | ⟨g, g'⟩
  · exact .inl (h.trans g)
  · exact .inl (by rw [← g]; exact h)
  · exact .inl (by rw [h]; exact g)
  · exact .inr ⟨h.trans g, h'.trans g'⟩

theorem lexLt_irrefl (p : Point K) : ¬ LexLt p p := by
  unfold LexLt
  rintro (h | ⟨-, h⟩) <;> exact lt_irrefl _ h

theorem ltB_iff (p q : Point K) : Point.ltB p q = true ↔ LexLt p q := by
  simp [Point.ltB, LexLt]

end

section
variable {K : Type} [CommRing K] [LinearOrder K] [IsStrictOrderedRing K]

/-- A point of a segment is a combination of its endpoints. -/
theorem onSeg_combination {a b p : Point K} (h : OnSeg ⟨a, b⟩ p) :
    ∃ s t : K, 0 ≤ s ∧ 0 ≤ t ∧ 0 < s + t ∧ (s + t) * p.x = s * a.x + t * b.x ∧
      (s + t) * p.y = s * a.y + t * b.y := by
  obtain ⟨hc, h1, h2, h3, h4⟩ := h
  unfold Collinear area2 at hc
  dsimp only at hc h1 h2 h3 h4
  rcases lt_trichotomy a.x b.x with hx | hx | hx
  · rw [min_eq_left hx.le] at h1
    rw [max_eq_right hx.le] at h2
    exact ⟨b.x - p.x, p.x - a.x, by linarith, by linarith, by linarith, by ring,
      by linear_combination hc⟩
  · have hpx : p.x = a.x := by
      rw [hx, min_self] at h1
      rw [hx, max_self] at h2
      linarith
    rcases lt_trichotomy a.y b.y with hy | hy | hy
    · rw [min_eq_left hy.le] at h3
      rw [max_eq_right hy.le] at h4
      exact ⟨b.y - p.y, p.y - a.y, by linarith, by linarith, by linarith, by rw [hpx, ← hx]; ring,
        by ring⟩
    · rw [hy, min_self] at h3
      rw [hy, max_self] at h4
      exact ⟨1, 0, zero_le_one, le_refl _, by simp, by rw [hpx]; ring, by
        have : p.y = a.y := by linarith
        rw [this]; ring⟩
    · rw [min_eq_right hy.le] at h3
      rw [max_eq_left hy.le] at h4
      exact ⟨p.y - b.y, a.y - p.y, by linarith, by linarith, by linarith, by rw [hpx, ← hx]; ring,
        by ring⟩
  · rw [min_eq_right hx.le] at h1
    rw [max_eq_left hx.le] at h2
    exact ⟨p.x - b.x, a.x - p.x, by linarith, by linarith, by linarith, by ring,
      by linear_combination -hc⟩

/-- Signed area with respect to a line at a point of a segment. -/
theorem area2_combination {a b c d p : Point K} {s t : K} (h1 : (s + t) * p.x = s * c.x + t * d.x)
    (h2 : (s + t) * p.y = s * c.y + t * d.y) :
    (s + t) * area2 a b p = s * area2 a b c + t * area2 a b d := by
  unfold area2
  linear_combination (b.x - a.x) * h2 - (b.y - a.y) * h1

/-- An interior point of a segment is a combination with positive weights. -/
theorem onSeg_interior {a b p : Point K} (h : OnSeg ⟨a, b⟩ p) (ha : p ≠ a) (hb : p ≠ b) :
    ∃ s t : K, 0 < s ∧ 0 < t ∧ (s + t) * p.x = s * a.x + t * b.x ∧
      (s + t) * p.y = s * a.y + t * b.y := by
  obtain ⟨s, t, hs, ht, hst, h1, h2⟩ := onSeg_combination h
  refine ⟨s, t, lt_of_le_of_ne hs ?_, lt_of_le_of_ne ht ?_, h1, h2⟩
  · rintro rfl
    simp only [zero_add, zero_mul] at h1 h2 hst
    exact hb (point_ext (mul_left_cancel₀ hst.ne' h1) (mul_left_cancel₀ hst.ne' h2))
  · rintro rfl
    simp only [add_zero, zero_mul] at h1 h2 hst
    exact ha (point_ext (mul_left_cancel₀ hst.ne' h1) (mul_left_cancel₀ hst.ne' h2))

/-- A point of the segment between a point on a line and a point off it, if on the line, is the
former. -/
theorem onSeg_off_line {a b c d p : Point K} (h : OnSeg ⟨c, d⟩ p) (hp : area2 a b p = 0)
    (hc : area2 a b c = 0) (hd : area2 a b d ≠ 0) : p = c := by
  obtain ⟨s, t, hs, ht, hst, h1, h2⟩ := onSeg_combination h
  have : t * area2 a b d = 0 := by
    have e := area2_combination (a := a) (b := b) h1 h2
    rw [hp, hc] at e
    linarith
  have ht0 : t = 0 := by
    rcases mul_eq_zero.1 this with h | h
    · exact h
    · exact absurd h hd
  rw [ht0] at h1 h2 hst
  have hs0 : s ≠ 0 := by rw [add_zero] at hst; exact hst.ne'
  exact point_ext (mul_left_cancel₀ hs0 (by linear_combination h1))
    (mul_left_cancel₀ hs0 (by linear_combination h2))

/-- A segment whose endpoints are on the left of a line does not meet the line. -/
theorem onSeg_left_line {a b c d p : Point K} (h : OnSeg ⟨c, d⟩ p) (hp : area2 a b p = 0)
    (hc : 0 < area2 a b c) (hd : 0 < area2 a b d) : False := by
  obtain ⟨s, t, hs, ht, hst, h1, h2⟩ := onSeg_combination h
  have e := area2_combination (a := a) (b := b) h1 h2
  rw [hp, mul_zero] at e
  have k1 := mul_nonneg hs hc.le
  have k2 := mul_nonneg ht hd.le
  have k3 : s * area2 a b c = 0 := by linarith
  have k4 : t * area2 a b d = 0 := by linarith
  rcases mul_eq_zero.1 k3 with k | k
  · rcases mul_eq_zero.1 k4 with k' | k'
    · rw [k, k'] at hst; simp at hst
    · exact hd.ne' k'
  · exact hc.ne' k

theorem onSeg_swap {a b p : Point K} (h : OnSeg ⟨a, b⟩ p) : OnSeg ⟨b, a⟩ p := by
  obtain ⟨hc, h1, h2, h3, h4⟩ := h
  refine ⟨?_, by rw [min_comm]; exact h1, by rw [max_comm]; exact h2, by rw [min_comm]; exact h3,
    by rw [max_comm]; exact h4⟩
  unfold Collinear area2 at hc ⊢
  dsimp only at hc ⊢
  linear_combination -hc

/-! ## Lexicographic order along a segment -/

/-- Along a segment. -/
theorem onSeg_lex {a b p : Point K} (h : OnSeg ⟨a, b⟩ p) (hab : LexLt a b) :
    (p = a ∨ LexLt a p) ∧ (p = b ∨ LexLt p b) := by
  obtain ⟨hc, h1, h2, h3, h4⟩ := h
  unfold Collinear area2 at hc
  dsimp only at hc h1 h2 h3 h4
  unfold LexLt at *
  rcases hab with hx | ⟨hx, hy⟩
  · rw [min_eq_left hx.le] at h1
    rw [max_eq_right hx.le] at h2
    have hne : b.x - a.x ≠ 0 := by intro e; linarith
    constructor
    · rcases h1.lt_or_eq with h | h
      · exact .inr (.inl h)
      · left
        refine point_ext h.symm (mul_left_cancel₀ hne ?_)
        rw [← h] at hc
        linear_combination hc
    · rcases h2.lt_or_eq with h | h
      · exact .inr (.inl h)
      · left
        refine point_ext h (mul_left_cancel₀ hne ?_)
        rw [h] at hc
        linear_combination hc
  · rw [hx, min_self] at h1
    rw [hx, max_self] at h2
    rw [min_eq_left hy.le] at h3
    rw [max_eq_right hy.le] at h4
    have e : p.x = b.x := le_antisymm h2 h1
    constructor
    · rcases h3.lt_or_eq with h | h
      · exact .inr (.inr ⟨by rw [e, hx], h⟩)
      · exact .inl (point_ext (by rw [e, hx]) h.symm)
    · rcases h4.lt_or_eq with h | h
      · exact .inr (.inr ⟨e, h⟩)
      · exact .inl (point_ext e h)

theorem seg_lo_hi (s : Segment K) (h : s.start ≠ s.stop) :
    LexLt s.lo s.hi ∧ ((s.lo = s.start ∧ s.hi = s.stop) ∨ (s.lo = s.stop ∧ s.hi = s.start)) := by
  unfold Segment.lo Segment.hi
  rcases lexLt_trichotomy s.start s.stop with g | g | g
  · have : Point.leB s.start s.stop = true := by
      rw [leB_iff]
      rcases g with g | g
      · exact .inl g
      · exact .inr ⟨g.1, g.2.le⟩
    rw [if_pos this, if_pos this]
    exact ⟨g, .inl ⟨rfl, rfl⟩⟩
  · exact absurd g h
  · have : ¬ Point.leB s.start s.stop = true := by
      rw [leB_iff]
      rintro (k | k) <;> rcases g with g | g
      · exact lt_asymm g k
      · exact k.ne g.1.symm
      · exact g.ne k.1.symm
      · exact absurd g.2 (not_lt.2 k.2)
    rw [if_neg this, if_neg this]
    exact ⟨g, .inr ⟨rfl, rfl⟩⟩

theorem onSeg_lo_hi {s : Segment K} {p : Point K} (h : s.start ≠ s.stop) (hp : OnSeg s p) :
    (p = s.lo ∨ LexLt s.lo p) ∧ (p = s.hi ∨ LexLt p s.hi) := by
  obtain ⟨h1, ⟨h2, h3⟩ | ⟨h2, h3⟩⟩ := seg_lo_hi s h
  · rw [h2, h3] at h1 ⊢
    exact onSeg_lex hp h1
  · rw [h2, h3] at h1 ⊢
    exact onSeg_lex (onSeg_swap hp) h1

theorem cross_area2 (a b c : Point K) : cross a b c = area2 a b c := by
  unfold cross area2; ring

theorem orient_ne_of {a b c d : Point K} (h : area2 a b c * area2 a b d < 0) :
    orient a b c ≠ .collinear ∧ orient a b d ≠ .collinear ∧ orient a b c ≠ orient a b d := by
  refine ⟨?_, ?_, ?_⟩
  · rw [Ne, orient_col_iff, cross_area2]
    intro e; rw [e] at h; simp at h
  · rw [Ne, orient_col_iff, cross_area2]
    intro e; rw [e] at h; simp at h
  · rcases lt_trichotomy (area2 a b c) 0 with k | k | k
    · rw [(orient_cw_iff a b c).2 (by rw [cross_area2]; exact k)]
      intro e
      have := (orient_cw_iff a b d).1 e.symm
      rw [cross_area2] at this
      nlinarith
    · rw [k] at h; simp at h
    · rw [(orient_ccw_iff a b c).2 (by rw [cross_area2]; exact k)]
      intro e
      have := (orient_ccw_iff a b d).1 e.symm
      rw [cross_area2] at this
      nlinarith

/-- Weighted sum with positive weights that vanishes: both terms vanish or have opposite signs. -/
theorem opposite_of_sum {s t u v : K} (hs : 0 < s) (ht : 0 < t) (h : s * u + t * v = 0) :
    (u = 0 ∧ v = 0) ∨ u * v < 0 := by
  rcases lt_trichotomy u 0 with k | k | k
  · right
    have : 0 < v := by
      by_contra hv
      have := mul_nonneg ht.le (neg_nonneg.2 (not_lt.1 hv))
      nlinarith
    exact mul_neg_of_neg_of_pos k this
  · left
    refine ⟨k, ?_⟩
    rw [k] at h
    simp only [mul_zero, zero_add] at h
    rcases mul_eq_zero.1 h with e | e
    · exact absurd e ht.ne'
    · exact e
  · right
    have : v < 0 := by
      by_contra hv
      have := mul_nonneg ht.le (not_lt.1 hv)
      nlinarith
    exact mul_neg_of_pos_of_neg k this

/-- Collinearity with two different points of a line. -/
theorem collinear_line {a b c d : Point K} (hab : a ≠ b) {q : Point K} (h1 : area2 a b c = 0)
    (h2 : area2 a b d = 0) (h3 : area2 a b q = 0) : area2 c d q = 0 := by
  unfold area2 at *
  by_cases hx : b.x - a.x = 0
  · have hy : b.y - a.y ≠ 0 := by
      intro hy
      exact hab (point_ext (by linear_combination -hx) (by linear_combination -hy))
    have e1 : c.x = a.x := by
      rw [hx, zero_mul, zero_sub, neg_eq_zero] at h1
      rcases mul_eq_zero.1 h1 with e | e
      · exact absurd e hy
      · linear_combination e
    have e2 : d.x = a.x := by
      rw [hx, zero_mul, zero_sub, neg_eq_zero] at h2
      rcases mul_eq_zero.1 h2 with e | e
      · exact absurd e hy
      · linear_combination e
    have e3 : q.x = a.x := by
      rw [hx, zero_mul, zero_sub, neg_eq_zero] at h3
      rcases mul_eq_zero.1 h3 with e | e
      · exact absurd e hy
      · linear_combination e
    rw [e1, e2, e3]; ring
  · refine mul_left_cancel₀ hx ?_
    rw [mul_zero]
    linear_combination (d.x - c.x) * h3 - (q.x - c.x) * h2 + (q.x - d.x) * h1

/-- The test on a pair of segments misses no crossing and no overlap. -/
theorem noCross_of_test {s t : Segment K} (hs : s.start ≠ s.stop) (ht : t.start ≠ t.stop)
    (h : segmentPairCrossOrOverlap s t = false) : NoCross s t := by
  unfold segmentPairCrossOrOverlap at h
  rw [Bool.or_eq_false_iff] at h
  obtain ⟨hx, ho⟩ := h
  -- collinear segments
  have col : area2 s.start s.stop t.start = 0 → area2 s.start s.stop t.stop = 0 →
      ¬ (LexLt s.lo t.hi ∧ LexLt t.lo s.hi) := by
    rintro h1 h2 ⟨h3, h4⟩
    have : segmentsOverlap s t = true := by
      unfold segmentsOverlap
      rw [(ltB_iff _ _).2 h3, (ltB_iff _ _).2 h4, (orient_col_iff _ _ _).2 (by rw [cross_area2]; exact h1),
        (orient_col_iff _ _ _).2 (by rw [cross_area2]; exact h2)]
      rfl
    rw [ho] at this
    cases this
  constructor
  · intro p hp hq
    by_contra hne
    rw [not_or] at hne
    obtain ⟨hne1, hne2⟩ := hne
    unfold IsEnd at hne1 hne2
    rw [not_or] at hne1 hne2
    obtain ⟨a, b, ha, hb, e1, e2⟩ := onSeg_interior hq hne2.1 hne2.2
    obtain ⟨c, d, hc, hd, e3, e4⟩ := onSeg_interior hp hne1.1 hne1.2
    have k1 := area2_combination (a := s.start) (b := s.stop) e1 e2
    have k2 := area2_combination (a := t.start) (b := t.stop) e3 e4
    rw [show area2 s.start s.stop p = 0 from hp.1, mul_zero] at k1
    rw [show area2 t.start t.stop p = 0 from hq.1, mul_zero] at k2
    rcases opposite_of_sum ha hb k1.symm with ⟨z1, z2⟩ | o1
    · apply col z1 z2
      obtain ⟨l1, l2⟩ := onSeg_lo_hi hs hp
      obtain ⟨l3, l4⟩ := onSeg_lo_hi ht hq
      have n1 : p ≠ s.lo ∧ p ≠ s.hi := by
        obtain ⟨-, ⟨e, e'⟩ | ⟨e, e'⟩⟩ := seg_lo_hi s hs <;> rw [e, e']
        exacts [hne1, ⟨hne1.2, hne1.1⟩]
      have n2 : p ≠ t.lo ∧ p ≠ t.hi := by
        obtain ⟨-, ⟨e, e'⟩ | ⟨e, e'⟩⟩ := seg_lo_hi t ht <;> rw [e, e']
        exacts [hne2, ⟨hne2.2, hne2.1⟩]
      exact ⟨lexLt_trans (l1.resolve_left n1.1) (l4.resolve_left n2.2),
        lexLt_trans (l3.resolve_left n2.1) (l2.resolve_left n1.2)⟩
    · rcases opposite_of_sum hc hd k2.symm with ⟨z1, z2⟩ | o2
      · have : area2 s.start s.stop t.start = 0 := collinear_line ht z1 z2 (area2_self _ _)
        rw [this] at o1
        simp at o1
      · obtain ⟨f1, f2, f3⟩ := orient_ne_of o1
        obtain ⟨g1, g2, g3⟩ := orient_ne_of o2
        have : segmentsProperCross s t = true := by
          unfold segmentsProperCross
          simp [f1, f2, f3, g1, g2, g3]
        rw [hx] at this
        cases this
  · intro p q hp1 hp2 hq1 hq2
    by_contra hne
    have c1 : area2 p q s.start = 0 := collinear_line hs hp1.1 hq1.1 (area2_self _ _)
    have c2 : area2 p q s.stop = 0 := collinear_line hs hp1.1 hq1.1 (area2_self' _ _)
    have c3 : area2 p q t.start = 0 := collinear_line ht hp2.1 hq2.1 (area2_self _ _)
    have c4 : area2 p q t.stop = 0 := collinear_line ht hp2.1 hq2.1 (area2_self' _ _)
    have d1 := collinear_line hne c1 c2 c3
    have d2 := collinear_line hne c1 c2 c4
    apply col d1 d2
    have key : ∀ {a b : Point K}, LexLt a b → OnSeg s a → OnSeg s b → OnSeg t a → OnSeg t b →
        LexLt s.lo t.hi ∧ LexLt t.lo s.hi := by
      intro a b hab sa sb ta tb
      obtain ⟨l1, -⟩ := onSeg_lo_hi hs sa
      obtain ⟨-, l2⟩ := onSeg_lo_hi hs sb
      obtain ⟨l3, -⟩ := onSeg_lo_hi ht ta
      obtain ⟨-, l4⟩ := onSeg_lo_hi ht tb
      constructor
      · have : LexLt s.lo b := by
          rcases l1 with e | e
          · rw [← e]; exact hab
          · exact lexLt_trans e hab
        rcases l4 with e | e
        · rw [← e]; exact this
        · exact lexLt_trans this e
      · have : LexLt t.lo b := by
          rcases l3 with e | e
          · rw [← e]; exact hab
          · exact lexLt_trans e hab
        rcases l2 with e | e
        · rw [← e]; exact this
        · exact lexLt_trans this e
    rcases lexLt_trichotomy p q with e | e | e
    · exact key e hp1 hq1 hp2 hq2
    · exact absurd e hne
    · exact key e hq1 hp1 hq2 hp2

end
end HG
