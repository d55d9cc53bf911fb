import Verif.Delaunay.SimpleCyc
import Verif.Lemmas.Separation

/-!
# Segments that meet a triangle
-/

set_option linter.unusedSectionVars false

namespace HG

open Spec

variable {K : Type} [CommRing K] [LinearOrder K] [IsStrictOrderedRing K]

theorem onSeg_of_combination {a b p : Point K} {s t : K} (hs : 0 ≤ s) (ht : 0 ≤ t) (h0 : 0 < s + t)
    (h1 : (s + t) * p.x = s * a.x + t * b.x) (h2 : (s + t) * p.y = s * a.y + t * b.y) :
    OnSeg ⟨a, b⟩ p := by
  have h00 := mul_pos h0 h0
  have key : ∀ u v w : K, (s + t) * w = s * u + t * v → 0 ≤ (w - u) * (v - w) := by
    intro u v w h
    have e1 : (s + t) * (w - u) = t * (v - u) := by linear_combination h
    have e2 : (s + t) * (v - w) = s * (v - u) := by linear_combination - h
    have e3 : (s + t) * (s + t) * ((w - u) * (v - w)) = t * s * ((v - u) * (v - u)) := by
      linear_combination (s + t) * (v - w) * e1 + t * (v - u) * e2
    by_contra hc
    have := mul_neg_of_pos_of_neg h00 (not_le.1 hc)
    have := mul_nonneg (mul_nonneg ht hs) (mul_self_nonneg (v - u))
    linarith
  refine onSeg_iff.2 ⟨?_, key _ _ _ h1, key _ _ _ h2⟩
  have : (s + t) * cross a b p = 0 := by
    unfold cross
    linear_combination (b.x - a.x) * h2 - (b.y - a.y) * h1
  exact (mul_eq_zero.1 this).resolve_left h0.ne'

theorem onSeg_self {a p : Point K} (h : OnSeg ⟨a, a⟩ p) : p = a := by
  obtain ⟨-, h1, h2, h3, h4⟩ := h
  dsimp only at h1 h2 h3 h4
  rw [min_self] at h1 h3
  rw [max_self] at h2 h4
  cases p; cases a
  simp only [Point.mk.injEq]
  exact ⟨le_antisymm h2 h1, le_antisymm h4 h3⟩

/-- Segments with a common point meet. -/
theorem meets_of_common {s t : Segment K} {p : Point K} (hs : OnSeg s p) (ht : OnSeg t p) : Meets s t := by
  obtain ⟨a, b⟩ := s
  obtain ⟨c, d⟩ := t
  unfold Meets
  dsimp only
  by_cases hab : a = b
  · subst hab
    have := onSeg_self hs
    subst this; tauto
  by_cases hcd : c = d
  · subst hcd
    have := onSeg_self ht
    subst this; tauto
  rcases onSeg_cases hab hs with rfl | rfl | h1
  · tauto
  · tauto
  rcases onSeg_cases hcd ht with rfl | rfl | h2
  · tauto
  · tauto
  rcases meet_cases hab hcd h1 h2 with h | h | h | h | h | ⟨rfl, rfl⟩ | ⟨rfl, rfl⟩
  · left
    obtain ⟨h, h'⟩ := h
    rw [cross_area2, cross_area2] at h h'
    exact ⟨h, h'⟩
  · exact .inr (.inl (inside_onSeg h))
  · exact .inr (.inr (.inl (inside_onSeg h)))
  · exact .inr (.inr (.inr (.inl (inside_onSeg h))))
  · exact .inr (.inr (.inr (.inr (inside_onSeg h))))
  · exact .inr (.inl (onSeg_start _))
  · exact .inr (.inl (onSeg_stop _))

theorem Meets.swap {a b : Point K} {t : Segment K} (h : Meets ⟨a, b⟩ t) : Meets ⟨b, a⟩ t := by
  unfold Meets at *
  rcases h with h | h | h | h | h
  · left
    obtain ⟨h1, h2⟩ := h
    refine ⟨?_, by rw [mul_comm]; exact h2⟩
    have e : ∀ w, area2 b a w = - area2 a b w := fun w => by unfold area2; ring
    dsimp only at h1 ⊢
    rw [e, e]; linarith
  · exact .inr (.inl (onSeg_swap h))
  · exact .inr (.inr (.inl (onSeg_swap h)))
  · exact .inr (.inr (.inr (.inr h)))
  · exact .inr (.inr (.inr (.inl h)))

/-- A segment that leaves a triangle through the line of a side meets that side. -/
theorem exit_side {a b c h h' q : Point K} (T : 0 < cross a b c) (hq : OnSeg ⟨h, h'⟩ q)
    (F : 0 ≤ cross a b q) (G : cross a b h < 0) (q1 : 0 ≤ cross b c q) (q2 : 0 ≤ cross c a q)
    (A : 0 ≤ cross a b q * cross b c h - cross a b h * cross b c q)
    (B : 0 ≤ cross a b q * cross c a h - cross a b h * cross c a q) : Meets ⟨a, b⟩ ⟨h, h'⟩ := by
  have idx : ∀ w : Point K, cross b c w * a.x + cross c a w * b.x + cross a b w * c.x = cross a b c * w.x := by
    intro w; unfold cross; ring
  have idy : ∀ w : Point K, cross b c w * a.y + cross c a w * b.y + cross a b w * c.y = cross a b c * w.y := by
    intro w; unfold cross; ring
  have id1 : ∀ w : Point K, cross b c w + cross c a w + cross a b w = cross a b c := by
    intro w; unfold cross; ring
  rcases eq_or_lt_of_le F with F0 | F
  · have k := id1 q
    rw [← F0, add_zero] at k
    have hx := idx q
    have hy := idy q
    rw [← F0, ← k] at hx hy
    have : OnSeg ⟨a, b⟩ q := onSeg_of_combination q1 q2 (by rw [k]; exact T) (by linarith) (by linarith)
    exact meets_of_common this hq
  obtain ⟨s, t, hs, ht, hst, e1, e2⟩ := onSeg_combination hq
  set f := cross a b q with hf
  obtain ⟨g, hg⟩ : ∃ g, g = - cross a b h := ⟨_, rfl⟩
  have hg' : cross a b h = -g := by linarith
  rw [hg'] at A B G
  have g0 : 0 < g := by linarith
  obtain ⟨α, hα⟩ : ∃ α, α = f * cross b c h - -g * cross b c q := ⟨_, rfl⟩
  obtain ⟨β, hβ⟩ : ∃ β, β = f * cross c a h - -g * cross c a q := ⟨_, rfl⟩
  rw [← hα] at A
  rw [← hβ] at B
  have S0 : 0 < f + g := by linarith
  have sum : α + β = (f + g) * cross a b c := by
    rw [hα, hβ]
    linear_combination f * id1 h + g * id1 q - f * hg' + g * hf
  have px : α * a.x + β * b.x = cross a b c * (f * h.x + g * q.x) := by
    rw [hα, hβ]
    linear_combination f * idx h + g * idx q - f * c.x * hg' + g * c.x * hf
  have py : α * a.y + β * b.y = cross a b c * (f * h.y + g * q.y) := by
    rw [hα, hβ]
    linear_combination f * idy h + g * idy q - f * c.y * hg' + g * c.y * hf
  have w0 : 0 ≤ (s + t) * f + g * s := add_nonneg (mul_nonneg hst.le F.le) (mul_nonneg g0.le hs)
  have w1 : 0 ≤ g * t := mul_nonneg g0.le ht
  have w2 : (s + t) * f + g * s + g * t = (s + t) * (f + g) := by ring
  have w3 : 0 < (s + t) * f + g * s + g * t := by rw [w2]; exact mul_pos hst S0
  have vert : ∀ z : Point K, (f + g) * z.x = f * h.x + g * q.x → (f + g) * z.y = f * h.y + g * q.y →
      OnSeg ⟨h, h'⟩ z := by
    intro z zx zy
    refine onSeg_of_combination w0 w1 w3 ?_ ?_
    · linear_combination (s + t) * zx + g * e1
    · linear_combination (s + t) * zy + g * e2
  rcases eq_or_lt_of_le A with A0 | A
  · right; right; right; right
    have sb : β = (f + g) * cross a b c := by rw [← sum, ← A0, zero_add]
    rw [← A0, sb] at px py
    exact vert b (mul_left_cancel₀ T.ne' (by linear_combination px))
      (mul_left_cancel₀ T.ne' (by linear_combination py))
  rcases eq_or_lt_of_le B with B0 | B
  · right; right; right; left
    have sb : α = (f + g) * cross a b c := by rw [← sum, ← B0, add_zero]
    rw [← B0, sb] at px py
    exact vert a (mul_left_cancel₀ T.ne' (by linear_combination px))
      (mul_left_cancel₀ T.ne' (by linear_combination py))
  left
  have hh' : 0 < cross a b h' := by
    have e := area2_combination (a := a) (b := b) e1 e2
    rw [← cross_area2, ← cross_area2, ← cross_area2, ← hf, hg'] at e
    by_contra hc
    have l1 := mul_pos hst F
    have l2 := mul_nonneg hs g0.le
    have l3 := mul_nonneg ht (show 0 ≤ - cross a b h' by linarith)
    linarith
  refine ⟨?_, ?_⟩
  · show area2 a b h * area2 a b h' < 0
    rw [← cross_area2, ← cross_area2]
    exact mul_neg_of_neg_of_pos (by linarith) hh'
  · show area2 h h' a * area2 h h' b < 0
    rw [← cross_area2, ← cross_area2]
    have L : α * cross h h' a + β * cross h h' b = 0 := by
      have lq : cross h h' q = 0 := by rw [cross_area2]; exact hq.1
      have : α * cross h h' a + β * cross h h' b = cross a b c * g * cross h h' q := by
        unfold cross at lq ⊢
        unfold cross at px py sum
        linear_combination (h'.x - h.x) * py - (h'.y - h.y) * px - ((h'.x - h.x) * h.y - (h'.y - h.y) * h.x) * sum
      rw [this, lq, mul_zero]
    rcases lt_trichotomy (cross h h' a) 0 with l | l | l
    · refine mul_neg_of_neg_of_pos l ?_
      by_contra hc
      have := mul_neg_of_pos_of_neg A l
      have := mul_nonpos_of_nonneg_of_nonpos B.le (not_lt.1 hc)
      linarith
    · exfalso
      rw [l, mul_zero, zero_add] at L
      have lb := (mul_eq_zero.1 L).resolve_left B.ne'
      have hne : h' ≠ h := by
        rintro rfl
        rw [hg'] at hh'; linarith
      have := rcol3 hne l lb (show cross h h' h = 0 by simp)
      rw [hg'] at this; linarith
    · refine mul_neg_of_pos_of_neg l ?_
      by_contra hc
      have := mul_pos A l
      have := mul_nonneg B.le (not_lt.1 hc)
      linarith

/-- A segment with a point in a triangle and an endpoint outside meets a side. -/
theorem tri_meets {a b c h h' q : Point K} (T : 0 < cross a b c) (hq : OnSeg ⟨h, h'⟩ q)
    (qa : 0 ≤ cross a b q) (qb : 0 ≤ cross b c q) (qc : 0 ≤ cross c a q)
    (ho : ¬ (0 ≤ cross a b h ∧ 0 ≤ cross b c h ∧ 0 ≤ cross c a h)) :
    Meets ⟨a, b⟩ ⟨h, h'⟩ ∨ Meets ⟨b, c⟩ ⟨h, h'⟩ ∨ Meets ⟨c, a⟩ ⟨h, h'⟩ := by
  have T2 : 0 < cross b c a := by rw [cross_rot]; exact T
  have T3 : 0 < cross c a b := by rw [cross_rot]; exact T2
  have E1 := exit_side T hq qa
  have E2 := exit_side T2 hq qb
  have E3 := exit_side T3 hq qc
  -- the order of the exits
  have cmp : ∀ {f u g v : K}, 0 ≤ f → 0 ≤ g → u < 0 → 0 ≤ v → 0 ≤ f * v - u * g := by
    intro f u g v hf hg hu hv
    have := mul_nonneg hf hv
    have := mul_nonneg (show 0 ≤ -u by linarith) hg
    linarith
  have tr : ∀ {f u g v k w : K}, u < 0 → v < 0 → w < 0 → 0 ≤ f * v - u * g → 0 ≤ g * w - v * k →
      0 ≤ f * w - u * k := by
    intro f u g v k w hu hv hw h1 h2
    have l1 := mul_nonpos_of_nonneg_of_nonpos h1 hw.le
    have l2 := mul_nonpos_of_nonneg_of_nonpos h2 hu.le
    by_contra hc
    have l3 := mul_pos_of_neg_of_neg (not_le.1 hc) hv
    nlinarith
  generalize cross a b q = f at *
  generalize cross b c q = g at *
  generalize cross c a q = k at *
  generalize cross a b h = u at *
  generalize cross b c h = v at *
  generalize cross c a h = w at *
  rcases lt_or_ge u 0 with hu | hu <;> rcases lt_or_ge v 0 with hv | hv <;>
    rcases lt_or_ge w 0 with hw | hw
  · rcases le_total 0 (f * v - u * g) with h1 | h1
    · rcases le_total 0 (f * w - u * k) with h2 | h2
      · exact .inl (E1 hu qb qc h1 h2)
      · have h2' : 0 ≤ k * u - w * f := by linarith
        exact .inr (.inr (E3 hw qa qb h2' (tr hw hu hv h2' h1)))
    · have h1' : 0 ≤ g * u - v * f := by linarith
      rcases le_total 0 (g * w - v * k) with h2 | h2
      · exact .inr (.inl (E2 hv qc qa h2 h1'))
      · have h2' : 0 ≤ k * v - w * g := by linarith
        exact .inr (.inr (E3 hw qa qb (tr hw hv hu h2' h1') h2'))
  · rcases le_total 0 (f * v - u * g) with h1 | h1
    · exact .inl (E1 hu qb qc h1 (cmp qa qc hu hw))
    · exact .inr (.inl (E2 hv qc qa (cmp qb qc hv hw) (by linarith)))
  · rcases le_total 0 (f * w - u * k) with h1 | h1
    · exact .inl (E1 hu qb qc (cmp qa qb hu hv) h1)
    · exact .inr (.inr (E3 hw qa qb (by linarith) (cmp qc qb hw hv)))
  · exact .inl (E1 hu qb qc (cmp qa qb hu hv) (cmp qa qc hu hw))
  · rcases le_total 0 (g * w - v * k) with h1 | h1
    · exact .inr (.inl (E2 hv qc qa h1 (cmp qb qa hv hu)))
    · exact .inr (.inr (E3 hw qa qb (cmp qc qa hw hu) (by linarith)))
  · exact .inr (.inl (E2 hv qc qa (cmp qb qc hv hw) (cmp qb qa hv hu)))
  · exact .inr (.inr (E3 hw qa qb (cmp qc qa hw hu) (cmp qc qb hw hv)))
  · exact absurd ⟨hu, hv, hw⟩ ho

/-- Removing straight vertices of a simple polygon adds no meeting. -/
theorem SC.compress_meets {l : List (Point K)} (h : SC l) {t : Segment K}
    (hn : ∀ i, ¬ Meets (edge l i) t) : ∀ i, ¬ Meets (edge (compressContour l) i) t := by
  have key := compress_ind (Q := fun l => SC l ∧ ∀ i < l.length, ¬ Meets (edge l i) t) (l := l) (by
    intro l d h3 hd h0 ⟨sc, hn⟩
    refine ⟨sc.erase hd h0, fun i hi hm => ?_⟩
    have hn' : ∀ i, ¬ Meets (edge l i) t := fun i => by
      rw [← edge_mod]; exact hn _ (sc.idx i)
    rcases edge_erase h3 hd hi with ⟨j, -, -, -, -, e⟩ | ⟨e, -⟩
    · rw [e] at hm; exact hn' _ hm
    · rw [e] at hm
      have hin := sc.straight h0
      have n1 := hn' (d + (l.length - 1))
      rw [sc.edge_prev] at n1
      have n2 := hn' d
      unfold edge at n2
      unfold Meets at hm n1 n2
      dsimp only at hm n1 n2
      obtain ⟨u, v⟩ := t
      rcases hm with hm | hm | hm | hm | hm
      · rcases properCross_split hin hm with h | h | h <;> tauto
      · rcases onSeg_split hin hm with h | h <;> tauto
      · rcases onSeg_split hin hm with h | h <;> tauto
      · tauto
      · tauto) ⟨h, fun i _ => hn i⟩
  intro i
  rw [← edge_mod]
  exact key.2 _ (key.1.idx i)

end HG
