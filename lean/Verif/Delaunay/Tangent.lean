import Verif.Delaunay.Loop

/-!
# The lower common tangent
-/

set_option linter.unusedSectionVars false

namespace HG

variable {K : Type} [Field K] [LinearOrder K] [IsStrictOrderedRing K]
variable {L R P : List (Point K)}

/-- A linear functional. -/
def sg (kx ky : K) (p : Point K) : K := kx * p.x + ky * p.y

theorem sg_mir (kx ky : K) (p : Point K) : sg kx (-ky) (mir p) = - sg kx ky p := by
  unfold sg mir; ring

theorem sg_rot3 (kx ky : K) (o a b c : Point K) : (sg kx ky a - sg kx ky o) * cross o b c
    + (sg kx ky b - sg kx ky o) * cross o c a + (sg kx ky c - sg kx ky o) * cross o a b = 0 := by
  unfold sg cross; ring

theorem sg_line (kx ky : K) (x p c : Point K) :
    dot x p c * (sg kx ky c - sg kx ky x) = dot x c c * (sg kx ky p - sg kx ky x)
      - cross x p c * (kx * (c.y - x.y) - ky * (c.x - x.x)) := by
  unfold dot cross sg; ring

theorem mid_dot {a b x : Point K} (h : Mid a b x) : 0 < dot a b x := by
  have e1 : (diam a b).ev x = dot x a b := by rw [ev_diam]; unfold dot; ring
  have hn := h.2
  rw [e1] at hn
  have : dot a b x = dot a x x - dot x a b := by unfold dot; ring
  have h2 : 0 ≤ dot a x x := by
    unfold dot; nlinarith [mul_self_nonneg (x.x - a.x), mul_self_nonneg (x.y - a.y)]
  linarith

theorem dot_ne {o a b : Point K} (ha : a ≠ o) (hb : b ≠ o) (hc : cross o a b = 0) :
    dot o a b ≠ 0 := by
  intro h
  have e := dot_cross_sq o a b
  rw [h, hc] at e
  have := mul_pos (dot_self_pos ha) (dot_self_pos hb)
  linarith

/-- The state of the search for the lower tangent on the left part: `s n` is an edge of the hull
passed clockwise, `q` is a point of the right part. -/
structure Tan (kx ky : K) (L : List (Point K)) (s n q : Point K) : Prop where
  hs : s ∈ L
  hn : n ∈ L
  ne : n ≠ s
  hull : ∀ x ∈ L, cross s n x ≤ 0
  prev : (∀ x ∈ L, sg kx ky x ≤ sg kx ky s) ∨ ∃ p ∈ L, (∀ x ∈ L, cross p s x ≤ 0) ∧
    sg kx ky s < sg kx ky p ∧ 0 < cross p s q ∧
    (cross s p n = 0 → 0 < dot s p n → (∀ x ∈ L, cross s p x = 0) → ∀ x ∈ L, 0 ≤ dot s p x)

section
variable {kx ky : K} {s n q : Point K}

theorem Tan.desc (h : Tan kx ky L s n q) (inj : ∀ x ∈ L, ∀ y ∈ L, sg kx ky x = sg kx ky y → x = y)
    (hq : sg kx ky s < sg kx ky q) (hl : 0 < cross s n q) : sg kx ky n < sg kx ky s := by
  rcases h.prev with hp | ⟨p, hp, hull, h1, h2, -⟩
  · exact lt_of_le_of_ne (hp n h.hn) fun hh => h.ne (inj n h.hn s h.hs hh)
  · have e := sg_rot3 kx ky s p n q
    have e1 : cross s q p = cross p s q := cross_rot p s q
    have e2 : cross s p n = - cross p s n := cross_swap12 p s n
    rw [e1, e2] at e
    have t1 := mul_pos (sub_pos.2 h1) hl
    have t2 := mul_nonneg (le_of_lt (sub_pos.2 hq)) (show 0 ≤ - cross p s n by linarith [hull n h.hn])
    by_contra hc
    have := mul_nonneg (sub_nonneg.2 (not_lt.1 hc)) (le_of_lt h2)
    linarith

theorem Tan.move (h : Tan kx ky L s n q) {q' : Point K} (hq : sg kx ky s < sg kx ky q)
    (hq' : sg kx ky s < sg kx ky q') (hc : cross s q q' < 0) : Tan kx ky L s n q' := by
  refine ⟨h.hs, h.hn, h.ne, h.hull, ?_⟩
  rcases h.prev with hp | ⟨p, hp, hull, h1, h2, h3⟩
  · exact .inl hp
  · refine .inr ⟨p, hp, hull, h1, ?_, h3⟩
    have e := sg_rot3 kx ky s p q q'
    have e1 : cross s q' p = cross p s q' := cross_rot p s q'
    have e2 : cross s p q = - cross p s q := cross_swap12 p s q
    rw [e1, e2] at e
    have t1 := mul_neg_of_pos_of_neg (sub_pos.2 h1) hc
    have t2 := mul_pos (sub_pos.2 hq') h2
    by_contra hcon
    have := mul_nonpos_of_nonneg_of_nonpos (le_of_lt (sub_pos.2 hq)) (not_lt.1 hcon)
    linarith

theorem Tan.final (h : Tan kx ky L s n q) (inj : ∀ x ∈ L, ∀ y ∈ L, sg kx ky x = sg kx ky y → x = y)
    (hq : sg kx ky s < sg kx ky q) (hc : cross s n q ≤ 0) {x : Point K} (hx : x ∈ L) :
    0 ≤ cross s q x ∧ ¬ Mid s q x := by
  rcases h.prev with hp | ⟨p, hp, hull, h1, h2, h3⟩
  · constructor
    · have e := sg_rot3 kx ky s q n x
      have hn : sg kx ky n < sg kx ky s :=
        lt_of_le_of_ne (hp n h.hn) fun hh => h.ne (inj n h.hn s h.hs hh)
      rw [cross_neg s q x, cross_neg s n q] at e
      have t1 := mul_nonpos_of_nonneg_of_nonpos (le_of_lt (sub_pos.2 hq)) (h.hull x hx)
      have t2 := mul_nonneg_of_nonpos_of_nonpos (sub_nonpos.2 (hp x hx)) hc
      by_contra hcon
      have := mul_pos_of_neg_of_neg (sub_neg.2 hn) (not_le.1 hcon)
      linarith
    · intro hm
      have e := sg_line kx ky s x q
      have h0 : cross s x q = 0 := by rw [cross_neg, hm.1, neg_zero]
      have hqs : q ≠ s := by rintro rfl; exact lt_irrefl _ hq
      rw [h0, zero_mul, sub_zero, dot_comm s x q] at e
      have t1 := mul_pos (mid_dot hm) (sub_pos.2 hq)
      have t2 := mul_nonpos_of_nonneg_of_nonpos (le_of_lt (dot_self_pos hqs)) (sub_nonpos.2 (hp x hx))
      linarith
  · have pq : cross s p q < 0 := by rw [cross_swap12 p s q]; linarith
    have px : ∀ x ∈ L, 0 ≤ cross s p x := fun x hx => by
      rw [cross_swap12 p s x]; linarith [hull x hx]
    have hps : p ≠ s := by rintro rfl; exact lt_irrefl _ h1
    have dpp := dot_self_pos hps
    constructor
    · rcases lt_or_eq_of_le (px n h.hn) with pn | pn
      · have e := pluck s p n q x
        have t1 := mul_nonneg_of_nonpos_of_nonpos (le_of_lt pq) (h.hull x hx)
        have t2 := mul_nonpos_of_nonneg_of_nonpos (px x hx) hc
        by_contra hcon
        have := mul_neg_of_pos_of_neg pn (not_le.1 hcon)
        linarith
      · have pn := pn.symm
        rcases lt_trichotomy (dot s p n) 0 with d | d | d
        · exfalso
          have e := cross_dot' s p n q
          rw [pn, mul_zero, sub_zero] at e
          have t1 := mul_pos_of_neg_of_neg d pq
          have t2 := mul_nonpos_of_nonpos_of_nonneg hc (le_of_lt dpp)
          linarith
        · exact absurd d (dot_ne hps h.ne pn)
        · have col : ∀ x ∈ L, cross s p x = 0 := by
            intro x hx
            have e := cross_dot' s p n x
            rw [pn, mul_zero, sub_zero] at e
            have t2 := mul_nonpos_of_nonpos_of_nonneg (h.hull x hx) (le_of_lt dpp)
            refine le_antisymm ?_ (px x hx)
            by_contra hcon
            have := mul_pos d (not_le.1 hcon)
            linarith
          have e := cross_dot' s p q x
          rw [col x hx, mul_zero, zero_sub] at e
          have t := mul_nonpos_of_nonneg_of_nonpos (h3 pn d col x hx) (le_of_lt pq)
          by_contra hcon
          have := mul_neg_of_neg_of_pos (not_le.1 hcon) dpp
          linarith
    · intro hm
      have hqs : q ≠ s := by rintro rfl; exact lt_irrefl _ hq
      have e := cross_dot' s q p x
      rw [hm.1, mul_zero, zero_sub, cross_neg s p q] at e
      have t1 := mul_neg_of_pos_of_neg (mid_dot hm) pq
      have t2 := mul_nonneg (px x hx) (le_of_lt (dot_self_pos hqs))
      linarith
end

/-- Position of the new edge among its neighbours. -/
theorem tang_cyc {o q n p : Point K} (hn : n ≠ o) (hp : p ≠ o) (hq : q ≠ o) (h1 : 0 ≤ cross o q n)
    (h2 : 0 ≤ cross o q p) (h3 : cross o n p ≤ 0) (r1 : cross o n p = 0 → ¬ 0 < dot o n p)
    (r2 : cross o q n = 0 → ¬ 0 < dot o q n) (r3 : cross o q p = 0 → ¬ 0 < dot o q p) :
    0 < cross o q p ∧ 0 < cross o p n := by
  have dqq := dot_self_pos hq
  have dpp := dot_self_pos hp
  have neg : ∀ {a b : Point K}, a ≠ o → b ≠ o → (cross o a b = 0 → ¬ 0 < dot o a b) →
      cross o a b = 0 → dot o a b < 0 := by
    intro a b ha hb h h0
    exact lt_of_le_of_ne (not_lt.1 (h h0)) (dot_ne ha hb h0)
  have A : 0 < cross o q p := by
    rcases lt_or_eq_of_le h2 with h | h
    · exact h
    · exfalso
      have h := h.symm
      have d := neg hq hp r3 h
      have e := cross_dot' o q n p
      rw [h, mul_zero, zero_sub] at e
      have t := mul_nonpos_of_nonpos_of_nonneg h3 (le_of_lt dqq)
      have hz : cross o q n = 0 := by
        refine le_antisymm ?_ h1
        by_contra hcon
        have := mul_neg_of_neg_of_pos d (not_le.1 hcon)
        linarith
      have d' := neg hq hn r2 hz
      rw [hz, mul_zero, neg_zero] at e
      have h0 : cross o n p = 0 := (mul_eq_zero.1 e).resolve_right (ne_of_gt dqq)
      have dd := neg hn hp r1 h0
      -- product of the two negative dots is positive
      have e2 : dot o n p * dot o q q = dot o q n * dot o q p + cross o q n * cross o q p := by
        unfold dot cross; ring
      rw [hz, zero_mul, add_zero] at e2
      have t1 := mul_pos_of_neg_of_neg d' d
      have t2 := mul_neg_of_neg_of_pos dd dqq
      linarith
  refine ⟨A, ?_⟩
  rw [cross_neg]
  rcases lt_or_eq_of_le h3 with h | h
  · linarith
  · exfalso
    have dd := neg hn hp r1 h
    have e := cross_dot' o p q n
    rw [cross_neg o n p, h, neg_zero, mul_zero, zero_sub, cross_neg o q p, dot_comm o p n] at e
    have t1 := mul_neg_of_neg_of_pos dd A
    have t2 := mul_nonneg h1 (le_of_lt dpp)
    linarith

end HG
