import Verif.Delaunay.DT

/-!
# Sweeping the gap between two separated point sets

`L` and `R` are separated by a line.  The merge step of the divide-and-conquer algorithm draws
edges ("bases") between `L` and `R` from the lower to the upper common tangent, each with the
previous one on an empty triangle.  Here: if an edge `u v` of a Delaunay triangulation of `R` is on
an empty circle of `L ∪ R` whose next point beyond `u v` belongs to `L`, then the sweep draws a
triangle on that side of `u v`.
-/

set_option linter.unusedSectionVars false

namespace HG

variable {K : Type} [Field K] [LinearOrder K] [IsStrictOrderedRing K]

/-- A separating line. -/
structure Sep (L R : List (Point K)) where
  sx : K
  sy : K
  c : K
  lt : ∀ p ∈ L, sx * p.x + sy * p.y < c
  gt : ∀ p ∈ R, c < sx * p.x + sy * p.y

namespace Sep
variable {L R : List (Point K)} (S : Sep L R)

/-- The functional whose level set is the separating line. -/
def s (p : Point K) : K := S.sx * p.x + S.sy * p.y

theorem lt' {p : Point K} (h : p ∈ L) : S.s p < S.c := S.lt p h
theorem gt' {p : Point K} (h : p ∈ R) : S.c < S.s p := S.gt p h

include S in
theorem disj {p : Point K} (h : p ∈ L) (h' : p ∈ R) : False :=
  absurd (S.lt' h) (not_lt.2 (le_of_lt (S.gt' h')))

/-- The point of the line `m u` on the separating line. -/
def pt (m u : Point K) : Point K :=
  ⟨m.x + (S.c - S.s m) / (S.s u - S.s m) * (u.x - m.x),
    m.y + (S.c - S.s m) / (S.s u - S.s m) * (u.y - m.y)⟩

theorem pt_cross {m u : Point K} (h : S.s u - S.s m ≠ 0) (x y : Point K) :
    cross x y (S.pt m u) * (S.s u - S.s m)
      = (S.s u - S.c) * cross x y m + (S.c - S.s m) * cross x y u := by
  unfold pt cross
  field_simp
  ring

theorem pt_aff {m u : Point K} (h : S.s u - S.s m ≠ 0) (f g : Circ K) :
    (f.ev (S.pt m u) - g.ev (S.pt m u)) * (S.s u - S.s m)
      = (S.s u - S.c) * (f.ev m - g.ev m) + (S.c - S.s m) * (f.ev u - g.ev u) := by
  unfold pt Circ.ev
  field_simp
  ring

theorem pt_s {m u : Point K} (h : S.s u - S.s m ≠ 0) : S.s (S.pt m u) = S.c := by
  have : S.s (S.pt m u) = S.s m + (S.c - S.s m) / (S.s u - S.s m) * (S.s u - S.s m) := by
    unfold pt s; ring
  rw [this]
  field_simp
  ring

end Sep

theorem circ_line_eq {g : Circ K} {m u p : Point K} (hmu : m ≠ u) (gm : g.ev m = 0)
    (gu : g.ev u = 0) (gp : g.ev p = 0) (h : cross m u p = 0) : p = m ∨ p = u := by
  have h1 := circ_line hmu gm gu h
  rw [gp, ev_diam] at h1
  have e1 := dot_cross_sq m u p
  rw [h] at e1
  have e2 : dot m p p = dot m u p := by unfold dot; linarith
  have e3 : dot m u p * (dot m u u - dot m u p) = 0 := by rw [e2] at e1; linarith
  rcases mul_eq_zero.1 e3 with e | e
  · left
    by_contra hne
    have := dot_self_pos hne
    linarith
  · right
    by_contra hne
    have := dot_self_pos hne
    have e6 : dot u p p = dot m u u + dot m p p - 2 * dot m u p := by unfold dot; ring
    linarith

/-- Four points on a circle are in convex position. -/
theorem cyc4 {g : Circ K} {u v m r : Point K} (gu : g.ev u = 0) (gv : g.ev v = 0) (gm : g.ev m = 0)
    (gr : g.ev r = 0) (hm : 0 < cross u v m) (hr : cross u v r < 0) :
    0 < cross m u r ∧ 0 < cross v m r := by
  have e1 : cross m u v = cross u v m := by rw [cross_rot']
  have e2 : cross u r v = - cross u v r := by rw [cross_swap23]
  have e3 : cross m r u = - cross m u r := by rw [cross_swap23]
  have first : 0 < cross m u r := by
    by_contra hc
    have hs := cross_sum m r v u
    have := dtri_corner (f := g) (a := m) (b := r) (c := v) (q := u) (by linarith) gm gr gv
      (by linarith) (by linarith) (by linarith) (le_of_eq gu.symm)
    rcases this with e | e | e
    · rw [e] at hm; simp at hm
    · rw [e] at hr; simp at hr
    · rw [e] at hr; simp at hr
  refine ⟨first, ?_⟩
  by_contra hc
  have e4 : cross v u r = - cross u v r := by rw [cross_swap12]
  have e5 : cross m v r = - cross v m r := by rw [cross_swap12]
  have := dtri_corner (f := g) (a := m) (b := u) (c := r) (q := v) first gm gu gr
    (by linarith) (by linarith) (by linarith) (le_of_eq gv.symm)
  rcases this with e | e | e
  · rw [e] at hm; simp at hm
  · rw [e] at hr; simp at hr
  · rw [e] at hr; simp at hr

theorem cyc4_XX {g : Circ K} {u v m r : Point K} (gu : g.ev u = 0) (gv : g.ev v = 0)
    (gm : g.ev m = 0) (gr : g.ev r = 0) (hm : 0 < cross u v m) (hr : cross u v r < 0) :
    XX u v m r := by
  obtain ⟨h1, h2⟩ := cyc4 gu gv gm gr hm hr
  refine ⟨mul_neg_of_pos_of_neg hm hr, mul_neg_of_neg_of_pos ?_ ?_⟩
  · rw [cross_swap23]; linarith
  · linarith [cross_rot v m r]

/-- Segments with ends in separated sets do not cross. -/
theorem Sep.no_XX {L R : List (Point K)} (S : Sep L R) {u v q m : Point K} (hu : u ∈ R) (hv : v ∈ R)
    (hq : q ∈ L) (hm : m ∈ L) : ¬ XX u v q m := by
  rintro ⟨h1, h2⟩
  have su := S.gt' hu; have sv := S.gt' hv; have sq := S.lt' hq; have sm := S.lt' hm
  have e : (cross q m u - cross q m v) * (S.s q * cross u v m - S.s m * cross u v q) =
      (cross u v m - cross u v q) * (S.s v * cross q m u - S.s u * cross q m v) := by
    unfold Sep.s cross; ring
  have e' : cross q m u - cross q m v = cross u v m - cross u v q := by unfold cross; ring
  set α := cross u v q
  set β := cross u v m
  set γ := cross q m u
  set δ := cross q m v
  rcases lt_or_gt_of_ne (show α ≠ 0 by rintro h; rw [h] at h1; simp at h1) with ha | ha
  · have hb : 0 < β := by
      by_contra hc
      linarith [mul_nonneg_of_nonpos_of_nonpos (le_of_lt ha) (not_lt.1 hc)]
    have hg : 0 < γ := by
      by_contra hc
      have : δ < 0 := by linarith
      linarith [mul_nonneg_of_nonpos_of_nonpos (not_lt.1 hc) (le_of_lt this)]
    have hd : δ < 0 := by
      by_contra hc
      linarith [mul_nonneg (le_of_lt hg) (not_lt.1 hc)]
    rw [e'] at e
    have k3 := mul_left_cancel₀ (show β - α ≠ 0 by linarith) e
    have t1 := mul_lt_mul_of_pos_right sq hb
    have t2 := mul_lt_mul_of_pos_right sm (neg_pos.2 ha)
    have t3 := mul_lt_mul_of_pos_right su (neg_pos.2 hd)
    have t4 := mul_lt_mul_of_pos_right sv hg
    have e5 : S.c * (γ - δ) = S.c * (β - α) := by rw [e']
    linarith
  · have hb : β < 0 := by
      by_contra hc
      linarith [mul_nonneg (le_of_lt ha) (not_lt.1 hc)]
    have hg : γ < 0 := by
      by_contra hc
      have : 0 < δ := by linarith
      linarith [mul_nonneg (not_lt.1 hc) (le_of_lt this)]
    have hd : 0 < δ := by
      by_contra hc
      linarith [mul_nonneg_of_nonpos_of_nonpos (le_of_lt hg) (not_lt.1 hc)]
    rw [e'] at e
    have k3 := mul_left_cancel₀ (show β - α ≠ 0 by linarith) e
    have t1 := mul_lt_mul_of_pos_right sq (neg_pos.2 hb)
    have t2 := mul_lt_mul_of_pos_right sm ha
    have t3 := mul_lt_mul_of_pos_right su hd
    have t4 := mul_lt_mul_of_pos_right sv (neg_pos.2 hg)
    have e5 : S.c * (γ - δ) = S.c * (β - α) := by rw [e']
    linarith

/-- The smallest circle through `l` and `r` that reaches a point of `N` beyond `l r`. -/
theorem pencil_min {f : Circ K} {l r : Point K} {N P : List (Point K)} (hf : f.Empty P)
    (hN : ∀ p ∈ N, p ∈ P) (fl : f.ev l = 0) (fr : f.ev r = 0) (hex : ∃ q ∈ N, 0 < cross l r q) :
    ∃ (g : Circ K) (q : Point K), q ∈ N ∧ 0 < cross l r q ∧ g.ev l = 0 ∧ g.ev r = 0 ∧ g.ev q = 0 ∧
      (∀ p ∈ N, 0 ≤ g.ev p) ∧ (∀ p ∈ P, cross l r p ≤ 0 → 0 ≤ g.ev p) := by
  classical
  obtain ⟨q0, hq0, hc0⟩ := hex
  obtain ⟨q, hq, hmin⟩ := Finset.exists_min_image (N.toFinset.filter fun n => 0 < cross l r n)
    (fun n => f.ev n / cross l r n) ⟨q0, by simp [hq0, hc0]⟩
  rw [Finset.mem_filter, List.mem_toFinset] at hq
  obtain ⟨hqN, hcq⟩ := hq
  have hk : 0 ≤ f.ev q / cross l r q := div_nonneg (hf q (hN q hqN)) (le_of_lt hcq)
  have below : ∀ p ∈ P, cross l r p ≤ 0 → 0 ≤ (f.tilt (-(f.ev q / cross l r q)) l r).ev p := by
    intro p hp hc
    rw [ev_tilt]
    have := mul_nonneg hk (neg_nonneg.2 hc)
    have := hf p hp
    linarith
  refine ⟨f.tilt (-(f.ev q / cross l r q)) l r, q, hqN, hcq, by rw [ev_tilt, fl]; simp,
    by rw [ev_tilt, fr]; simp, ?_, fun p hp => ?_, below⟩
  · rw [ev_tilt]
    have := ne_of_gt hcq
    field_simp
    ring
  · rcases le_or_gt (cross l r p) 0 with hc | hc
    · exact below p (hN p hp) hc
    · rw [ev_tilt]
      have h1 := hmin p (by simp [hp, hc])
      have h2 := mul_le_mul_of_nonneg_right h1 (le_of_lt hc)
      have e : f.ev p / cross l r p * cross l r p = f.ev p := by
        have := ne_of_gt hc
        field_simp
      rw [e] at h2
      linarith

/-- An empty circle through an edge `u v` of `R` whose points beyond `u v` are in `L`; `mu` and `mv`
are the neighbours of `u` and `v` on the circle. -/
structure Gap (L R : List (Point K)) (g : Circ K) (u v mu mv : Point K) : Prop where
  hu : u ∈ R
  hv : v ∈ R
  hmu : mu ∈ L
  hmv : mv ∈ L
  emp : g.Empty (L ++ R)
  gu : g.ev u = 0
  gv : g.ev v = 0
  gmu : g.ev mu = 0
  gmv : g.ev mv = 0
  edgeU : ∀ p ∈ L ++ R, g.ev p = 0 → 0 ≤ cross mu u p
  edgeV : ∀ p ∈ L ++ R, g.ev p = 0 → 0 ≤ cross v mv p
  right : ∀ p ∈ R, g.ev p = 0 → cross u v p ≤ 0
  left : ∀ p ∈ L, g.ev p = 0 → 0 < cross u v p

theorem gap_exists {L R : List (Point K)} (S : Sep L R) {A : Point K → Point K → Prop}
    (h : DT R A) {u v : Point K} (huv : A u v) (hd : Del (L ++ R) u v)
    (hex : ∃ p ∈ L ++ R, 0 < cross u v p) (hno : ¬ ∃ c, A u c ∧ A v c ∧ DTri (L ++ R) u v c) :
    ∃ g mu mv, Gap L R g u v mu mv := by
  classical
  obtain ⟨f, hf, fu, fv⟩ := hd
  obtain ⟨g, q, hq, hqc, gu, gv, gq, hg, -⟩ := pencil_min hf (fun p hp => hp) fu fv hex
  have hu := h.mem huv
  have hv := h.mem (h.symm huv)
  have huv' := h.ne huv
  have noR : ∀ p ∈ R, g.ev p = 0 → cross u v p ≤ 0 := by
    intro p hp gp
    by_contra hc
    have hc := not_le.1 hc
    rcases h.side huv with h1 | ⟨c, hc1, hc2, h0, k, hk, ku, kv, kc⟩
    · exact absurd (h1 p hp) (not_le.2 hc)
    · have hcR := h.mem (h.symm hc1)
      have e := aff3 g k u v c p
      rw [gu, gv, ku, kv, kc, gp] at e
      have e1 : (0 - k.ev p) * cross u v c = g.ev c * cross u v p := by linarith
      have e2 := mul_nonneg (hg c (List.mem_append_right _ hcR)) (le_of_lt hc)
      have e3 := mul_nonneg (hk p hp) (le_of_lt h0)
      have e4 : g.ev c * cross u v p = 0 := by linarith
      have e5 := (mul_eq_zero.1 e4).resolve_right (ne_of_gt hc)
      exact hno ⟨c, hc1, hc2, h0, g, hg, gu, gv, e5⟩
  have hqL : q ∈ L := by
    rcases List.mem_append.1 hq with h1 | h1
    · exact h1
    · exact absurd (noR q h1 gq) (not_le.2 hqc)
  have left : ∀ p ∈ L, g.ev p = 0 → 0 < cross u v p := by
    intro p hp gp
    rcases lt_trichotomy (cross u v p) 0 with hc | hc | hc
    · exact absurd (cyc4_XX gu gv gq gp hqc hc) (S.no_XX hu hv hqL hp)
    · rcases circ_line_eq huv' gu gv gp hc with e | e
      · exact (S.disj hp (e ▸ hu)).elim
      · exact (S.disj hp (e ▸ hv)).elim
    · exact hc
  set N : Finset (Point K) := L.toFinset.filter fun p => g.ev p = 0 with hN
  have memN : ∀ {p}, p ∈ N ↔ p ∈ L ∧ g.ev p = 0 := by
    intro p; rw [hN, Finset.mem_filter, List.mem_toFinset]
  have hne : N.Nonempty := ⟨q, memN.2 ⟨hqL, gq⟩⟩
  obtain ⟨mu, hmu, minU⟩ := Finset.exists_min_image N (fun p => dot u v p / cross u v p) hne
  obtain ⟨mv, hmv, minV⟩ := Finset.exists_min_image N (fun p => dot v u p / cross u v p) hne
  rw [memN] at hmu hmv
  have lu := left mu hmu.1 hmu.2
  have lv := left mv hmv.1 hmv.2
  refine ⟨g, mu, mv, hu, hv, hmu.1, hmv.1, hg, gu, gv, hmu.2, hmv.2, ?_, ?_, noR, left⟩
  · intro p hp gp
    rcases List.mem_append.1 hp with hp | hp
    · have lp := left p hp gp
      have h1 := minU p (memN.2 ⟨hp, gp⟩)
      have h2 := mul_le_mul_of_nonneg_right h1 (mul_nonneg (le_of_lt lu) (le_of_lt lp))
      have n1 := ne_of_gt lu
      have n2 := ne_of_gt lp
      have e1 : dot u v mu / cross u v mu * (cross u v mu * cross u v p)
          = dot u v mu * cross u v p := by field_simp
      have e2 : dot u v p / cross u v p * (cross u v mu * cross u v p)
          = dot u v p * cross u v mu := by field_simp
      rw [e1, e2] at h2
      have e := cross_dot' u v p mu
      have hE := dot_self_pos (Ne.symm huv')
      by_contra hc
      have e3 : cross u p mu = cross mu u p := by rw [cross_rot]
      have := mul_neg_of_neg_of_pos (not_le.1 hc) hE
      rw [← e3] at this
      linarith
    · rcases lt_or_eq_of_le (noR p hp gp) with hc | hc
      · exact le_of_lt (cyc4 gu gv hmu.2 gp lu hc).1
      · rcases circ_line_eq huv' gu gv gp hc with e | e
        · rw [e]; simp
        · rw [e, cross_rot']; exact le_of_lt lu
  · intro p hp gp
    rcases List.mem_append.1 hp with hp | hp
    · have lp := left p hp gp
      have h1 := minV p (memN.2 ⟨hp, gp⟩)
      have h2 := mul_le_mul_of_nonneg_right h1 (mul_nonneg (le_of_lt lv) (le_of_lt lp))
      have n1 := ne_of_gt lv
      have n2 := ne_of_gt lp
      have e1 : dot v u mv / cross u v mv * (cross u v mv * cross u v p)
          = dot v u mv * cross u v p := by field_simp
      have e2 : dot v u p / cross u v p * (cross u v mv * cross u v p)
          = dot v u p * cross u v mv := by field_simp
      rw [e1, e2] at h2
      have e := cross_dot' v u mv p
      rw [cross_swap12 u v p, cross_swap12 u v mv] at e
      have hE := dot_self_pos huv'
      by_contra hc
      have := mul_neg_of_neg_of_pos (not_le.1 hc) hE
      linarith
    · rcases lt_or_eq_of_le (noR p hp gp) with hc | hc
      · exact le_of_lt (cyc4 gu gv hmv.2 gp lv hc).2
      · rcases circ_line_eq huv' gu gv gp hc with e | e
        · rw [e]; linarith [cross_rot' v mv u]
        · rw [e]; simp

end HG
