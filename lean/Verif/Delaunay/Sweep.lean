import Verif.Delaunay.Gap

/-!
# The sweep reaches every edge with an empty triangle across the gap
-/

set_option linter.unusedSectionVars false

namespace HG

variable {K : Type} [Field K] [LinearOrder K] [IsStrictOrderedRing K]
variable {L R : List (Point K)}

theorem Sep.pos (S : Sep L R) {m u : Point K} (hm : m ∈ L) (hu : u ∈ R) : 0 < S.s u - S.s m := by
  have := S.lt' hm; have := S.gt' hu; linarith

theorem Sep.ne (S : Sep L R) {m u : Point K} (hm : m ∈ L) (hu : u ∈ R) : m ≠ u := by
  rintro rfl; exact S.disj hm hu

theorem pos_of_mul_neg {x y : K} (h : 0 ≤ x * y) (hy : 0 < y) : 0 ≤ x := by
  by_contra hc
  have := mul_neg_of_neg_of_pos (not_le.1 hc) hy
  linarith

/-- The corners of an empty triangle that carry a boundary point of an empty circle. -/
theorem touch (S : Sep L R) {m u p₁ p₂ p₃ : Point K} {f g : Circ K} (hm : m ∈ L) (hu : u ∈ R)
    (hg : g.Empty (L ++ R)) (gm : g.ev m = 0) (gu : g.ev u = 0)
    (side : (∀ p ∈ L ++ R, g.ev p = 0 → 0 ≤ cross m u p) ∨
      (∀ p ∈ L ++ R, g.ev p = 0 → cross m u p ≤ 0))
    (hf : f.Empty (L ++ R)) (h₁ : p₁ ∈ L ++ R) (h₂ : p₂ ∈ L ++ R) (h₃ : p₃ ∈ L ++ R)
    (f₁ : f.ev p₁ = 0) (f₂ : f.ev p₂ = 0) (f₃ : f.ev p₃ = 0) (h0 : 0 < cross p₁ p₂ p₃)
    (w₁ : 0 ≤ cross (S.pt m u) p₂ p₃) (w₂ : 0 ≤ cross p₁ (S.pt m u) p₃)
    (w₃ : 0 ≤ cross p₁ p₂ (S.pt m u)) :
    (0 < cross (S.pt m u) p₂ p₃ → p₁ = m ∨ p₁ = u) ∧ (0 < cross p₁ (S.pt m u) p₃ → p₂ = m ∨ p₂ = u) ∧
      (0 < cross p₁ p₂ (S.pt m u) → p₃ = m ∨ p₃ = u) := by
  have hpos := S.pos hm hu
  have a1 := S.pt_aff (ne_of_gt hpos) f g
  rw [gm, gu] at a1
  have hmP : m ∈ L ++ R := List.mem_append_left _ hm
  have huP : u ∈ L ++ R := List.mem_append_right _ hu
  have sm := S.lt' hm
  have su := S.gt' hu
  have b1 := mul_nonneg (show 0 ≤ S.s u - S.c by linarith) (hf m hmP)
  have b2 := mul_nonneg (show 0 ≤ S.c - S.s m by linarith) (hf u huP)
  set Y := S.pt m u
  have dY : 0 ≤ f.ev Y - g.ev Y := pos_of_mul_neg (by linarith) hpos
  have a2 := aff3 f g p₁ p₂ p₃ Y
  rw [f₁, f₂, f₃] at a2
  have c1 := mul_nonneg (hg p₁ h₁) w₁
  have c2 := mul_nonneg (hg p₂ h₂) w₂
  have c3 := mul_nonneg (hg p₃ h₃) w₃
  have c0 := mul_nonneg dY (le_of_lt h0)
  have z1 : g.ev p₁ * cross Y p₂ p₃ = 0 := by linarith
  have z2 : g.ev p₂ * cross p₁ Y p₃ = 0 := by linarith
  have z3 : g.ev p₃ * cross p₁ p₂ Y = 0 := by linarith
  have cY : cross m u Y = 0 := by
    have := S.pt_cross (ne_of_gt hpos) m u
    rw [cross_self13, cross_self23] at this
    have h2 : cross m u Y * (S.s u - S.s m) = 0 := by rw [this]; ring
    exact (mul_eq_zero.1 h2).resolve_right (ne_of_gt hpos)
  have sum : cross m u p₁ * cross Y p₂ p₃ + cross m u p₂ * cross p₁ Y p₃
      + cross m u p₃ * cross p₁ p₂ Y = 0 := by
    have e : cross m u p₁ * cross Y p₂ p₃ + cross m u p₂ * cross p₁ Y p₃
      + cross m u p₃ * cross p₁ p₂ Y = cross m u Y * cross p₁ p₂ p₃ := by unfold cross; ring
    rw [e, cY, zero_mul]
  have term : (cross m u p₁ * cross Y p₂ p₃ = 0) ∧ (cross m u p₂ * cross p₁ Y p₃ = 0)
      ∧ (cross m u p₃ * cross p₁ p₂ Y = 0) := by
    rcases side with sd | sd
    · have t : ∀ p ∈ L ++ R, ∀ w : K, 0 ≤ w → g.ev p * w = 0 → 0 ≤ cross m u p * w := by
        intro p hp w hw hz
        rcases mul_eq_zero.1 hz with hz | hz
        · exact mul_nonneg (sd p hp hz) hw
        · rw [hz, mul_zero]
      have t1 := t p₁ h₁ _ w₁ z1
      have t2 := t p₂ h₂ _ w₂ z2
      have t3 := t p₃ h₃ _ w₃ z3
      refine ⟨?_, ?_, ?_⟩ <;> linarith
    · have t : ∀ p ∈ L ++ R, ∀ w : K, 0 ≤ w → g.ev p * w = 0 → cross m u p * w ≤ 0 := by
        intro p hp w hw hz
        rcases mul_eq_zero.1 hz with hz | hz
        · exact mul_nonpos_of_nonpos_of_nonneg (sd p hp hz) hw
        · rw [hz, mul_zero]
      have t1 := t p₁ h₁ _ w₁ z1
      have t2 := t p₂ h₂ _ w₂ z2
      have t3 := t p₃ h₃ _ w₃ z3
      refine ⟨?_, ?_, ?_⟩ <;> linarith
  have hmu := S.ne hm hu
  refine ⟨fun hw => ?_, fun hw => ?_, fun hw => ?_⟩
  · exact circ_line_eq hmu gm gu ((mul_eq_zero.1 z1).resolve_right (ne_of_gt hw))
      ((mul_eq_zero.1 term.1).resolve_right (ne_of_gt hw))
  · exact circ_line_eq hmu gm gu ((mul_eq_zero.1 z2).resolve_right (ne_of_gt hw))
      ((mul_eq_zero.1 term.2.1).resolve_right (ne_of_gt hw))
  · exact circ_line_eq hmu gm gu ((mul_eq_zero.1 z3).resolve_right (ne_of_gt hw))
      ((mul_eq_zero.1 term.2.2).resolve_right (ne_of_gt hw))

theorem s_bary (S : Sep L R) (p₁ p₂ p₃ Y : Point K) :
    (S.s Y - S.c) * cross p₁ p₂ p₃ = (S.s p₁ - S.c) * cross Y p₂ p₃
      + (S.s p₂ - S.c) * cross p₁ Y p₃ + (S.s p₃ - S.c) * cross p₁ p₂ Y := by
  unfold Sep.s cross; ring

theorem touch_right (S : Sep L R) {m u a b c : Point K} {g : Circ K} (hm : m ∈ L) (hu : u ∈ R)
    (hg : g.Empty (L ++ R)) (gm : g.ev m = 0) (gu : g.ev u = 0)
    (side : (∀ p ∈ L ++ R, g.ev p = 0 → 0 ≤ cross m u p) ∨
      (∀ p ∈ L ++ R, g.ev p = 0 → cross m u p ≤ 0))
    (ha : a ∈ L) (hb : b ∈ R) (hc : c ∈ R) (ht : DTri (L ++ R) a b c)
    (h1 : 0 ≤ cross a b (S.pt m u)) (h2 : cross a c (S.pt m u) ≤ 0) : a = m ∧ (b = u ∨ c = u) := by
  obtain ⟨h0, f, hf, fa, fb, fc⟩ := ht
  have hs := S.pt_s (ne_of_gt (S.pos hm hu))
  have e := s_bary S a b c (S.pt m u)
  rw [hs] at e
  have sum := cross_sum a b c (S.pt m u)
  have w2 : 0 ≤ cross a (S.pt m u) c := by rw [cross_swap23]; linarith
  have sa := S.lt' ha; have sb := S.gt' hb; have sc := S.gt' hc
  have t2 := mul_nonneg (show 0 ≤ S.s b - S.c by linarith) w2
  have t3 := mul_nonneg (show 0 ≤ S.s c - S.c by linarith) h1
  have w1 : 0 < cross (S.pt m u) b c := by
    by_contra hc
    have t1 := mul_nonneg (show 0 ≤ S.c - S.s a by linarith) (neg_nonneg.2 (not_lt.1 hc))
    have z2 : (S.s b - S.c) * cross a (S.pt m u) c = 0 := by linarith
    have z3 : (S.s c - S.c) * cross a b (S.pt m u) = 0 := by linarith
    have y2 := (mul_eq_zero.1 z2).resolve_left (by linarith)
    have y3 := (mul_eq_zero.1 z3).resolve_left (by linarith)
    linarith
  obtain ⟨k1, k2, k3⟩ := touch S hm hu hg gm gu side hf (List.mem_append_left _ ha)
    (List.mem_append_right _ hb) (List.mem_append_right _ hc) fa fb fc h0 (le_of_lt w1) w2 h1
  refine ⟨(k1 w1).resolve_right fun e => S.disj ha (e ▸ hu), ?_⟩
  rcases lt_or_eq_of_le w2 with hw | hw
  · left; exact (k2 hw).resolve_left fun e => S.disj hm (e ▸ hb)
  · right
    refine (k3 ?_).resolve_left fun e => S.disj hm (e ▸ hc)
    refine lt_of_le_of_ne h1 fun hz => ?_
    rw [← hz, ← hw] at e
    have := mul_pos (show 0 < S.c - S.s a by linarith) w1
    linarith

theorem touch_left (S : Sep L R) {m u a b c : Point K} {g : Circ K} (hm : m ∈ L) (hu : u ∈ R)
    (hg : g.Empty (L ++ R)) (gm : g.ev m = 0) (gu : g.ev u = 0)
    (side : (∀ p ∈ L ++ R, g.ev p = 0 → 0 ≤ cross m u p) ∨
      (∀ p ∈ L ++ R, g.ev p = 0 → cross m u p ≤ 0))
    (ha : a ∈ L) (hb : b ∈ R) (hc : c ∈ L) (ht : DTri (L ++ R) a b c)
    (h1 : 0 ≤ cross a b (S.pt m u)) (h2 : cross c b (S.pt m u) ≤ 0) : b = u := by
  obtain ⟨h0, f, hf, fa, fb, fc⟩ := ht
  have hs := S.pt_s (ne_of_gt (S.pos hm hu))
  have e := s_bary S a b c (S.pt m u)
  rw [hs] at e
  have sum := cross_sum a b c (S.pt m u)
  have w1 : 0 ≤ cross (S.pt m u) b c := by
    rw [cross_swap13]; linarith
  have sa := S.lt' ha; have sb := S.gt' hb; have sc := S.lt' hc
  have t1 := mul_nonneg (show 0 ≤ S.c - S.s a by linarith) w1
  have t3 := mul_nonneg (show 0 ≤ S.c - S.s c by linarith) h1
  have w2 : 0 < cross a (S.pt m u) c := by
    by_contra hc
    have t2 := mul_nonneg (show 0 ≤ S.s b - S.c by linarith) (neg_nonneg.2 (not_lt.1 hc))
    have z2 : (S.c - S.s a) * cross (S.pt m u) b c = 0 := by linarith
    have z3 : (S.c - S.s c) * cross a b (S.pt m u) = 0 := by linarith
    have y2 := (mul_eq_zero.1 z2).resolve_left (by linarith)
    have y3 := (mul_eq_zero.1 z3).resolve_left (by linarith)
    linarith
  obtain ⟨k1, k2, k3⟩ := touch S hm hu hg gm gu side hf (List.mem_append_left _ ha)
    (List.mem_append_right _ hb) (List.mem_append_left _ hc) fa fb fc h0 w1 (le_of_lt w2) h1
  exact (k2 w2).resolve_left fun e => S.disj hm (e ▸ hb)

/-- A base between two boundary points of an empty circle has its ends on the circle. -/
theorem middle (S : Sep L R) {u v mu mv a b : Point K} {g : Circ K} (hg : Gap L R g u v mu mv)
    (ha : a ∈ L) (hb : b ∈ R) (hd : Del (L ++ R) a b) (h1 : cross a b (S.pt mu u) < 0)
    (h2 : 0 < cross a b (S.pt mv v)) : g.ev a = 0 ∧ g.ev b = 0 := by
  obtain ⟨f, hf, fa, fb⟩ := hd
  have aL := List.mem_append_left R ha
  have bL := List.mem_append_right L hb
  have pu := S.pos hg.hmu hg.hu
  have pv := S.pos hg.hmv hg.hv
  have pab := S.pos ha hb
  have du : 0 ≤ f.ev (S.pt mu u) - g.ev (S.pt mu u) := by
    have e := S.pt_aff (ne_of_gt pu) f g
    rw [hg.gmu, hg.gu] at e
    have b1 := mul_nonneg (show 0 ≤ S.s u - S.c by linarith [S.gt' hg.hu])
      (hf mu (List.mem_append_left _ hg.hmu))
    have b2 := mul_nonneg (show 0 ≤ S.c - S.s mu by linarith [S.lt' hg.hmu])
      (hf u (List.mem_append_right _ hg.hu))
    exact pos_of_mul_neg (by linarith) pu
  have dv : 0 ≤ f.ev (S.pt mv v) - g.ev (S.pt mv v) := by
    have e := S.pt_aff (ne_of_gt pv) f g
    rw [hg.gmv, hg.gv] at e
    have b1 := mul_nonneg (show 0 ≤ S.s v - S.c by linarith [S.gt' hg.hv])
      (hf mv (List.mem_append_left _ hg.hmv))
    have b2 := mul_nonneg (show 0 ≤ S.c - S.s mv by linarith [S.lt' hg.hmv])
      (hf v (List.mem_append_right _ hg.hv))
    exact pos_of_mul_neg (by linarith) pv
  have su := S.pt_s (ne_of_gt pu)
  have sv := S.pt_s (ne_of_gt pv)
  have e := S.pt_aff (ne_of_gt pab) f g
  rw [fa, fb] at e
  have key : (f.ev (S.pt a b) - g.ev (S.pt a b)) *
      ((cross a b (S.pt mv v) - cross a b (S.pt mu u)) * (S.s b - S.s a)) =
      (cross a b (S.pt mv v) * (f.ev (S.pt mu u) - g.ev (S.pt mu u))
        - cross a b (S.pt mu u) * (f.ev (S.pt mv v) - g.ev (S.pt mv v))) * (S.s b - S.s a) := by
    have h3 := e
    set y := S.pt mu u
    set z := S.pt mv v
    have id : ((S.s b - S.c) * (f.ev a - g.ev a) + (S.c - S.s a) * (f.ev b - g.ev b))
        * (cross a b z - cross a b y) = (cross a b z * (f.ev y - g.ev y)
          - cross a b y * (f.ev z - g.ev z)) * (S.s b - S.s a)
        + (S.s y - S.c) * ((f.ev a - g.ev a) * (cross a b z) - (f.ev b - g.ev b) * cross a b z)
        + (S.s z - S.c) * ((f.ev b - g.ev b) * (cross a b y) - (f.ev a - g.ev a) * cross a b y) := by
      unfold Sep.s Circ.ev cross; ring
    rw [su, sv, fa, fb] at id
    linear_combination (cross a b z - cross a b y) * h3 + id
  have ga := hg.emp a aL
  have gb := hg.emp b bL
  have k1 := mul_nonneg (le_of_lt h2) du
  have k2 := mul_nonneg (neg_nonneg.2 (le_of_lt h1)) dv
  have k3 := mul_nonneg (show 0 ≤ cross a b (S.pt mv v) * (f.ev (S.pt mu u) - g.ev (S.pt mu u))
        - cross a b (S.pt mu u) * (f.ev (S.pt mv v) - g.ev (S.pt mv v)) by linarith) (le_of_lt pab)
  have k4 : 0 ≤ f.ev (S.pt a b) - g.ev (S.pt a b) := by
    refine pos_of_mul_neg (by rw [key]; exact k3) (mul_pos (by linarith) pab)
  have k5 := mul_nonneg k4 (le_of_lt pab)
  have sa := S.lt' ha; have sb := S.gt' hb
  have l1 := mul_nonneg (show 0 ≤ S.s b - S.c by linarith) ga
  have l2 := mul_nonneg (show 0 ≤ S.c - S.s a by linarith) gb
  have z1 : (S.s b - S.c) * g.ev a = 0 := by linarith
  have z2 : (S.c - S.s a) * g.ev b = 0 := by linarith
  exact ⟨(mul_eq_zero.1 z1).resolve_left (by linarith), (mul_eq_zero.1 z2).resolve_left (by linarith)⟩

theorem middle_end (S : Sep L R) {u v mu mv a b : Point K} {g : Circ K} (hg : Gap L R g u v mu mv)
    (ha : a ∈ L) (hb : b ∈ R) (hd : Del (L ++ R) a b) (hx : ¬ XX u v a b) (huv : u ≠ v)
    (h1 : cross a b (S.pt mu u) < 0) (h2 : 0 < cross a b (S.pt mv v)) : b = u ∨ b = v := by
  obtain ⟨ga, gb⟩ := middle S hg ha hb hd h1 h2
  have la := hg.left a ha ga
  rcases lt_or_eq_of_le (hg.right b hb gb) with h | h
  · exact absurd (cyc4_XX hg.gu hg.gv ga gb la h) hx
  · exact circ_line_eq huv hg.gu hg.gv gb h

/-- The boundary point at `v` is above the boundary point at `u`. -/
theorem gap_order (S : Sep L R) {u v mu mv a b : Point K} {g : Circ K} (hg : Gap L R g u v mu mv)
    (ha : a ∈ L) (hb : b ∈ R) (h : 0 ≤ cross a b (S.pt mu u)) : 0 ≤ cross a b (S.pt mv v) := by
  have pu := S.pos hg.hmu hg.hu
  have pv := S.pos hg.hmv hg.hv
  have pab := S.pos ha hb
  have su := S.pt_s (ne_of_gt pu)
  have sv := S.pt_s (ne_of_gt pv)
  have c1 := S.pt_cross (ne_of_gt pu) mu u
  have c2 := S.pt_cross (ne_of_gt pv) mu u
  rw [cross_self13, cross_self23] at c1
  have z1 : cross mu u (S.pt mu u) = 0 := by
    have h2 : cross mu u (S.pt mu u) * (S.s u - S.s mu) = 0 := by rw [c1]; ring
    exact (mul_eq_zero.1 h2).resolve_right (ne_of_gt pu)
  have n1 := hg.edgeU mv (List.mem_append_left _ hg.hmv) hg.gmv
  have n2 := hg.edgeU v (List.mem_append_right _ hg.hv) hg.gv
  have b1 := mul_nonneg (show 0 ≤ S.s v - S.c by linarith [S.gt' hg.hv]) n1
  have b2 := mul_nonneg (show 0 ≤ S.c - S.s mv by linarith [S.lt' hg.hmv]) n2
  have n3 : 0 ≤ cross mu u (S.pt mv v) := pos_of_mul_neg (by linarith) pv
  set y := S.pt mu u
  set z := S.pt mv v
  have id : (cross a b z - cross a b y) * (S.s u - S.s mu)
      = (cross mu u z - cross mu u y) * (S.s b - S.s a)
        + (S.s z - S.s y) * ((b.x - a.x) * (u.y - mu.y) - (b.y - a.y) * (u.x - mu.x)) := by
    unfold Sep.s cross; ring
  rw [z1, su, sv] at id
  have b3 := mul_nonneg n3 (le_of_lt pab)
  have : 0 ≤ cross a b z - cross a b y := pos_of_mul_neg (by linarith) pu
  linarith

/-- State of the sweep with respect to the edge `u v`: below, between, or done. -/
def St (S : Sep L R) (C : Point K → Point K → Prop) (a b u v mu mv : Point K) : Prop :=
  0 ≤ cross a b (S.pt mu u) ∨ (0 < cross a b (S.pt mv v) ∧ b = u) ∨
    ∃ c, C c u ∧ C c v ∧ DTri (L ++ R) u v c

theorem St.mono {S : Sep L R} {C C' : Point K → Point K → Prop} {a b u v mu mv : Point K}
    (h : St S C a b u v mu mv) (hC : ∀ x y, C x y → C' x y) : St S C' a b u v mu mv := by
  rcases h with h | h | ⟨c, h1, h2, h3⟩
  · exact .inl h
  · exact .inr (.inl h)
  · exact .inr (.inr ⟨c, hC _ _ h1, hC _ _ h2, h3⟩)

theorem St.right {S : Sep L R} {C : Point K → Point K → Prop} {a b c u v mu mv : Point K}
    {g : Circ K} (h : St S C a b u v mu mv) (hg : Gap L R g u v mu mv) (huv : u ≠ v)
    (ha : a ∈ L) (hb : b ∈ R) (hc : c ∈ R) (ht : DTri (L ++ R) a b c) (hab : C a b) (hac : C a c)
    (hx : ¬ XX u v a c) : St S C a c u v mu mv := by
  rcases le_or_gt 0 (cross a c (S.pt mu u)) with g1 | g1
  · exact .inl g1
  right
  have sideU : (∀ p ∈ L ++ R, g.ev p = 0 → 0 ≤ cross mu u p) ∨
      (∀ p ∈ L ++ R, g.ev p = 0 → cross mu u p ≤ 0) := .inl hg.edgeU
  have sideV : (∀ p ∈ L ++ R, g.ev p = 0 → 0 ≤ cross mv v p) ∨
      (∀ p ∈ L ++ R, g.ev p = 0 → cross mv v p ≤ 0) :=
    .inr fun p hp gp => by rw [cross_swap12]; have := hg.edgeV p hp gp; linarith
  have dac : Del (L ++ R) a c := (ht.rot.rot.del).symm
  have found : b = u → c = v → ∃ c, C c u ∧ C c v ∧ DTri (L ++ R) u v c := by
    rintro rfl rfl; exact ⟨a, hab, hac, ht.rot⟩
  have wrong : b = v → c = u → a = mu → False := by
    rintro rfl rfl rfl
    have h1 := ht.1
    have h2 := hg.left a hg.hmu hg.gmu
    have h3 : cross c b a = - cross a b c := cross_swap13 a b c
    linarith
  rcases h with h | ⟨hv, rfl⟩ | h
  · obtain ⟨am, hu⟩ := touch_right S hg.hmu hg.hu hg.emp hg.gmu hg.gu sideU ha hb hc ht h
      (le_of_lt g1)
    rcases lt_or_ge 0 (cross a c (S.pt mv v)) with g2 | g2
    · rcases middle_end S hg ha hc dac hx huv g1 g2 with e | e
      · exact .inl ⟨g2, e⟩
      · rcases hu with hu | hu
        · exact .inr (found hu e)
        · exact .inl ⟨g2, hu⟩
    · right
      have g3 := gap_order S hg ha hb h
      · obtain ⟨-, hv'⟩ := touch_right S hg.hmv hg.hv hg.emp hg.gmv hg.gv sideV ha hb hc ht g3 g2
        rcases hu with hu | hu <;> rcases hv' with hv' | hv'
        · exact absurd (hu.symm.trans hv') huv
        · exact found hu hv'
        · exact (wrong hv' hu am).elim
        · exact absurd (hu.symm.trans hv') huv
  · right
    rcases lt_or_ge 0 (cross a c (S.pt mv v)) with g2 | g2
    · rcases middle_end S hg ha hc dac hx huv g1 g2 with e | e
      · have := ht.1; rw [e] at this; simp at this
      · exact found rfl e
    · obtain ⟨-, hv'⟩ := touch_right S hg.hmv hg.hv hg.emp hg.gmv hg.gv sideV ha hb hc ht
        (le_of_lt hv) g2
      rcases hv' with hv' | hv'
      · exact absurd hv' huv
      · exact found rfl hv'
  · exact .inr h

theorem St.left {S : Sep L R} {C : Point K → Point K → Prop} {a b c u v mu mv : Point K}
    {g : Circ K} (h : St S C a b u v mu mv) (hg : Gap L R g u v mu mv) (huv : u ≠ v)
    (ha : a ∈ L) (hb : b ∈ R) (hc : c ∈ L) (ht : DTri (L ++ R) a b c) : St S C c b u v mu mv := by
  rcases le_or_gt 0 (cross c b (S.pt mu u)) with g1 | g1
  · exact .inl g1
  right
  have sideU : (∀ p ∈ L ++ R, g.ev p = 0 → 0 ≤ cross mu u p) ∨
      (∀ p ∈ L ++ R, g.ev p = 0 → cross mu u p ≤ 0) := .inl hg.edgeU
  have sideV : (∀ p ∈ L ++ R, g.ev p = 0 → 0 ≤ cross mv v p) ∨
      (∀ p ∈ L ++ R, g.ev p = 0 → cross mv v p ≤ 0) :=
    .inr fun p hp gp => by rw [cross_swap12]; have := hg.edgeV p hp gp; linarith
  rcases h with h | ⟨hv, rfl⟩ | h
  · have hu := touch_left S hg.hmu hg.hu hg.emp hg.gmu hg.gu sideU ha hb hc ht h (le_of_lt g1)
    rcases lt_or_ge 0 (cross c b (S.pt mv v)) with g2 | g2
    · exact .inl ⟨g2, hu⟩
    · have g3 := gap_order S hg ha hb h
      have hv := touch_left S hg.hmv hg.hv hg.emp hg.gmv hg.gv sideV ha hb hc ht g3 g2
      exact absurd (hu.symm.trans hv) huv
  · rcases lt_or_ge 0 (cross c b (S.pt mv v)) with g2 | g2
    · exact .inl ⟨g2, rfl⟩
    · have hv := touch_left S hg.hmv hg.hv hg.emp hg.gmv hg.gv sideV ha hb hc ht (le_of_lt hv) g2
      exact absurd hv huv
  · exact .inr h

theorem St.final {S : Sep L R} {C : Point K → Point K → Prop} {a b u v mu mv : Point K}
    {g : Circ K} (h : St S C a b u v mu mv) (hg : Gap L R g u v mu mv) (ha : a ∈ L) (hb : b ∈ R)
    (top : ∀ p ∈ L ++ R, cross a b p ≤ 0) : ∃ c, C c u ∧ C c v ∧ DTri (L ++ R) u v c := by
  rcases h with h | ⟨h, -⟩ | h
  · exfalso
    have pu := S.pos hg.hmu hg.hu
    have pab := S.pos ha hb
    have e := S.pt_cross (ne_of_gt pu) a b
    have m1 := top mu (List.mem_append_left _ hg.hmu)
    have m2 := top u (List.mem_append_right _ hg.hu)
    have m3 := top v (List.mem_append_right _ hg.hv)
    have k := mul_nonneg h (le_of_lt pu)
    have su := S.gt' hg.hu
    have sm := S.lt' hg.hmu
    have b1 := mul_nonneg (show 0 ≤ S.s u - S.c by linarith) (neg_nonneg.2 m1)
    have b2 := mul_nonneg (show 0 ≤ S.c - S.s mu by linarith) (neg_nonneg.2 m2)
    have z1 : (S.s u - S.c) * cross a b mu = 0 := by linarith
    have z2 : (S.c - S.s mu) * cross a b u = 0 := by linarith
    have y1 := (mul_eq_zero.1 z1).resolve_left (by linarith)
    have y2 := (mul_eq_zero.1 z2).resolve_left (by linarith)
    have lv : 0 < cross mu u v := by rw [cross_rot']; exact hg.left mu hg.hmu hg.gmu
    have id : cross a b v * (S.s u - S.s mu) = cross mu u v * (S.s b - S.s a)
        + cross a b u * (S.s v - S.s mu) + cross a b mu * (S.s u - S.s v) := by
      unfold Sep.s cross; ring
    rw [y1, y2] at id
    have t1 := mul_pos lv pab
    have t2 := mul_nonneg (neg_nonneg.2 m3) (le_of_lt pu)
    linarith
  · exfalso
    have pv := S.pos hg.hmv hg.hv
    have e := S.pt_cross (ne_of_gt pv) a b
    have m1 := top mv (List.mem_append_left _ hg.hmv)
    have m2 := top v (List.mem_append_right _ hg.hv)
    have k := mul_pos h pv
    have b1 := mul_nonneg (show 0 ≤ S.s v - S.c by linarith [S.gt' hg.hv]) (neg_nonneg.2 m1)
    have b2 := mul_nonneg (show 0 ≤ S.c - S.s mv by linarith [S.lt' hg.hmv]) (neg_nonneg.2 m2)
    linarith
  · exact h

end HG
