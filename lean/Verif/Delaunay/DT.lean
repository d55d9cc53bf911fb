import Verif.Delaunay.Circle

/-!
# Delaunay triangulations as graphs on points

`DT P A` says that the relation `A` is the edge set of a Delaunay triangulation of `P`: every edge
is on an empty circle and each side of each edge is either free of points or covered by an empty
triangle.  Consequences: edges in every direction in which there are points, presence of the hull
edges, and maximality.
-/

set_option linter.unusedSectionVars false

namespace HG

variable {K : Type} [Field K] [LinearOrder K] [IsStrictOrderedRing K]

structure DT (P : List (Point K)) (A : Point K → Point K → Prop) : Prop where
  symm : ∀ {a b}, A a b → A b a
  mem : ∀ {a b}, A a b → a ∈ P
  ne : ∀ {a b}, A a b → a ≠ b
  del : ∀ {a b}, A a b → Del P a b
  side : ∀ {a b}, A a b → (∀ p ∈ P, cross a b p ≤ 0) ∨ ∃ c, A a c ∧ A b c ∧ DTri P a b c
  deg : ∀ {a}, a ∈ P → ∃ b, A a b
  line : (∀ x ∈ P, ∀ y ∈ P, ∀ z ∈ P, cross x y z = 0) → ∀ {a p}, a ∈ P → p ∈ P → p ≠ a →
    ∃ n, A a n ∧ 0 < dot a p n

/-- The segments `a b` and `c d` cross at interior points of both. -/
def XX (a b c d : Point K) : Prop :=
  cross a b c * cross a b d < 0 ∧ cross c d a * cross c d b < 0

theorem XX.symm {a b c d : Point K} (h : XX a b c d) : XX c d a b := ⟨h.2, h.1⟩

theorem XX.swap {a b c d : Point K} (h : XX a b c d) : XX b a c d := by
  refine ⟨?_, by rw [mul_comm]; exact h.2⟩
  rw [cross_swap12, cross_swap12 a b d]
  linarith [h.1, neg_mul_neg (cross a b c) (cross a b d)]

theorem XX.swap' {a b c d : Point K} (h : XX a b c d) : XX a b d c := h.symm.swap.symm

theorem dot_cross_sq (o a b : Point K) :
    dot o a b * dot o a b + cross o a b * cross o a b = dot o a a * dot o b b := by
  unfold dot cross; ring

theorem dot_comm (o a b : Point K) : dot o a b = dot o b a := by unfold dot; ring

theorem cross_dot (l r u v : Point K) :
    cross r u v * dot r l l = dot r l v * cross l r u - dot r l u * cross l r v := by
  unfold dot cross; ring

theorem cross_dot' (a b u v : Point K) :
    cross a u v * dot a b b = dot a b u * cross a b v - dot a b v * cross a b u := by
  unfold dot cross; ring

theorem plucker (r l u v q : Point K) :
    cross r u v * cross l r q = - (cross l r u * cross r v q) + cross r u q * cross l r v := by
  unfold cross; ring

theorem dot_ne_zero {l r n : Point K} (hl : l ≠ r) (hn : n ≠ r) (hc : cross l r n = 0) :
    dot r l n ≠ 0 := by
  intro h
  have h1 := dot_cross_sq r l n
  have h2 : cross r l n = 0 := by rw [cross_swap12, hc, neg_zero]
  rw [h, h2] at h1
  have := mul_pos (dot_self_pos hl) (dot_self_pos hn)
  rw [← h1] at this
  simp at this

theorem ray_eq {r w n : Point K} (h0 : cross r w n = 0) (h1 : 0 < dot r w n) (h2 : ¬ Mid r w n)
    (h3 : ¬ Mid r n w) : n = w := by
  have d1 : (diam r w).ev n = dot r n n - dot r w n := by rw [ev_diam]; unfold dot; ring
  have d2 : (diam r n).ev w = dot r w w - dot r w n := by rw [ev_diam]; unfold dot; ring
  have e1 : dot r w n ≤ dot r n n := by
    by_contra hc
    exact h2 ⟨h0, by rw [d1]; linarith⟩
  have e2 : dot r w n ≤ dot r w w := by
    by_contra hc
    exact h3 ⟨by rw [cross_swap23, h0, neg_zero], by rw [d2]; linarith⟩
  have e3 := dot_cross_sq r w n
  rw [h0] at e3
  have e4 : dot r w w = dot r w n := by nlinarith
  have e5 : dot r n n = dot r w n := by nlinarith
  by_contra hne
  have := dot_self_pos hne
  have e6 : dot w n n = dot r w w + dot r n n - 2 * dot r w n := by unfold dot; ring
  linarith

/-- The first point in clockwise order in a closed half-plane. -/
theorem extreme_first {l r : Point K} (hl : l ≠ r) (N : Finset (Point K)) (hN : N.Nonempty)
    (h : ∀ n ∈ N, n ≠ r ∧ cross l r n ≤ 0) :
    ∃ u ∈ N, (∀ n ∈ N, cross r u n ≤ 0) ∧
      (cross l r u = 0 → 0 < dot r l u → ∀ n ∈ N, cross l r n = 0 ∧ 0 < dot r l n) := by
  have hE := dot_self_pos hl
  have fin : ∀ {x : K}, x * dot r l l ≤ 0 → x ≤ 0 := by
    intro x hx
    by_contra hc
    have := mul_pos (not_le.1 hc) hE
    linarith
  by_cases h1 : ∃ n ∈ N, cross l r n = 0 ∧ dot r l n < 0
  · obtain ⟨u, hu, hc, hd⟩ := h1
    refine ⟨u, hu, fun n hn => fin ?_, fun _ h3 => absurd h3 (not_lt.2 (le_of_lt hd))⟩
    rw [cross_dot, hc]
    have := mul_nonneg_of_nonpos_of_nonpos (le_of_lt hd) (h n hn).2
    linarith
  · push Not at h1
    have pos : ∀ n ∈ N, cross l r n = 0 → 0 < dot r l n := fun n hn hc =>
      lt_of_le_of_ne (h1 n hn hc) (Ne.symm (dot_ne_zero hl (h n hn).1 hc))
    by_cases h2 : ∃ n ∈ N, cross l r n < 0
    · classical
      obtain ⟨u, hu, hmax⟩ := Finset.exists_max_image (N.filter fun n => cross l r n < 0)
        (fun n => dot r l n / cross l r n) (by
          obtain ⟨n, hn, hc⟩ := h2
          exact ⟨n, Finset.mem_filter.2 ⟨hn, hc⟩⟩)
      rw [Finset.mem_filter] at hu
      refine ⟨u, hu.1, fun n hn => fin ?_, fun h3 => absurd h3 (ne_of_lt hu.2)⟩
      rw [cross_dot]
      rcases lt_or_eq_of_le (h n hn).2 with hc | hc
      · have := hmax n (Finset.mem_filter.2 ⟨hn, hc⟩)
        have h5 := mul_le_mul_of_nonneg_right this
          (mul_nonneg_of_nonpos_of_nonpos (le_of_lt hu.2) (le_of_lt hc))
        have hu' := ne_of_lt hu.2
        have hc' := ne_of_lt hc
        have e1 : dot r l n / cross l r n * (cross l r u * cross l r n)
            = dot r l n * cross l r u := by field_simp
        have e2 : dot r l u / cross l r u * (cross l r u * cross l r n)
            = dot r l u * cross l r n := by field_simp
        rw [e1, e2] at h5
        linarith
      · rw [hc]
        have := mul_neg_of_pos_of_neg (pos n hn hc) hu.2
        linarith
    · push Not at h2
      have hz : ∀ n ∈ N, cross l r n = 0 := fun n hn => le_antisymm (h n hn).2 (h2 n hn)
      obtain ⟨u, hu⟩ := hN
      refine ⟨u, hu, fun n hn => fin ?_, fun _ _ n hn => ⟨hz n hn, pos n hn (hz n hn)⟩⟩
      rw [cross_dot, hz n hn, hz u hu]
      simp

/-- The last point in clockwise order in a closed half-plane. -/
theorem extreme_last {l r : Point K} (hl : l ≠ r) (N : Finset (Point K)) (hN : N.Nonempty)
    (h : ∀ n ∈ N, n ≠ r ∧ cross l r n ≤ 0) :
    ∃ u ∈ N, (∀ n ∈ N, 0 ≤ cross r u n) ∧
      (cross l r u = 0 → dot r l u < 0 → ∀ n ∈ N, cross l r n = 0 ∧ dot r l n < 0) := by
  have hE := dot_self_pos hl
  have fin : ∀ {x : K}, 0 ≤ x * dot r l l → 0 ≤ x := by
    intro x hx
    by_contra hc
    have := mul_neg_of_neg_of_pos (not_le.1 hc) hE
    linarith
  by_cases h1 : ∃ n ∈ N, cross l r n = 0 ∧ 0 < dot r l n
  · obtain ⟨u, hu, hc, hd⟩ := h1
    refine ⟨u, hu, fun n hn => fin ?_, fun _ h3 => absurd h3 (not_lt.2 (le_of_lt hd))⟩
    rw [cross_dot, hc]
    have := mul_nonneg (le_of_lt hd) (neg_nonneg.2 (h n hn).2)
    linarith
  · push Not at h1
    have pos : ∀ n ∈ N, cross l r n = 0 → dot r l n < 0 := fun n hn hc =>
      lt_of_le_of_ne (h1 n hn hc) (dot_ne_zero hl (h n hn).1 hc)
    by_cases h2 : ∃ n ∈ N, cross l r n < 0
    · classical
      obtain ⟨u, hu, hmax⟩ := Finset.exists_min_image (N.filter fun n => cross l r n < 0)
        (fun n => dot r l n / cross l r n) (by
          obtain ⟨n, hn, hc⟩ := h2
          exact ⟨n, Finset.mem_filter.2 ⟨hn, hc⟩⟩)
      rw [Finset.mem_filter] at hu
      refine ⟨u, hu.1, fun n hn => fin ?_, fun h3 => absurd h3 (ne_of_lt hu.2)⟩
      rw [cross_dot]
      rcases lt_or_eq_of_le (h n hn).2 with hc | hc
      · have := hmax n (Finset.mem_filter.2 ⟨hn, hc⟩)
        have h5 := mul_le_mul_of_nonneg_right this
          (mul_nonneg_of_nonpos_of_nonpos (le_of_lt hu.2) (le_of_lt hc))
        have hu' := ne_of_lt hu.2
        have hc' := ne_of_lt hc
        have e1 : dot r l n / cross l r n * (cross l r u * cross l r n)
            = dot r l n * cross l r u := by field_simp
        have e2 : dot r l u / cross l r u * (cross l r u * cross l r n)
            = dot r l u * cross l r n := by field_simp
        rw [e1, e2] at h5
        linarith
      · rw [hc]
        have := mul_pos_of_neg_of_neg (pos n hn hc) hu.2
        linarith
    · push Not at h2
      have hz : ∀ n ∈ N, cross l r n = 0 := fun n hn => le_antisymm (h n hn).2 (h2 n hn)
      obtain ⟨u, hu⟩ := hN
      refine ⟨u, hu, fun n hn => fin ?_, fun _ _ n hn => ⟨hz n hn, pos n hn (hz n hn)⟩⟩
      rw [cross_dot, hz n hn, hz u hu]
      simp

theorem cross_line {r u x y z : Point K} (hu : u ≠ r) (hx : cross r u x = 0) (hy : cross r u y = 0)
    (hz : cross r u z = 0) : cross x y z = 0 := by
  have hE := dot_self_pos hu
  have : cross x y z * dot r u u = 0 := by
    have e : cross x y z * dot r u u
        = cross r u x * (dot r u z - dot r u y) + cross r u y * (dot r u x - dot r u z)
          + cross r u z * (dot r u y - dot r u x) := by unfold cross dot; ring
    rw [e, hx, hy, hz]; ring
  exact (mul_eq_zero.1 this).resolve_right (ne_of_gt hE)

theorem lin_dot (l r p n : Point K) :
    cross l r n * dot r p p = cross l r p * dot r p n - cross r p n * dot r l p := by
  unfold cross dot; ring

/-- If there is a point on one side of a line through `r`, then `r` has a neighbour there. -/
theorem DT.cone {P : List (Point K)} {A : Point K → Point K → Prop} (h : DT P A) {l r p : Point K}
    (hr : r ∈ P) (hp : p ∈ P) (hpos : 0 < cross l r p) : ∃ n, A r n ∧ 0 < cross l r n := by
  classical
  by_contra hcon
  push Not at hcon
  have hl : l ≠ r := by rintro rfl; simp at hpos
  have hE := dot_self_pos hl
  set N : Finset (Point K) := P.toFinset.filter fun n => A r n with hNdef
  have memN : ∀ {n}, n ∈ N ↔ A r n := by
    intro n
    rw [hNdef, Finset.mem_filter, List.mem_toFinset]
    exact ⟨fun x => x.2, fun x => ⟨h.mem (h.symm x), x⟩⟩
  have hNne : N.Nonempty := by
    obtain ⟨b, hb⟩ := h.deg hr
    exact ⟨b, memN.2 hb⟩
  have hN : ∀ n ∈ N, n ≠ r ∧ cross l r n ≤ 0 := fun n hn =>
    ⟨Ne.symm (h.ne (memN.1 hn)), hcon n (memN.1 hn)⟩
  obtain ⟨u, hu, hu1, hu2⟩ := extreme_first hl N hNne hN
  obtain ⟨v, hv, hv1, hv2⟩ := extreme_last hl N hNne hN
  have Hu : ∀ q ∈ P, cross r u q ≤ 0 := by
    rcases h.side (memN.1 hu) with h1 | ⟨c, hc, -, ht⟩
    · exact h1
    · exact absurd ht.1 (not_lt.2 (hu1 c (memN.2 hc)))
  have Hv : ∀ q ∈ P, 0 ≤ cross r v q := by
    rcases h.side (h.symm (memN.1 hv)) with h1 | ⟨c, -, hc, ht⟩
    · intro q hq
      have := h1 q hq
      rw [cross_swap12] at this
      linarith
    · have h1 := hv1 c (memN.2 hc)
      have h2 := ht.1
      rw [cross_swap12] at h2
      linarith
  have cu := (hN u hu).2
  have cv := (hN v hv).2
  have pl := plucker r l u v p
  have t1 := mul_nonneg_of_nonpos_of_nonpos (Hu p hp) cv
  have t2 := mul_nonneg (neg_nonneg.2 cu) (Hv p hp)
  have t3 := mul_nonneg (neg_nonneg.2 (hu1 v hv)) (le_of_lt hpos)
  have z1 : cross r u v * cross l r p = 0 := by linarith
  have z2 : cross l r u * cross r v p = 0 := by linarith
  have z3 : cross r u p * cross l r v = 0 := by linarith
  have z1' := (mul_eq_zero.1 z1).resolve_right (ne_of_gt hpos)
  rcases lt_or_eq_of_le cu with cu' | cu'
  · have z2' := (mul_eq_zero.1 z2).resolve_left (ne_of_lt cu')
    have cv' : cross l r v < 0 := by
      refine lt_of_le_of_ne cv fun hz => ?_
      have := cross_dot l r v p
      rw [z2', hz] at this
      have h2 : dot r l v * cross l r p = 0 := by linarith
      exact dot_ne_zero hl (hN v hv).1 hz ((mul_eq_zero.1 h2).resolve_right (ne_of_gt hpos))
    have z3' := (mul_eq_zero.1 z3).resolve_right (ne_of_lt cv')
    have allz : ∀ q ∈ P, cross r u q = 0 := by
      intro q hq
      have pq := plucker r l u v q
      rw [z1'] at pq
      have s1 := mul_nonneg_of_nonpos_of_nonpos (Hu q hq) cv
      have s2 := mul_nonneg (neg_nonneg.2 cu) (Hv q hq)
      have : cross r u q * cross l r v = 0 := by linarith
      exact (mul_eq_zero.1 this).resolve_right (ne_of_lt cv')
    have hcol : ∀ x ∈ P, ∀ y ∈ P, ∀ z ∈ P, cross x y z = 0 := fun x hx y hy z hz =>
      cross_line (hN u hu).1 (allz x hx) (allz y hy) (allz z hz)
    have hpr : p ≠ r := by rintro rfl; simp at hpos
    obtain ⟨n, hn, hd⟩ := h.line hcol hr hp hpr
    have e := lin_dot l r p n
    rw [hcol r hr p hp n (h.mem (h.symm hn))] at e
    have f1 := mul_pos hpos hd
    have f2 := mul_nonneg (neg_nonneg.2 (hcon n hn)) (le_of_lt (dot_self_pos hpr))
    linarith
  · have e1 := cross_dot l r u p
    rw [cu'] at e1
    have d1 := dot_ne_zero hl (hN u hu).1 cu'
    have d2 : 0 < dot r l u := by
      refine lt_of_le_of_ne ?_ (Ne.symm d1)
      by_contra hc
      have s1 := mul_neg_of_neg_of_pos (not_le.1 hc) hpos
      have s2 := mul_nonneg (neg_nonneg.2 (Hu p hp)) (le_of_lt hE)
      linarith
    obtain ⟨v1, v2⟩ := hu2 cu' d2 v hv
    have e2 := cross_dot l r v p
    rw [v1] at e2
    have s1 := mul_pos v2 hpos
    have s2 := mul_nonneg (Hv p hp) (le_of_lt hE)
    linarith

/-- Hull edges that contain no other point are edges of the triangulation. -/
theorem DT.hull {P : List (Point K)} {A : Point K → Point K → Prop} (h : DT P A) {r w : Point K}
    (hr : r ∈ P) (hw : w ∈ P) (hrw : r ≠ w) (hs : ∀ p ∈ P, cross r w p ≤ 0)
    (hm : ∀ p ∈ P, ¬ Mid r w p) : A r w := by
  have hk : ∀ Q : List (Point K), (∀ p ∈ Q, cross r w p ≤ 0) →
      ∃ k : K, 0 ≤ k ∧ ∀ p ∈ Q, cross r w p < 0 → k * cross r w p + dot r w p ≤ 0 := by
    intro Q
    induction Q with
    | nil => intro _; exact ⟨0, le_refl _, fun p hp => by simp at hp⟩
    | cons q Q ih =>
      intro hQ
      obtain ⟨k, hk0, hk⟩ := ih fun p hp => hQ p (List.mem_cons_of_mem _ hp)
      refine ⟨k + |dot r w q| / |cross r w q|, by positivity, fun p hp hc => ?_⟩
      have hn : 0 ≤ |dot r w q| / |cross r w q| := by positivity
      rcases List.mem_cons.1 hp with rfl | hp
      · have e1 : |dot r w p| / |cross r w p| * cross r w p = - |dot r w p| := by
          rw [abs_of_neg hc]
          have := ne_of_lt hc
          field_simp
        have e2 := le_abs_self (dot r w p)
        have e3 := mul_nonneg hk0 (neg_nonneg.2 (le_of_lt hc))
        nlinarith
      · have e1 := hk p hp hc
        have e2 := mul_nonneg hn (neg_nonneg.2 (le_of_lt hc))
        nlinarith
  obtain ⟨k, hk0, hk⟩ := hk P hs
  let l : Point K := ⟨r.x - (k * (w.x - r.x) + (w.y - r.y)), r.y - (k * (w.y - r.y) - (w.x - r.x))⟩
  have hl : ∀ q, cross l r q = k * cross r w q + dot r w q := by
    intro q; simp only [l, cross, dot]; ring
  obtain ⟨n, hn, hpos⟩ := h.cone (l := l) hr hw (by
    rw [hl]; simp only [cross_self23]; have := dot_self_pos (Ne.symm hrw); linarith)
  rw [hl] at hpos
  have hnP := h.mem (h.symm hn)
  have hz : cross r w n = 0 := by
    rcases lt_or_eq_of_le (hs n hnP) with hc | hc
    · exact absurd (hk n hnP hc) (not_le.2 hpos)
    · exact hc
  rw [hz] at hpos
  have hd : 0 < dot r w n := by linarith
  have := ray_eq hz hd (hm n hnP) ((h.del hn).not_mid hw)
  rw [← this]; exact hn

/-- Maximality: a segment between two points that crosses no edge and contains no further point
is an edge. -/
theorem DT.maximal {P : List (Point K)} {A : Point K → Point K → Prop} (h : DT P A) {a b : Point K}
    (ha : a ∈ P) (hb : b ∈ P) (hab : a ≠ b) (hm : ∀ p ∈ P, ¬ Mid a b p)
    (hx : ∀ c d, A c d → ¬ XX a b c d) : A a b := by
  classical
  have hE := dot_self_pos (Ne.symm hab)
  by_cases h1 : ∃ n, A a n ∧ 0 < cross a b n
  · set N : Finset (Point K) := P.toFinset.filter fun n => A a n ∧ 0 < cross a b n with hNdef
    have memN : ∀ {n}, n ∈ N ↔ A a n ∧ 0 < cross a b n := by
      intro n
      rw [hNdef, Finset.mem_filter, List.mem_toFinset]
      exact ⟨fun x => x.2, fun x => ⟨h.mem (h.symm x.1), x⟩⟩
    obtain ⟨n0, hn0⟩ := h1
    obtain ⟨n, hn, hmax⟩ := Finset.exists_max_image N (fun n => dot a b n / cross a b n)
      ⟨n0, memN.2 hn0⟩
    obtain ⟨hAn, hcn⟩ := memN.1 hn
    rcases h.side (h.symm hAn) with h2 | ⟨c, hnc, hac, ht⟩
    · have := h2 b hb
      rw [cross_rot'] at this
      linarith [cross_rot a b n, cross_rot' a b n, cross_rot b n a, cross_rot' b n a]
    · have ht0 := ht.1
      rcases lt_trichotomy (cross a b c) 0 with hc | hc | hc
      · exfalso
        refine hx n c hnc ⟨mul_neg_of_pos_of_neg hcn hc, mul_neg_of_neg_of_pos ?_ ?_⟩
        · rw [cross_swap23]; linarith
        · by_contra hcon
          obtain ⟨h0, f, hf, fn, fa, fc⟩ := ht
          have := dtri_corner h0 fn fa fc (q := b)
            (by linarith [cross_rot a b c, cross_swap12 a b c, cross_swap12 b a c])
            (by rw [cross_swap23]; linarith)
            (by linarith [cross_rot' a b n, cross_rot n a b]) (hf b hb)
          rcases this with e | e | e
          · rw [e] at hcn; simp at hcn
          · exact hab e.symm
          · rw [e] at hc; simp at hc
      · have e := cross_dot' a b n c
        rw [hc] at e
        have hneg : cross a n c < 0 := by rw [cross_swap12]; linarith
        have hd : 0 < dot a b c := by
          by_contra hcon
          have s1 := mul_nonneg (neg_nonneg.2 (not_lt.1 hcon)) (le_of_lt hcn)
          have s2 := mul_neg_of_neg_of_pos hneg hE
          linarith
        have hcP := h.mem (h.symm hac)
        have := ray_eq hc hd (hm c hcP) ((h.del hac).not_mid hb)
        rw [← this]; exact hac
      · exfalso
        have := hmax c (memN.2 ⟨hac, hc⟩)
        have h5 := mul_le_mul_of_nonneg_right this (mul_nonneg (le_of_lt hcn) (le_of_lt hc))
        have hu' := ne_of_gt hcn
        have hc' := ne_of_gt hc
        have e1 : dot a b c / cross a b c * (cross a b n * cross a b c)
            = dot a b c * cross a b n := by field_simp
        have e2 : dot a b n / cross a b n * (cross a b n * cross a b c)
            = dot a b n * cross a b c := by field_simp
        rw [e1, e2] at h5
        have e := cross_dot' a b n c
        have hneg : cross a n c < 0 := by rw [cross_swap12]; linarith
        have s2 := mul_neg_of_neg_of_pos hneg hE
        linarith
  · refine h.hull ha hb hab (fun p hp => ?_) hm
    by_contra hc
    apply h1
    let l : Point K := ⟨2 * a.x - b.x, 2 * a.y - b.y⟩
    have hl : ∀ q, cross l a q = cross a b q := by intro q; simp only [l, cross]; ring
    obtain ⟨n, hn, hn'⟩ := h.cone (l := l) ha hp (by rw [hl]; exact not_le.1 hc)
    exact ⟨n, hn, by rw [← hl]; exact hn'⟩

/-- If an empty circle through `r` touches a point of `R` on one side of a line through `r`, then it
touches a neighbour of `r` on that side. -/
theorem DT.nbr {R P : List (Point K)} {A : Point K → Point K → Prop} (h : DT R A)
    (hR : ∀ p ∈ R, p ∈ P) {l r q : Point K} {g : Circ K} (hg : g.Empty P)
    (gr : g.ev r = 0) (gq : g.ev q = 0) (hr : r ∈ R) (hq : q ∈ R) (hpos : 0 < cross l r q) :
    ∃ c, A r c ∧ 0 < cross l r c ∧ g.ev c = 0 := by
  classical
  set N : Finset (Point K) := R.toFinset.filter fun n => A r n ∧ 0 < cross l r n with hNdef
  have memN : ∀ {n}, n ∈ N ↔ A r n ∧ 0 < cross l r n := by
    intro n
    rw [hNdef, Finset.mem_filter, List.mem_toFinset]
    exact ⟨fun x => x.2, fun x => ⟨h.mem (h.symm x.1), x⟩⟩
  obtain ⟨n0, hn0, hn0'⟩ := h.cone hr hq hpos
  obtain ⟨c, hc, hmin⟩ := Finset.exists_min_image N (fun n => g.ev n / cross l r n)
    ⟨n0, memN.2 ⟨hn0, hn0'⟩⟩
  obtain ⟨hAc, hcc⟩ := memN.1 hc
  have hcR := h.mem (h.symm hAc)
  have hgc := hg c (hR c hcR)
  rcases lt_or_eq_of_le hgc with hgc' | hgc'
  swap
  · exact ⟨c, hAc, hcc, hgc'.symm⟩
  exfalso
  set k : K := - (g.ev c / cross l r c) with hk
  have hk0 : k < 0 := by rw [hk]; have := div_pos hgc' hcc; linarith
  set G := g.tilt k l r with hG
  have Gev : ∀ p, G.ev p = g.ev p + k * cross l r p := fun p => ev_tilt g k l r p
  have Gr : G.ev r = 0 := by rw [Gev, gr]; simp
  have Gc : G.ev c = 0 := by
    rw [Gev, hk]
    have := ne_of_gt hcc
    field_simp
    ring
  have Gq : G.ev q < 0 := by rw [Gev, gq]; have := mul_neg_of_neg_of_pos hk0 hpos; linarith
  have Gn : ∀ n, A r n → 0 ≤ G.ev n := by
    intro n hn
    rw [Gev]
    rcases le_or_gt (cross l r n) 0 with hc0 | hc0
    · have := mul_nonneg_of_nonpos_of_nonpos (le_of_lt hk0) hc0
      have := hg n (hR n (h.mem (h.symm hn)))
      linarith
    · have h1 := hmin n (memN.2 ⟨hn, hc0⟩)
      have h2 := mul_le_mul_of_nonneg_right h1 (le_of_lt hc0)
      have e : g.ev n / cross l r n * cross l r n = g.ev n := by
        have := ne_of_gt hc0
        field_simp
      rw [e] at h2
      rw [hk]
      linarith
  rcases lt_trichotomy (cross r c q) 0 with hs | hs | hs
  · rcases h.side (h.symm hAc) with h1 | ⟨d, -, hrd, h0, f, hf, fc, fr, fd⟩
    · have := h1 q hq
      rw [cross_swap12] at this
      linarith
    · have e := aff3 G f c r d q
      rw [Gc, Gr, fc, fr, fd] at e
      have e1 : (G.ev q - f.ev q) * cross c r d = G.ev d * cross c r q := by linarith
      have e2 := mul_nonneg (Gn d hrd) (show 0 ≤ cross c r q by rw [cross_swap12]; linarith)
      have e3 := hf q hq
      have e4 := mul_neg_of_neg_of_pos (show G.ev q - f.ev q < 0 by linarith) h0
      linarith
  · have := circ_line (h.ne hAc) Gr Gc hs
    exact (h.del hAc).not_mid hq ⟨hs, by rw [← this]; exact Gq⟩
  · rcases h.side hAc with h1 | ⟨d, hrd, -, h0, f, hf, fr, fc, fd⟩
    · have := h1 q hq
      linarith
    · have e := aff3 G f r c d q
      rw [Gc, Gr, fc, fr, fd] at e
      have e1 : (G.ev q - f.ev q) * cross r c d = G.ev d * cross r c q := by linarith
      have e2 := mul_nonneg (Gn d hrd) (le_of_lt hs)
      have e3 := hf q hq
      have e4 := mul_neg_of_neg_of_pos (show G.ev q - f.ev q < 0 by linarith) h0
      linarith

end HG
