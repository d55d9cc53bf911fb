import Verif.Props.AxisEdge

/-!
# C67: convex contours have edges parallel to one axis only

In one of the axes all coordinates of the points in general position are different, so no vector a
convex contour is made of has a zero there.  Apart from triangles and rectangles, which are drawn
separately, the edges that are parallel to an axis are thus parallel to the same axis.
-/

set_option linter.unusedSectionVars false

namespace HG

open Strategy Spec
open scoped List

section
variable {K : Type} [CommRing K] [LinearOrder K]

/-- An edge of a contour goes straight up or down. -/
def Spec.HasVerticalEdge (l : List (Point K)) : Prop :=
  ∃ i < l.length, (cyc l i).x = (cyc l (i + 1)).x

/-- An edge of a contour goes straight to the left or to the right. -/
def Spec.HasHorizontalEdge (l : List (Point K)) : Prop :=
  ∃ i < l.length, (cyc l i).y = (cyc l (i + 1)).y

/-- The contour of a rectangle with sides parallel to the axes. -/
def Spec.IsRectangle (l : List (Point K)) : Prop :=
  ∃ a b c d : K, l = [⟨a, c⟩, ⟨b, c⟩, ⟨b, d⟩, ⟨a, d⟩]

end

section
variable {K : Type} [CommRing K] [LinearOrder K] [IsStrictOrderedRing K]

/-! ### Sequences of steps that go up at most once -/

theorem exists_neg_of_sum {l : List K} {a : K} (h : a + l.sum = 0) (ha : 0 < a) :
    ∃ b ∈ l, b < 0 := by
  by_contra hn
  push Not at hn
  linarith [List.sum_nonneg hn]

theorem exists_pos_of_sum {l : List K} {a : K} (h : a + l.sum = 0) (ha : a < 0) :
    ∃ b ∈ l, 0 < b := by
  by_contra hn
  push Not at hn
  have : ∀ l : List K, (∀ b ∈ l, b ≤ 0) → l.sum ≤ 0 := by
    intro l hl
    induction l with
    | nil => simp
    | cons c l ih =>
      rw [List.sum_cons]
      linarith [hl c (by simp), ih fun b hb => hl b (by simp [hb])]
  linarith [this l hn]

/-- A closed walk on a line without standing still, which does not go up, down and up again, is at
its lowest and at its highest place once only. -/
theorem extreme_once {l t r : List K} (h0 : ∀ a ∈ l ++ t ++ r, a ≠ 0)
    (hs : (l ++ t ++ r).sum = 0)
    (hup : ∀ a b c, [a, b, c] <+ l ++ t ++ r → 0 < a → b < 0 → ¬ 0 < c)
    (ht : t ≠ []) (hr : r ≠ []) (hz : t.sum = 0)
    (hext : (∀ k k', l ++ t ++ r = k ++ k' → l.sum ≤ k.sum) ∨
      ∀ k k', l ++ t ++ r = k ++ k' → k.sum ≤ l.sum) : False := by
  obtain ⟨t0, t', rfl⟩ := List.exists_cons_of_ne_nil ht
  obtain ⟨r0, r', rfl⟩ := List.exists_cons_of_ne_nil hr
  have nt : t0 ≠ 0 := h0 t0 (by simp)
  have nr : r0 ≠ 0 := h0 r0 (by simp)
  have e1 : l ++ t0 :: t' ++ r0 :: r' = (l ++ [t0]) ++ (t' ++ r0 :: r') := by simp
  have e2 : l ++ t0 :: t' ++ r0 :: r' = (l ++ t0 :: t' ++ [r0]) ++ r' := by simp
  have s1 : (l ++ [t0]).sum = l.sum + t0 := by simp
  have s2 : (l ++ t0 :: t' ++ [r0]).sum = l.sum + (t0 :: t').sum + r0 := by
    simp [List.sum_append, add_assoc]
  have hzt : t0 + t'.sum = 0 := by simpa using hz
  rcases hext with hext | hext
  · have a1 := hext _ _ e1
    have a2 := hext _ _ e2
    rw [s1] at a1
    rw [s2, hz] at a2
    have p1 : 0 < t0 := lt_of_le_of_ne (by linarith) nt.symm
    have p2 : 0 < r0 := lt_of_le_of_ne (by linarith) nr.symm
    obtain ⟨b, hb, hneg⟩ := exists_neg_of_sum hzt p1
    refine hup t0 b r0 ?_ p1 hneg p2
    have h1 : [t0, b] <+ t0 :: t' := List.Sublist.cons_cons _ (List.singleton_sublist.2 hb)
    have h2 : [r0] <+ r0 :: r' := by simp
    exact ((h1.trans (List.sublist_append_right l _)).append h2)
  · have a1 := hext _ _ e1
    have a2 := hext _ _ e2
    rw [s1] at a1
    rw [s2, hz] at a2
    have p1 : t0 < 0 := lt_of_le_of_ne (by linarith) nt
    have p2 : r0 < 0 := lt_of_le_of_ne (by linarith) nr
    obtain ⟨b, hb, hpos⟩ := exists_pos_of_sum hzt p1
    rcases List.eq_nil_or_concat l with rfl | ⟨l', a, rfl⟩
    · have hzr : r0 + r'.sum = 0 := by
        simp only [List.nil_append, List.sum_append, hz, List.sum_cons] at hs
        linarith
      obtain ⟨c, hc, hpos'⟩ := exists_pos_of_sum hzr p2
      refine hup b r0 c ?_ hpos p2 hpos'
      have h1 : [b] <+ [] ++ t0 :: t' := List.singleton_sublist.2 (by simp [hb])
      have h2 : [r0, c] <+ r0 :: r' := List.Sublist.cons_cons _ (List.singleton_sublist.2 hc)
      exact h1.append h2
    · simp only [List.concat_eq_append] at *
      have a3 := hext l' ([a] ++ (t0 :: t' ++ r0 :: r')) (by simp)
      rw [List.sum_append, List.sum_singleton] at a3
      have p3 : 0 < a := lt_of_le_of_ne (by linarith) (h0 a (by simp)).symm
      refine hup a t0 b ?_ p3 p1 hpos
      have h1 : [a] <+ l' ++ [a] := List.sublist_append_right _ _
      have h2 : [t0, b] <+ t0 :: t' := List.Sublist.cons_cons _ (List.singleton_sublist.2 hb)
      exact (h1.append h2).trans (List.sublist_append_left _ _)

/-! ### Signs along vectors sorted by angle -/

theorem sector_signs_x {vs : List (K × K)}
    (hq : vs.Pairwise fun v w => sector v.1 v.2 ≤ sector w.1 w.2) (a b c : K)
    (h : [a, b, c] <+ vs.map Prod.fst) (ha : 0 < a) (hb : b < 0) : ¬ 0 < c := by
  obtain ⟨l, hl, e⟩ := List.sublist_map_iff.1 h
  obtain ⟨v, l, rfl, rfl, e2⟩ := List.map_eq_cons_iff.1 e.symm
  obtain ⟨w, l, rfl, rfl, e3⟩ := List.map_eq_cons_iff.1 e2
  obtain ⟨u, l, rfl, rfl, -⟩ := List.map_eq_cons_iff.1 e3
  have hp := hq.sublist hl
  simp only [List.pairwise_cons, List.mem_cons] at hp
  have h1 := hp.1 w (.inl rfl)
  have h2 := hp.2.1 u (.inl rfl)
  have := sector_pos (y := v.2) ha
  have h5 : 5 ≤ sector w.1 w.2 := by
    by_contra h5
    linarith [sector_mid (x := w.1) (y := w.2) (by omega) (by omega)]
  exact not_lt.2 (five_le_sector (h5.trans h2))

theorem sector_signs_y {vs : List (K × K)}
    (hq : vs.Pairwise fun v w => sector v.1 v.2 ≤ sector w.1 w.2) (a b c : K)
    (h : [a, b, c] <+ vs.map Prod.snd) (ha : 0 < a) (hb : b < 0) : ¬ 0 < c := by
  obtain ⟨l, hl, e⟩ := List.sublist_map_iff.1 h
  obtain ⟨v, l, rfl, rfl, e2⟩ := List.map_eq_cons_iff.1 e.symm
  obtain ⟨w, l, rfl, rfl, -⟩ := List.map_eq_cons_iff.1 e2
  have hp := hq.sublist hl
  simp only [List.pairwise_cons, List.mem_cons] at hp
  have h1 := hp.1 w (.inl rfl)
  have := sector_neg (x := w.1) hb
  exact absurd (sector_le_three (x := v.1) (y := v.2) (by omega)) (not_le.2 ha)

/-- No edge of the hull of a closed walk along vectors sorted by angle is perpendicular to an axis
unless one of the vectors is: `f` is a coordinate and `g` the one of the vectors. -/
theorem walk_no_edge {vs : List (K × K)} {p : Point K} {h : List (Point K)}
    (ho : HullOk h (chainPositions p vs)) (h3 : 3 ≤ h.length) (f : Point K → K) (g : K × K → K)
    (hpos : ∀ q ∈ chainPositions p vs, ∃ l1 l2, vs = l1 ++ l2 ∧ l2 ≠ [] ∧
      q = ⟨p.x + (l1.map Prod.fst).sum, p.y + (l1.map Prod.snd).sum⟩)
    (hf : ∀ l : List (K × K), f ⟨p.x + (l.map Prod.fst).sum, p.y + (l.map Prod.snd).sum⟩ =
      f p + (l.map g).sum)
    (h0 : ∀ v ∈ vs, g v ≠ 0) (hs : (vs.map g).sum = 0)
    (hup : ∀ a b c, [a, b, c] <+ vs.map g → 0 < a → b < 0 → ¬ 0 < c)
    (hside : ∀ a b : Point K, a ≠ b → f a = f b →
      (∀ q ∈ chainPositions p vs, 0 ≤ area2 a b q) →
      (∀ q ∈ chainPositions p vs, f a ≤ f q) ∨ ∀ q ∈ chainPositions p vs, f q ≤ f a)
    {i : ℕ} (hi : i < h.length) : f (cyc h i) ≠ f (cyc h (i + 1)) := by
  intro e
  have hne : cyc h i ≠ cyc h (i + 1) := by
    intro hc
    rw [← cyc_mod h (i + 1)] at hc
    have := cyc_inj ho.convex.1 hi (Nat.mod_lt _ (by omega)) hc
    rcases Nat.lt_or_ge (i + 1) h.length with h1 | h1
    · rw [Nat.mod_eq_of_lt h1] at this; omega
    · rw [show i + 1 = h.length by omega, Nat.mod_self] at this; omega
  have hext := hside _ _ hne e fun q hq => ho.left i hi q hq
  obtain ⟨l1, l2, e1, n1, q1⟩ := hpos _ (ho.sub _ (cyc_mem (by omega) i))
  obtain ⟨k1, k2, e2, n2, q2⟩ := hpos _ (ho.sub _ (cyc_mem (by omega) (i + 1)))
  have key : ∀ (l t r : List (K × K)), vs = l ++ t ++ r → t ≠ [] → r ≠ [] →
      (t.map g).sum = 0 →
      ((∀ q ∈ chainPositions p vs, f p + (l.map g).sum ≤ f q) ∨
        ∀ q ∈ chainPositions p vs, f q ≤ f p + (l.map g).sum) → False := by
    intro l t r hv ht hr hz hx
    have hlin : ∀ k k', l.map g ++ t.map g ++ r.map g = k ++ k' →
        ∃ q ∈ chainPositions p vs, f q = f p + k.sum := by
      intro k k' ek
      rw [← List.map_append, ← List.map_append, ← hv] at ek
      obtain ⟨m, m', hm, rfl, rfl⟩ := List.map_eq_append_iff.1 ek
      by_cases hn : m' = []
      · subst hn
        have hm0 : m = vs := by simpa using hm.symm
        subst hm0
        refine ⟨_, ?_, (hf []).trans ?_⟩
        · have := mem_chainPositions [] m p (by
            rintro rfl
            simp at hv
            exact hr hv.2.2)
          simpa using this
        · rw [hs]; simp
      · refine ⟨_, ?_, hf m⟩
        rw [hm]
        exact mem_chainPositions m m' p hn
    refine extreme_once (l := l.map g) (t := t.map g) (r := r.map g) ?_ ?_ ?_ (by simpa) (by simpa)
      hz ?_
    · rw [← List.map_append, ← List.map_append, ← hv]
      intro a ha
      obtain ⟨v, hv', rfl⟩ := List.mem_map.1 ha
      exact h0 v hv'
    · rw [← List.map_append, ← List.map_append, ← hv, hs]
    · rw [← List.map_append, ← List.map_append, ← hv]
      exact hup
    · rcases hx with hx | hx
      · left
        intro k k' ek
        obtain ⟨q, hq, eq⟩ := hlin k k' ek
        have := hx q hq
        rw [eq] at this
        linarith
      · right
        intro k k' ek
        obtain ⟨q, hq, eq⟩ := hlin k k' ek
        have := hx q hq
        rw [eq] at this
        linarith
  have f1 : f (cyc h i) = f p + (l1.map g).sum := by rw [q1, hf]
  have f2 : f (cyc h (i + 1)) = f p + (k1.map g).sum := by rw [q2, hf]
  have hsum : (l1.map g).sum = (k1.map g).sum := by
    rw [f1, f2] at e
    exact add_left_cancel e
  rw [f1] at hext
  rcases List.append_eq_append_iff.1 (e1.symm.trans e2) with ⟨t, rfl, rfl⟩ | ⟨t, rfl, rfl⟩
  · refine key l1 t k2 (by rw [e2]) ?_ n2 ?_ hext
    · rintro rfl
      exact hne (by rw [q1, q2, List.append_nil])
    · rw [List.map_append, List.sum_append] at hsum
      linarith
  · rw [hsum] at hext
    refine key k1 t l2 (by rw [e1]) ?_ n1 ?_ hext
    · rintro rfl
      exact hne (by rw [q1, q2, List.append_nil])
    · rw [List.map_append, List.sum_append] at hsum
      linarith

theorem chainPositions_split (vs : List (K × K)) (p q : Point K) (h : q ∈ chainPositions p vs) :
    ∃ l1 l2, vs = l1 ++ l2 ∧ l2 ≠ [] ∧
      q = ⟨p.x + (l1.map Prod.fst).sum, p.y + (l1.map Prod.snd).sum⟩ := by
  induction vs generalizing p with
  | nil => simp [chainPositions] at h
  | cons v vs ih =>
    rcases List.mem_cons.1 h with rfl | h
    · exact ⟨[], v :: vs, rfl, by simp, by simp⟩
    · obtain ⟨l1, l2, rfl, h2, rfl⟩ := ih _ h
      exact ⟨v :: l1, l2, rfl, h2, by simp [add_assoc]⟩

/-- C67: given that the dependencies compute convex hulls and angles, a contour of
`convex_contours` is a triangle, a rectangle, or has edges parallel to exactly one of the axes. -/
theorem C67_one_axis (env : Env K) (hhull : ∀ pts, HullOk (env.convexHull pts) pts)
    (hangle : SectorOk env.atan2) (x : Strategy K) (y : Option (Strategy K)) (lo : Int)
    (hi : Option Int) (s : Made (Contour K)) (hs : convexContours env x y lo hi = .ok s)
    (c : Contour K) (h : s.2.val c) :
    c.vertices.length = 3 ∨ IsRectangle c.vertices ∨
      (HasVerticalEdge c.vertices ∧ ¬ HasHorizontalEdge c.vertices) ∨
      (HasHorizontalEdge c.vertices ∧ ¬ HasVerticalEdge c.vertices) := by
  have hsize := (C10_contour_sizes env x y lo hi c).2.1 s hs h
  have hedge := C60_axis_edge env hhull hangle x y lo hi s hs c h
  simp only [convexContours, exc_bind_ok, exc_pure_ok, validate_ok] at hs
  obtain ⟨w, -, rfl⟩ := hs
  obtain ⟨vs, hv, rfl⟩ := h
  rcases hedge with hedge | ⟨j, hj, hedge⟩
  · exact .inl hedge
  by_cases hlen : vs.length = 3
  · exact .inl hlen
  right
  suffices IsRectangle vs ∨ ¬ (HasVerticalEdge vs ∧ HasHorizontalEdge vs) by
    rcases this with h | h
    · exact .inl h
    · rcases hedge with e | e
      · have hver : HasVerticalEdge vs := ⟨j, hj, e⟩
        exact .inr (.inl ⟨hver, fun hh => h ⟨hver, hh⟩⟩)
      · have hhor : HasHorizontalEdge vs := ⟨j, hj, e⟩
        exact .inr (.inr ⟨hhor, fun hh => h ⟨hh, hhor⟩⟩)
  rcases convexStrategy_cases hv with h | h | ⟨pts, r, cand, hgp, hr, hc, rfl⟩
  · exfalso
    simp only [toTriangularStrategy, val_map, val_filter] at h
    obtain ⟨⟨a, b, c⟩, -, rfl⟩ := h
    simp only [toCcwTriplet] at hlen
    split at hlen <;> exact hlen rfl
  · left
    simp only [toRectangularStrategy, val_map] at h
    obtain ⟨b, hb, rfl⟩ := h
    exact ⟨_, _, _, _, rfl⟩
  · right
    have h3 : 3 ≤ (env.convexHull cand).length := by
      have := hsize.1
      simp only at this
      omega
    obtain ⟨p, vs, rfl, hsorted, sx, sy, hnz, -⟩ := candidates_axis hr hc (gp_axes (by omega) hgp)
    have hq : vs.Pairwise fun v w => sector v.1 v.2 ≤ sector w.1 w.2 := by
      have hnz' : ∀ v ∈ vs, v.1 ≠ 0 ∨ v.2 ≠ 0 := fun v hv =>
        hnz.elim (fun h => .inl (h v hv)) fun h => .inr (h v hv)
      refine List.Pairwise.imp_of_mem (fun {v w} hv hw h => ?_) hsorted
      by_contra hlt
      exact absurd (hangle _ _ _ _ (hnz' w hw) (hnz' v hv) (not_le.1 hlt)) (not_lt.2 h)
    rw [walk_eq] at *
    rintro ⟨⟨i, hi, e⟩, i', hi', e'⟩
    rcases hnz with hnz | hnz
    · refine walk_no_edge (hhull _) h3 Point.x Prod.fst (chainPositions_split vs p)
        (fun _ => rfl) hnz sx (sector_signs_x hq) ?_ hi e
      intro a b hab ex hall
      have hy : a.y ≠ b.y := fun ey => hab (by cases a; cases b; simp_all)
      rcases lt_or_gt_of_ne hy with hy | hy
      · right
        intro q hq'
        have := hall q hq'
        unfold area2 at this
        rw [ex] at this ⊢
        by_contra hlt
        nlinarith [mul_pos (sub_pos.2 hy) (sub_pos.2 (not_le.1 hlt))]
      · left
        intro q hq'
        have := hall q hq'
        unfold area2 at this
        rw [ex] at this ⊢
        by_contra hlt
        nlinarith [mul_pos (sub_pos.2 hy) (sub_pos.2 (not_le.1 hlt))]
    · refine walk_no_edge (hhull _) h3 Point.y Prod.snd (chainPositions_split vs p)
        (fun _ => rfl) hnz sy (sector_signs_y hq) ?_ hi' e'
      intro a b hab ey hall
      have hx : a.x ≠ b.x := fun ex => hab (by cases a; cases b; simp_all)
      rcases lt_or_gt_of_ne hx with hx | hx
      · left
        intro q hq'
        have := hall q hq'
        unfold area2 at this
        rw [ey] at this ⊢
        by_contra hlt
        nlinarith [mul_pos (sub_pos.2 hx) (sub_pos.2 (not_le.1 hlt))]
      · right
        intro q hq'
        have := hall q hq'
        unfold area2 at this
        rw [ey] at this ⊢
        by_contra hlt
        nlinarith [mul_pos (sub_pos.2 hx) (sub_pos.2 (not_le.1 hlt))]

end

/-- The hypotheses of C67 are met by a draw of a heptagon, which has edges of one kind only. -/
example : (∀ pts, HullOk (Sample.env.convexHull pts) pts) ∧ SectorOk Sample.env.atan2 ∧
    ∃ s c, convexContours Sample.env (sampledFrom (Sample.coords 7)) none 7 none = .ok s ∧
      s.2.val c ∧ c.vertices.length ≠ 3 ∧ ¬ IsRectangle c.vertices := by
  obtain ⟨h1, s, h2, h3⟩ := sample_convex
  exact ⟨h1, sample_sectorOk, s, _, h2, h3, by decide, fun ⟨_, _, _, _, e⟩ => by
    simpa using congrArg List.length e⟩

/-- Rectangles are generated: the exception of C67 is needed. -/
example : ∃ s c, convexContours Sample.env (sampledFrom (Sample.coords 7)) none 4 none = .ok s ∧
    s.2.val c ∧ HasVerticalEdge c.vertices ∧ HasHorizontalEdge c.vertices := by
  refine ⟨_, ⟨[⟨0, 0⟩, ⟨2, 0⟩, ⟨2, 1⟩, ⟨0, 1⟩]⟩, rfl, ?_, ⟨1, by decide, rfl⟩, ⟨0, by decide, rfl⟩⟩
  exact (C53_rectangles Sample.env (sampledFrom (Sample.coords 7)) none 4 none (by decide)
    (by simp) 0 2 0 1 (by simp only [sampledFrom]; decide) (by simp only [sampledFrom]; decide)
    (by decide) (by simp only [sampledFrom, Option.getD]; decide)
    (by simp only [sampledFrom, Option.getD]; decide) (by decide)).1 _ rfl

end HG
