import Verif.Props.AxisEdge
import Verif.Props.OneAxisDistinct

/-!
# The bounding box of a convex contour (C69)
-/

set_option linter.unusedSectionVars false

namespace HG

open Strategy Spec

section
variable {K : Type} [LinearOrder K]

/-- The least and the greatest value of a coordinate over the points of the list are values of the
strategy. -/
def Spec.DrawnExtent (x : Strategy K) (f : Point K → K) (l : List (Point K)) : Prop :=
  (∃ p ∈ l, x.val (f p) ∧ ∀ q ∈ l, f p ≤ f q) ∧ ∃ p ∈ l, x.val (f p) ∧ ∀ q ∈ l, f q ≤ f p

/-- There are `n` different values of the strategy between the least and the greatest value of a
coordinate over the points of the list. -/
def Spec.Spans (n : Nat) (x : Strategy K) (f : Point K → K) (l : List (Point K)) : Prop :=
  ∃ vs : List K, vs.Nodup ∧ n ≤ vs.length ∧
    ∀ v ∈ vs, x.val v ∧ (∃ p ∈ l, f p ≤ v) ∧ ∃ p ∈ l, v ≤ f p

end

section
variable {K : Type} [CommRing K] [LinearOrder K] [IsStrictOrderedRing K]

/-- No given point is below all vertices of the hull in the direction of a linear functional. -/
theorem hull_support {h pts : List (Point K)} (ho : HullOk h pts) (h3 : 3 ≤ h.length) (A B : K)
    {q : Point K} (hq : q ∈ pts) : ∃ v ∈ h, lin A B v ≤ lin A B q := by
  obtain ⟨i, hi, hmi⟩ : ∃ i < h.length, ∀ j, lin A B (cyc h i) ≤ lin A B (cyc h j) := by
    obtain ⟨i, hi, hm⟩ := Finset.exists_min_image (Finset.range h.length)
      (fun j => lin A B (cyc h j)) ⟨0, Finset.mem_range.2 (by omega)⟩
    refine ⟨i, Finset.mem_range.1 hi, fun j => ?_⟩
    have := hm (j % h.length) (Finset.mem_range.2 (Nat.mod_lt _ (by omega)))
    rwa [cyc_mod] at this
  obtain ⟨k, hk, hki⟩ : ∃ k < h.length, (k + 1) % h.length = i := by
    by_cases h0 : i = 0
    · exact ⟨h.length - 1, by omega, by rw [h0, Nat.sub_add_cancel (by omega), Nat.mod_self]⟩
    · exact ⟨i - 1, by omega, by rw [Nat.sub_add_cancel (by omega), Nat.mod_eq_of_lt hi]⟩
  have ek : cyc h (k + 1) = cyc h i := by rw [← hki, cyc_mod]
  have hkne : k ≠ i ∧ k ≠ (i + 1) % h.length := by
    rcases Nat.lt_or_ge (k + 1) h.length with h1 | h1
    · rw [Nat.mod_eq_of_lt h1] at hki
      subst hki
      refine ⟨by omega, ?_⟩
      rcases Nat.lt_or_ge (k + 1 + 1) h.length with h2 | h2
      · rw [Nat.mod_eq_of_lt h2]; omega
      · rw [show k + 1 + 1 = h.length by omega, Nat.mod_self]; omega
    · rw [show k + 1 = h.length by omega, Nat.mod_self] at hki
      subst hki
      rw [Nat.mod_eq_of_lt (by omega)]
      omega
  have hturn := strictlyConvex_left ho.convex hi hk hkne.1 hkne.2
  refine ⟨cyc h i, cyc_mem (by omega) i, ?_⟩
  have l1 := ho.left k hk q hq
  have l2 := ho.left i hi q hq
  rw [ek] at l1
  have g1 := hmi k
  have g2 := hmi (i + 1)
  unfold lin at *
  unfold area2 at *
  by_contra hlt
  rw [not_le] at hlt
  have a1 : 0 ≤ A * ((cyc h k).x - (cyc h i).x) + B * ((cyc h k).y - (cyc h i).y) := by linarith
  have a2 : 0 ≤ A * ((cyc h (i + 1)).x - (cyc h i).x) + B * ((cyc h (i + 1)).y - (cyc h i).y) := by
    linarith
  have a3 : 0 < -(A * (q.x - (cyc h i).x) + B * (q.y - (cyc h i).y)) := by linarith
  have m1 := mul_nonneg l1 a2
  have m2 := mul_nonneg l2 a1
  have m3 := mul_pos hturn a3
  generalize cyc h i = b at *
  generalize cyc h k = a at *
  generalize cyc h (i + 1) = c at *
  have key : ((c.x - b.x) * (a.y - b.y) - (c.y - b.y) * (a.x - b.x)) *
      -(A * (q.x - b.x) + B * (q.y - b.y)) +
      ((b.x - a.x) * (q.y - a.y) - (b.y - a.y) * (q.x - a.x)) *
        (A * (c.x - b.x) + B * (c.y - b.y)) +
      ((c.x - b.x) * (q.y - b.y) - (c.y - b.y) * (q.x - b.x)) *
        (A * (a.x - b.x) + B * (a.y - b.y)) = 0 := by ring
  linarith

/-- The hull reaches as far as the given points in both axes. -/
theorem hull_between {h pts : List (Point K)} (ho : HullOk h pts) (h3 : 3 ≤ h.length)
    {q : Point K} (hq : q ∈ pts) : Between Point.x h q.x ∧ Between Point.y h q.y := by
  obtain ⟨a, ha, la⟩ := hull_support ho h3 1 0 hq
  obtain ⟨b, hb, lb⟩ := hull_support ho h3 (-1) 0 hq
  obtain ⟨c, hc, lc⟩ := hull_support ho h3 0 1 hq
  obtain ⟨d, hd, ld⟩ := hull_support ho h3 0 (-1) hq
  unfold lin at *
  exact ⟨⟨a, ha, b, hb, by linarith, by linarith⟩, ⟨c, hc, d, hd, by linarith, by linarith⟩⟩

/-- Two sets of points that lie between each other have the same extent. -/
theorem drawnExtent_of {x : Strategy K} {f : Point K → K} {l pts : List (Point K)} (hne : pts ≠ [])
    (hx : ∀ p ∈ pts, x.val (f p)) (h1 : ∀ p ∈ pts, Between f l (f p))
    (h2 : ∀ v ∈ l, Between f pts (f v)) : DrawnExtent x f l := by
  have hpts : pts.toFinset.Nonempty := by
    obtain ⟨p, hp⟩ := List.exists_mem_of_ne_nil _ hne
    exact ⟨p, List.mem_toFinset.2 hp⟩
  constructor
  · obtain ⟨p, hp, hm⟩ := Finset.exists_min_image pts.toFinset f hpts
    rw [List.mem_toFinset] at hp
    obtain ⟨v, hv, -, -, hle, -⟩ := h1 p hp
    have low : ∀ w ∈ l, f p ≤ f w := by
      intro w hw
      obtain ⟨q, hq, -, -, h, -⟩ := h2 w hw
      exact (hm q (List.mem_toFinset.2 hq)).trans h
    have e : f v = f p := le_antisymm hle (low v hv)
    exact ⟨v, hv, e ▸ hx p hp, fun w hw => e ▸ low w hw⟩
  · obtain ⟨p, hp, hm⟩ := Finset.exists_max_image pts.toFinset f hpts
    rw [List.mem_toFinset] at hp
    obtain ⟨-, -, v, hv, -, hle⟩ := h1 p hp
    have high : ∀ w ∈ l, f w ≤ f p := by
      intro w hw
      obtain ⟨-, -, q, hq, -, h⟩ := h2 w hw
      exact h.trans (hm q (List.mem_toFinset.2 hq))
    have e : f v = f p := le_antisymm (high v hv) hle
    exact ⟨v, hv, e ▸ hx p hp, fun w hw => e ▸ high w hw⟩

theorem drawnExtent_self {x : Strategy K} {f : Point K → K} {l : List (Point K)} (hne : l ≠ [])
    (hx : ∀ p ∈ l, x.val (f p)) : DrawnExtent x f l :=
  drawnExtent_of hne hx (fun p hp => ⟨p, hp, p, hp, le_refl _, le_refl _⟩)
    fun p hp => ⟨p, hp, p, hp, le_refl _, le_refl _⟩

/-- Half of the values of a coordinate are different when none is taken three times. -/
theorem half_distinct {l : List (Point K)} (hl : l.Nodup) {f : Point K → K}
    (h : ∀ p ∈ l, ∀ q ∈ l, ∀ r ∈ l, f p = f q → f q = f r → p = q ∨ q = r ∨ p = r) :
    l.length ≤ 2 * (l.map f).toFinset.card := by
  have h1 : l.toFinset.card = l.length := List.toFinset_card_of_nodup hl
  have h2 : l.toFinset.image f = (l.map f).toFinset := by
    ext a
    simp
  rw [← h1, ← h2]
  refine Finset.card_le_mul_card_image (f := f) l.toFinset 2 fun b hb => ?_
  by_contra hc
  rw [not_le] at hc
  obtain ⟨p, q, r, hp, hq, hr, n1, n2, n3⟩ := Finset.two_lt_card_iff.1 hc
  simp only [Finset.mem_filter, List.mem_toFinset] at hp hq hr
  rcases h p hp.1 q hq.1 r hr.1 (hp.2.trans hq.2.symm) (hq.2.trans hr.2.symm) with e | e | e
  · exact n1 e
  · exact n3 e
  · exact n2 e

theorem chainPositions_length (vs : List (K × K)) (p : Point K) :
    (chainPositions p vs).length = vs.length := by
  induction vs generalizing p with
  | nil => rfl
  | cons v vs ih => simp [chainPositions, ih]

/-- The three ways to draw a convex contour: all vertices are drawn, or the contour has the extent
of points drawn in general position. -/
theorem convex_extent {env : Env K} (hhull : ∀ pts, HullOk (env.convexHull pts) pts)
    (hangle : QuadrantOk env.atan2) {x : Strategy K} {y : Option (Strategy K)} {lo : Int}
    {hi : Option Int} {s : Made (Contour K)} (hs : convexContours env x y lo hi = .ok s)
    {c : Contour K} (h : s.2.val c) :
    (c.vertices.length ≤ 4 ∧ c.vertices ≠ [] ∧
      ∀ v ∈ c.vertices, x.val v.x ∧ (y.getD x).val v.y) ∨
    ∃ pts, (toGeneralPositionStrategy x y (max lo 3) hi).val pts ∧
      c.vertices.length ≤ pts.length ∧
      (∀ p ∈ pts, Between Point.x c.vertices p.x ∧ Between Point.y c.vertices p.y) ∧
      ∀ v ∈ c.vertices, Between Point.x pts v.x ∧ Between Point.y pts v.y := by
  have hsize := (C10_contour_sizes env x y lo hi c).2.1 s hs h
  simp only [convexContours, exc_bind_ok, exc_pure_ok, validate_ok] at hs
  obtain ⟨w, -, rfl⟩ := hs
  obtain ⟨vs, hv, rfl⟩ := h
  rcases convexStrategy_cases hv with h | h | ⟨pts, r, cand, hgp, hr, hc, rfl⟩
  · left
    simp only [toTriangularStrategy, val_map, val_filter, val_prod, toPointStrategy] at h
    obtain ⟨t, ⟨⟨⟨p, ⟨p1, p2⟩, e1⟩, ⟨q, ⟨q1, q2⟩, e2⟩, ⟨u, ⟨u1, u2⟩, e3⟩⟩, ht⟩, rfl⟩ := h
    have key : ∀ v ∈ [t.1, t.2.1, t.2.2], x.val v.x ∧ (y.getD x).val v.y := by
      intro v hv
      simp only [List.mem_cons, List.not_mem_nil, or_false] at hv
      rcases hv with rfl | rfl | rfl
      · rw [e1]; exact ⟨p1, p2⟩
      · rw [e2]; exact ⟨q1, q2⟩
      · rw [e3]; exact ⟨u1, u2⟩
    rcases t with ⟨a, b, d⟩
    simp only [List.mem_cons, List.not_mem_nil, or_false, forall_eq_or_imp, forall_eq] at key
    simp only [toCcwTriplet]
    split <;> simp only [List.length_cons, List.length_nil] <;>
      refine ⟨by omega, by simp, ?_⟩ <;>
      simp only [List.mem_cons, List.not_mem_nil, or_false, forall_eq_or_imp, forall_eq]
    · exact key
    · tauto
  · left
    simp only [toRectangularStrategy, val_map] at h
    obtain ⟨b, hb, rfl⟩ := h
    obtain ⟨-, -, h1, h2, h3, h4⟩ := box_drawn hb
    refine ⟨by simp [boxVertices], by simp [boxVertices], ?_⟩
    intro v hv
    simp only [boxVertices, List.mem_cons, List.not_mem_nil, or_false] at hv
    rcases hv with rfl | rfl | rfl | rfl <;> exact ⟨by assumption, by assumption⟩
  · right
    have h3 : 3 ≤ (env.convexHull cand).length := by
      have := hsize.1
      simp only at this
      omega
    refine ⟨pts, hgp, ?_, ?_, ?_⟩
    · have hle := (List.subperm_of_subset (hhull cand).convex.1 (hhull cand).sub).length_le
      obtain ⟨vs, a, b, a', b', hl, -, -, -, -, -, -, -, -, rfl⟩ := candidates_spec hr hc
      rw [List.length_map, chainPositions_length] at hle
      exact hle.trans hl.le
    · intro p hp
      obtain ⟨⟨a, ha, b, hb, l1, l2⟩, ⟨a', ha', b', hb', l3, l4⟩⟩ :=
        C09_extent env hangle pts r hr cand hc p hp
      obtain ⟨⟨u, hu, -, -, k1, -⟩, -⟩ := hull_between (hhull cand) h3 ha
      obtain ⟨⟨-, -, u', hu', -, k2⟩, -⟩ := hull_between (hhull cand) h3 hb
      obtain ⟨-, ⟨t, ht, -, -, k3, -⟩⟩ := hull_between (hhull cand) h3 ha'
      obtain ⟨-, ⟨-, -, t', ht', -, k4⟩⟩ := hull_between (hhull cand) h3 hb'
      exact ⟨⟨u, hu, u', hu', k1.trans l1, l2.trans k2⟩, ⟨t, ht, t', ht', k3.trans l3, l4.trans k4⟩⟩
    · exact fun v hv => candidates_between hc v ((hhull cand).sub v hv)

/-- C69: given that the dependencies compute convex hulls and angles, the sides of the bounding box
of a contour of `convex_contours` are at drawn coordinates. -/
theorem C69_bounding_box (env : Env K) (hhull : ∀ pts, HullOk (env.convexHull pts) pts)
    (hangle : QuadrantOk env.atan2) (x : Strategy K) (y : Option (Strategy K)) (lo : Int)
    (hi : Option Int) (s : Made (Contour K)) (hs : convexContours env x y lo hi = .ok s)
    (c : Contour K) (h : s.2.val c) :
    DrawnExtent x Point.x c.vertices ∧ DrawnExtent (y.getD x) Point.y c.vertices := by
  rcases convex_extent hhull hangle hs h with ⟨-, hne, hd⟩ | ⟨pts, hp, -, h1, h2⟩
  · exact ⟨drawnExtent_self hne fun p hp => (hd p hp).1,
      drawnExtent_self hne fun p hp => (hd p hp).2⟩
  · obtain ⟨-, hpr, -, hd⟩ := C35_distinct x y _ hi (le_max_right _ _) pts hp
    have hne : pts ≠ [] := by
      rintro rfl
      exact Nat.not_prime_zero hpr
    exact ⟨drawnExtent_of hne (fun p hp => (hd p hp).1) (fun p hp => (h1 p hp).1)
        fun v hv => (h2 v hv).1,
      drawnExtent_of hne (fun p hp => (hd p hp).2) (fun p hp => (h1 p hp).2)
        fun v hv => (h2 v hv).2⟩

/-- C69: a convex contour with `n > 4` vertices spans `n` drawn coordinates in one axis and
`n / 2 + 1` drawn coordinates in the other. -/
theorem C69_span (env : Env K) (hhull : ∀ pts, HullOk (env.convexHull pts) pts)
    (hangle : QuadrantOk env.atan2) (x : Strategy K) (y : Option (Strategy K)) (lo : Int)
    (hi : Option Int) (s : Made (Contour K)) (hs : convexContours env x y lo hi = .ok s)
    (c : Contour K) (h : s.2.val c) (n : ℕ) (hn : c.vertices.length = n) (h4 : 4 < n) :
    Spans n x Point.x c.vertices ∧ Spans (n / 2 + 1) (y.getD x) Point.y c.vertices ∨
    Spans n (y.getD x) Point.y c.vertices ∧ Spans (n / 2 + 1) x Point.x c.vertices := by
  subst hn
  rcases convex_extent hhull hangle hs h with ⟨hle, -⟩ | ⟨pts, hp, hlen, h1, h2⟩
  · omega
  · obtain ⟨hnd, hpr, -, hd⟩ := C35_distinct x y _ hi (le_max_right _ _) pts hp
    have hodd : pts.length % 2 = 1 := (hpr.eq_two_or_odd).resolve_left (by omega)
    have span : ∀ (f : Point K → K) (z : Strategy K) (n : ℕ), (∀ p ∈ pts, z.val (f p)) →
        (∀ p ∈ pts, Between f c.vertices (f p)) → n ≤ (pts.map f).toFinset.card →
        Spans n z f c.vertices := by
      intro f z n hz hb hn
      refine ⟨(pts.map f).dedup, List.nodup_dedup _, by rwa [← List.card_toFinset], ?_⟩
      intro v hv
      rw [List.mem_dedup] at hv
      obtain ⟨p, hp, rfl⟩ := List.mem_map.1 hv
      obtain ⟨a, ha, b, hb, l1, l2⟩ := hb p hp
      exact ⟨hz p hp, ⟨a, ha, l1⟩, ⟨b, hb, l2⟩⟩
    have all : ∀ f : Point K → K, (∀ p ∈ pts, ∀ q ∈ pts, f p = f q → p = q) →
        (pts.map f).toFinset.card = pts.length := by
      intro f hf
      rw [List.toFinset_card_of_nodup (List.Nodup.map_on hf hnd), List.length_map]
    rcases generalPosition_oneAxis (le_max_right _ _) hp with ⟨a, b⟩ | ⟨a, b⟩
    · left
      have hb := half_distinct hnd b
      exact ⟨span _ _ _ (fun p hp => (hd p hp).1) (fun p hp => (h1 p hp).1) (by rw [all _ a]; omega),
        span _ _ _ (fun p hp => (hd p hp).2) (fun p hp => (h1 p hp).2) (by omega)⟩
    · right
      have hb := half_distinct hnd b
      exact ⟨span _ _ _ (fun p hp => (hd p hp).2) (fun p hp => (h1 p hp).2) (by rw [all _ a]; omega),
        span _ _ _ (fun p hp => (hd p hp).1) (fun p hp => (h1 p hp).1) (by omega)⟩

end

/-- Integers between two others. -/
theorem spans_width {n : ℕ} (hn : 0 < n) {x : Strategy ℤ} {f : Point ℤ → ℤ} {l : List (Point ℤ)}
    (h : Spans n x f l) : ∃ p ∈ l, ∃ q ∈ l, (n : ℤ) - 1 ≤ f q - f p := by
  obtain ⟨vs, hnd, hlen, hv⟩ := h
  have hne : vs.toFinset.Nonempty := by
    rw [List.toFinset_nonempty_iff]
    rintro rfl
    simp at hlen
    omega
  obtain ⟨a, ha, hmin⟩ := Finset.exists_min_image vs.toFinset id hne
  obtain ⟨b, hb, hmax⟩ := Finset.exists_max_image vs.toFinset id hne
  have hsub : vs.toFinset ⊆ Finset.Icc a b := fun v hv => Finset.mem_Icc.2 ⟨hmin v hv, hmax v hv⟩
  have hcard := Finset.card_le_card hsub
  rw [List.toFinset_card_of_nodup hnd, Int.card_Icc] at hcard
  obtain ⟨-, ⟨p, hp, l1⟩, -⟩ := hv a (List.mem_toFinset.1 ha)
  obtain ⟨-, -, ⟨q, hq, l2⟩⟩ := hv b (List.mem_toFinset.1 hb)
  exact ⟨p, hp, q, hq, by omega⟩

/-- C69 for integers: a convex contour with `n > 4` vertices is at least `n - 1` long in one axis
and at least `n / 2` long in the other. -/
theorem C69_integers (env : Env ℤ) (hhull : ∀ pts, HullOk (env.convexHull pts) pts)
    (hangle : QuadrantOk env.atan2) (x : Strategy ℤ) (y : Option (Strategy ℤ)) (lo : Int)
    (hi : Option Int) (s : Made (Contour ℤ)) (hs : convexContours env x y lo hi = .ok s)
    (c : Contour ℤ) (h : s.2.val c) (n : ℕ) (hn : c.vertices.length = n) (h4 : 4 < n) :
    (∃ p ∈ c.vertices, ∃ q ∈ c.vertices, (n : ℤ) - 1 ≤ q.x - p.x) ∧
      (∃ p ∈ c.vertices, ∃ q ∈ c.vertices, (n : ℤ) / 2 ≤ q.y - p.y) ∨
    (∃ p ∈ c.vertices, ∃ q ∈ c.vertices, (n : ℤ) - 1 ≤ q.y - p.y) ∧
      ∃ p ∈ c.vertices, ∃ q ∈ c.vertices, (n : ℤ) / 2 ≤ q.x - p.x := by
  have half : ∀ {z : Strategy ℤ} {f : Point ℤ → ℤ}, Spans (n / 2 + 1) z f c.vertices →
      ∃ p ∈ c.vertices, ∃ q ∈ c.vertices, (n : ℤ) / 2 ≤ f q - f p := by
    intro z f h
    obtain ⟨p, hp, q, hq, h⟩ := spans_width (by omega) h
    exact ⟨p, hp, q, hq, by omega⟩
  rcases C69_span env hhull hangle x y lo hi s hs c h n hn h4 with ⟨h1, h2⟩ | ⟨h1, h2⟩
  · exact .inl ⟨spans_width (by omega) h1, half h2⟩
  · exact .inr ⟨spans_width (by omega) h1, half h2⟩

/-- Non-vacuity for C69: a contour with seven vertices. -/
example : (∀ pts, HullOk (Sample.env.convexHull pts) pts) ∧ QuadrantOk Sample.env.atan2 ∧
    ∃ s c, convexContours Sample.env (sampledFrom (Sample.coords 7)) none 7 none = .ok s ∧
      s.2.val c ∧ 4 < c.vertices.length := by
  obtain ⟨h1, s, h2, h3⟩ := sample_convex
  exact ⟨h1, sample_quadrantOk, s, _, h2, h3, by decide⟩

/-- A hexagon of width two is not a value of `convex_contours` over integers. -/
example (x : Strategy ℤ) (lo : Int) (hi : Option Int) (s : Made (Contour ℤ))
    (hs : convexContours Sample.env x none lo hi = .ok s) :
    ¬ s.2.val ⟨[⟨0, 0⟩, ⟨1, 0⟩, ⟨2, 1⟩, ⟨2, 2⟩, ⟨1, 2⟩, ⟨0, 1⟩]⟩ := by
  intro h
  have := C69_integers Sample.env sample_convex.1 sample_quadrantOk x none lo hi s hs _ h 6 rfl
    (by omega)
  revert this
  decide +kernel

end HG
