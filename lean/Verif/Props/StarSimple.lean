import Verif.Props.Mixes
import Verif.Props.PolygonBox
import Verif.Props.Simplicity
import Verif.Props.StarCentroid

/-!
# Consequences of the convexity of star contours (C15, C18, C66, C73, C74, C75)
-/

set_option linter.unusedSectionVars false

namespace HG

open Strategy Spec

section
variable {K : Type} [CommRing K] [LinearOrder K] [IsStrictOrderedRing K]

/-- What the function `region_centroid` of the context is expected to do: it returns the centroid of
the region of every contour that does not have the area zero. -/
def Spec.CentroidOk (f : List (Point K) → Point K) : Prop :=
  ∀ l, shoelace l ≠ 0 → CentroidOf l (f l)

/-- Strict convexity does not depend on the vertex a contour starts with. -/
theorem strictlyConvex_last {l : List (Point K)} {a : Point K} (h : StrictlyConvex (l ++ [a])) :
    StrictlyConvex (a :: l) := by
  obtain ⟨h1, h2⟩ := h
  refine ⟨(List.perm_append_singleton a l).nodup_iff.1 h1, fun i j k hij hjk hk => ?_⟩
  have hk' : k ≤ l.length := by simpa [Nat.lt_succ_iff] using hk
  have e : ∀ m, m < l.length → (l ++ [a]).getD m ⟨0, 0⟩ = l.getD m ⟨0, 0⟩ := fun m hm => by
    simp [List.getD_eq_getElem?_getD, List.getElem?_append_left hm]
  have ea : (l ++ [a]).getD l.length ⟨0, 0⟩ = a := by simp [List.getD_eq_getElem?_getD]
  have e' : ∀ m, 0 < m → (a :: l).getD m ⟨0, 0⟩ = l.getD (m - 1) ⟨0, 0⟩ := fun m hm => by
    obtain ⟨m, rfl⟩ := Nat.exists_eq_succ_of_ne_zero hm.ne'
    simp
  rw [e' j (by omega), e' k (by omega)]
  rcases Nat.eq_zero_or_pos i with rfl | h0
  · have := h2 (j - 1) (k - 1) l.length (by omega) (by omega) (by simp)
    rw [e _ (by omega), e _ (by omega), ea] at this
    unfold LeftTurn at this ⊢
    have e : area2 ((a :: l).getD 0 ⟨0, 0⟩) (l.getD (j - 1) ⟨0, 0⟩) (l.getD (k - 1) ⟨0, 0⟩) =
        area2 (l.getD (j - 1) ⟨0, 0⟩) (l.getD (k - 1) ⟨0, 0⟩) a := by
      simp only [List.getD_cons_zero]; unfold area2; ring
    rwa [e]
  · rw [e' i h0]
    have := h2 (i - 1) (j - 1) (k - 1) (by omega) (by omega) (by simp; omega)
    rwa [e _ (by omega), e _ (by omega), e _ (by omega)] at this

/-- A contour that is strictly convex when read backwards is simple. -/
theorem strictlyConvex_reverse_simple {l : List (Point K)} (h : StrictlyConvex l.reverse)
    (h3 : 3 ≤ l.length) : SimpleContour l ∧ NoProperCross l := by
  rcases l with _ | ⟨a, l⟩
  · simp at h3
  have h' : StrictlyConvex (reverseVertices (a :: l)) := by
    simp only [reverseVertices, List.take_succ_cons, List.take_zero, List.drop_succ_cons,
      List.drop_zero, List.singleton_append]
    exact strictlyConvex_last (by simpa using h)
  have hg := strictlyConvex_good h' (by rw [reverse_length]; exact h3)
  have e : reverseVertices (reverseVertices (a :: l)) = a :: l := by simp [reverseVertices]
  have h1 := simple_reverse hg.simple
  have h2 := noProperCross_reverse hg.nocross
  rw [e] at h1 h2
  exact ⟨h1, h2⟩

/-- C14, C15 for `star_contours`: if the centroid of the region is computed correctly, the contour is
simple and strict.  It may be clockwise, see `C15_star_contours_clockwise`. -/
theorem C15_star_contours_partial (env : Env K) (hpol : PolarOk env.atan2) (x : Strategy K)
    (y : Option (Strategy K)) (lo : Int) (hi : Option Int) (s : Made (Contour K))
    (hs : starContours env x y lo hi = .ok s) (c : Contour K) (h : s.2.val c)
    (hg : CentroidOf c.vertices (env.regionCentroid c.vertices)) :
    c.vertices.Nodup ∧ SimpleContour c.vertices ∧ NoProperCross c.vertices ∧
      StrictContour c.vertices := by
  have hc := C66_star_convex_centroid env hpol x y lo hi s hs c h hg
  have hst : c.vertices.Nodup ∧ 3 ≤ c.vertices.length ∧ StrictContour c.vertices := by
    simp only [starContours, exc_bind_ok, exc_pure_ok, validate_ok] at hs
    obtain ⟨w, -, rfl⟩ := hs
    obtain ⟨vs, hv, rfl⟩ := h
    obtain ⟨hnd, h3, -, hst, -⟩ := star_val (le_max_right _ _) hv
    exact ⟨hnd, h3, hst⟩
  obtain ⟨hnd, h3, hst⟩ := hst
  rcases hc with hc | hc
  · have := strictlyConvex_good hc h3
    exact ⟨hnd, this.simple, this.nocross, hst⟩
  · have := strictlyConvex_reverse_simple hc h3
    exact ⟨hnd, this.1, this.2, hst⟩

/-- C14, C15 for `contours`, without slanted collinear triples: if the centroid of the region is
computed correctly, the contour is simple and strict. -/
theorem C15_contours_centroid_partial (env : Env K) (hcoin : Sums env.coinChange)
    (henv : ∀ pts, HullOk (env.convexHull pts) pts) (hpol : PolarOk env.atan2) (x : Strategy K)
    (y : Option (Strategy K)) (hgen : GenericCoords x y) (lo : Int) (hi : Option Int)
    (s : Made (Contour K)) (hs : contours env x y lo hi = .ok s) (c : Contour K)
    (h : s.2.val c) (hg : CentroidOf c.vertices (env.regionCentroid c.vertices)) :
    c.vertices.Nodup ∧ SimpleContour c.vertices ∧ NoProperCross c.vertices ∧
      StrictContour c.vertices := by
  rcases C15_contours_partial env hcoin henv x y hgen lo hi s hs c h with ⟨r, hr, h⟩ | h
  · exact C15_star_contours_partial env hpol x y _ hi r hr c h hg
  · exact ⟨h.nodup, h.simple, h.nocross, h.strict⟩

/-- C14, C15 for `concave_contours`, without slanted collinear triples: if the centroid of the region
is computed correctly, the contour is simple, strict and counterclockwise. -/
theorem C15_concave_contours_centroid_partial (env : Env K) (hcoin : Sums env.coinChange)
    (hpol : PolarOk env.atan2) (x : Strategy K)
    (y : Option (Strategy K)) (hgen : GenericCoords x y) (lo : Int) (hi : Option Int)
    (s : Made (Contour K)) (hs : concaveContours env x y lo hi = .ok s) (c : Contour K)
    (h : s.2.val c) (hg : CentroidOf c.vertices (env.regionCentroid c.vertices)) :
    GoodBorder c.vertices :=
  (C15_concave_contours_partial env hcoin x y hgen lo hi s hs c h).resolve_left fun ⟨r, hr, h'⟩ =>
    C46_concave_not_star env hpol x y lo hi s hs c h hg x y _ hi r hr h'

/-- C18 without slanted collinear triples, for a correct function `region_centroid`: two segments of a
multisegment may cross or overlap only if all segments are edges of one star contour with a region of
the area zero (for which the centroid is not defined). -/
theorem C18_multisegments_centroid_partial (env : Env K) (hcoin : Sums env.coinChange)
    (henv : ∀ pts, HullOk (env.convexHull pts) pts)
    (hcross : ∀ l : List (Segment K), (∀ t ∈ l, t.start ≠ t.stop) →
      env.segmentsCrossOrOverlap l = false → l.Pairwise NoCross)
    (hpol : PolarOk env.atan2) (hcen : CentroidOk env.regionCentroid)
    (x : Strategy K) (y : Option (Strategy K)) (hgen : GenericCoords x y) (lo : Int)
    (hi : Option Int) (s : Made (List (Segment K))) (hs : multisegments env x y lo hi = .ok s)
    (l : List (Segment K)) (h : s.2.val l) :
    l.Pairwise NoCross ∨
      ∃ r c, starContours env x (some (y.getD x)) (max lo 3) hi = .ok r ∧ r.2.val c ∧
        shoelace c.vertices = 0 ∧ ∀ t ∈ l, ∃ i < c.vertices.length, t = edge c.vertices i := by
  rcases C18_multisegments_generic_partial env hcoin henv hcross x y hgen lo hi s hs l h with
    h | ⟨r, c, hr, hc, h1, h2⟩
  · exact .inl h
  · refine .inr ⟨r, c, hr, hc, ?_, h2⟩
    by_contra h0
    exact h1 (C15_star_contours_partial env hpol x _ _ hi r hr c hc (hcen _ h0)).2.1

/-- C30 without slanted collinear triples: no two segments of a mix cross or overlap, unless some star
contour with as many vertices as segments were asked for has a region of the area zero. -/
theorem C30_segments_generic (env : Env K) (hcoin : Sums env.coinChange)
    (henv : ∀ pts, HullOk (env.convexHull pts) pts) (hset : ∀ l, (env.setOrder l).Perm l)
    (hcross : ∀ l : List (Segment K), (∀ t ∈ l, t.start ≠ t.stop) →
      env.segmentsCrossOrOverlap l = false → l.Pairwise NoCross)
    (hpol : PolarOk env.atan2) (hcen : CentroidOk env.regionCentroid) (x : Strategy K)
    (y : Option (Strategy K)) (hgen : GenericCoords x y) (a : MixArgs) (s : Made (Mix K))
    (hs : mixes env x y a = .ok s) (g : Mix K) (h : s.2.val g) :
    (mixSegments g).Pairwise NoCross ∨
      ∃ n r c, starContours env x (some (y.getD x)) (max n 3) (some n) = .ok r ∧ r.2.val c ∧
        shoelace c.vertices = 0 := by
  by_contra hc
  rw [not_or] at hc
  refine hc.1 (C30_segments env henv hset x y a s hs g h fun n t l ht hl => ?_)
  rcases C18_multisegments_centroid_partial env hcoin henv hcross hpol hcen x y hgen n (some n) t ht l
    hl with h | ⟨r, c, hr, hv, h0, -⟩
  · exact h
  · exact absurd ⟨n, r, c, hr, hv, h0⟩ hc.2

/-- A strictly convex list turns left everywhere and has all its points on the left of its edges. -/
theorem strictlyConvex_turns {l : List (Point K)} (hl : StrictlyConvex l) (h3 : 3 ≤ l.length) (i k : ℕ) :
    0 < area2 (cyc l i) (cyc l (i + 1)) (cyc l (i + 2)) ∧
    0 ≤ area2 (cyc l i) (cyc l (i + 1)) (cyc l k) := by
  have hm : i % l.length < l.length := Nat.mod_lt _ (by omega)
  have hm1 : ∀ c, cyc l (i % l.length + c) = cyc l (i + c) := fun c => by
    rw [← cyc_mod l (i % l.length + c), Nat.mod_add_mod, cyc_mod]
  constructor
  · have h1 : (i % l.length + 2) % l.length ≠ i % l.length ∧
        (i % l.length + 2) % l.length ≠ (i % l.length + 1) % l.length := by
      generalize i % l.length = i at hm
      rcases Nat.lt_or_ge (i + 2) l.length with k | k
      · rw [Nat.mod_eq_of_lt k, Nat.mod_eq_of_lt (by omega)]; omega
      · rw [show i + 2 = (i + 2 - l.length) + l.length by omega, Nat.add_mod_right,
          Nat.mod_eq_of_lt (a := i + 2 - l.length) (by omega)]
        rcases Nat.lt_or_ge (i + 1) l.length with k' | k'
        · rw [Nat.mod_eq_of_lt k']; omega
        · rw [show i + 1 = l.length by omega, Nat.mod_self]; omega
    have := strictlyConvex_left hl hm (Nat.mod_lt (i % l.length + 2) (by omega)) h1.1 h1.2
    rwa [cyc_mod, hm1, cyc_mod, hm1] at this
  · have hk : k % l.length < l.length := Nat.mod_lt _ (by omega)
    by_cases h1 : k % l.length = i % l.length
    · rw [← cyc_mod l k, h1, cyc_mod]; exact le_of_eq (by unfold area2; ring)
    by_cases h2 : k % l.length = (i % l.length + 1) % l.length
    · rw [← cyc_mod l k, h2, cyc_mod, hm1]; exact le_of_eq (by unfold area2; ring)
    have := strictlyConvex_left hl hm hk h1 h2
    rw [cyc_mod, hm1, cyc_mod] at this
    exact this.le

/-- If the reverse of a list is strictly convex, the list turns right everywhere and has all its points
on the right of its edges. -/
theorem strictlyConvex_reverse_turns {l : List (Point K)} (hl : StrictlyConvex l.reverse)
    (h3 : 3 ≤ l.length) (i k : ℕ) (hi : i < l.length) :
    area2 (cyc l i) (cyc l (i + 1)) (cyc l (i + 2)) < 0 ∧
    area2 (cyc l i) (cyc l (i + 1)) (cyc l k) ≤ 0 := by
  have e : ∀ a b, a + b + 1 = 2 * l.length → cyc l.reverse a = cyc l b := fun a b hab =>
    cyc_rev (by rw [hab, Nat.mul_mod_left]) (by omega)
  have hk : k % l.length < l.length := Nat.mod_lt _ (by omega)
  constructor
  · have := (strictlyConvex_turns hl (by simpa using h3) (2 * l.length - 3 - i) 0).1
    rw [e _ (i + 2) (by omega), e _ (i + 1) (by omega), e _ i (by omega)] at this
    have e' : area2 (cyc l (i + 2)) (cyc l (i + 1)) (cyc l i) =
      - area2 (cyc l i) (cyc l (i + 1)) (cyc l (i + 2)) := by unfold area2; ring
    rw [e'] at this
    linarith
  · have := (strictlyConvex_turns hl (by simpa using h3) (2 * l.length - 2 - i)
      (2 * l.length - 1 - k % l.length)).2
    rw [e _ (i + 1) (by omega), e _ i (by omega), e _ (k % l.length) (by omega), cyc_mod] at this
    have e' : area2 (cyc l (i + 1)) (cyc l i) (cyc l k) =
      - area2 (cyc l i) (cyc l (i + 1)) (cyc l k) := by unfold area2; ring
    rw [e'] at this
    linarith

/-- C16: if the centroid of the region of a star contour is computed correctly, it is strictly on one
and the same side of all edges, the side on which the contour is. -/
theorem C16_centroid_inside (env : Env K) (hpol : PolarOk env.atan2) (x : Strategy K)
    (y : Option (Strategy K)) (lo : Int) (hi : Option Int) (s : Made (Contour K))
    (hs : starContours env x y lo hi = .ok s) (c : Contour K) (h : s.2.val c)
    (hg : CentroidOf c.vertices (env.regionCentroid c.vertices)) :
    (∀ e < c.vertices.length,
      0 < area2 (cyc c.vertices e) (cyc c.vertices (e + 1)) (env.regionCentroid c.vertices) ∧
      ∀ i, 0 ≤ area2 (cyc c.vertices e) (cyc c.vertices (e + 1)) (cyc c.vertices i)) ∨
    ∀ e < c.vertices.length,
      area2 (cyc c.vertices e) (cyc c.vertices (e + 1)) (env.regionCentroid c.vertices) < 0 ∧
      ∀ i, area2 (cyc c.vertices e) (cyc c.vertices (e + 1)) (cyc c.vertices i) ≤ 0 := by
  have h3 : 3 ≤ c.vertices.length := by
    have := ((C10_contour_sizes env x y lo hi c).2.2.1 s hs h).1
    have := le_max_right lo 3
    omega
  have hoff := star_off_edges hpol hs h hg
  have hin := (C16_star env x y lo hi s hs c h).1
  rcases C66_star_convex_centroid env hpol x y lo hi s hs c h hg with hc | hc
  · refine .inl fun e he => ⟨?_, fun i => (strictlyConvex_turns hc h3 e i).2⟩
    have hp := (strictlyConvex_turns hc h3 e 0).1
    rcases (hin e he).1 with k | k
    · exact lt_of_le_of_ne k.2.1 (Ne.symm (hoff e he))
    · exact absurd hp (not_lt.2 k.1.le)
  · refine .inr fun e he => ⟨?_, fun i => (strictlyConvex_reverse_turns hc h3 e i he).2⟩
    have hp := (strictlyConvex_reverse_turns hc h3 e 0 he).1
    rcases (hin e he).1 with k | k
    · exact absurd hp (not_lt.2 k.1.le)
    · exact lt_of_le_of_ne k.2.1 (hoff e he)

/-- C16: a star contour is star-shaped: if the centroid `g` of its region is computed correctly, no
point of a triangle with the corner `g` over an edge is on the line of an edge, unless it is on the
side opposite to `g`.  So whole edges are visible from `g`. -/
theorem C16_star_shaped (env : Env K) (hpol : PolarOk env.atan2) (x : Strategy K)
    (y : Option (Strategy K)) (lo : Int) (hi : Option Int) (s : Made (Contour K))
    (hs : starContours env x y lo hi = .ok s) (c : Contour K) (h : s.2.val c) (g : Point K)
    (hgc : g = env.regionCentroid c.vertices) (hg : CentroidOf c.vertices g) (i : ℕ) (q : Point K)
    (t a b : K) (ht : 0 < t) (ha : 0 ≤ a) (hb : 0 ≤ b) (h1 : t + a + b = 1)
    (hqx : q.x = t * g.x + a * (cyc c.vertices i).x + b * (cyc c.vertices (i + 1)).x)
    (hqy : q.y = t * g.y + a * (cyc c.vertices i).y + b * (cyc c.vertices (i + 1)).y) :
    ∀ e < c.vertices.length, ¬ Collinear (cyc c.vertices e) (cyc c.vertices (e + 1)) q := by
  subst hgc
  intro e he hcol
  unfold Collinear at hcol
  have key : area2 (cyc c.vertices e) (cyc c.vertices (e + 1)) q =
      t * area2 (cyc c.vertices e) (cyc c.vertices (e + 1)) (env.regionCentroid c.vertices) +
      a * area2 (cyc c.vertices e) (cyc c.vertices (e + 1)) (cyc c.vertices i) +
      b * area2 (cyc c.vertices e) (cyc c.vertices (e + 1)) (cyc c.vertices (i + 1)) := by
    obtain rfl : t = 1 - a - b := by linear_combination h1
    unfold area2
    rw [hqx, hqy]
    ring
  rw [hcol] at key
  rcases C16_centroid_inside env hpol x y lo hi s hs c h hg with k | k
  · obtain ⟨k1, k2⟩ := k e he
    have := mul_pos ht k1
    have := mul_nonneg ha (k2 i)
    have := mul_nonneg hb (k2 (i + 1))
    linarith
  · obtain ⟨k1, k2⟩ := k e he
    have := mul_neg_of_pos_of_neg ht k1
    have := mul_nonpos_of_nonneg_of_nonpos ha (k2 i)
    have := mul_nonpos_of_nonneg_of_nonpos hb (k2 (i + 1))
    linarith

/-- C12: a concave contour is not convex in either direction. -/
theorem C12_not_convex (env : Env K) (x : Strategy K) (y : Option (Strategy K)) (lo : Int)
    (hi : Option Int) (s : Made (Contour K)) (hs : concaveContours env x y lo hi = .ok s)
    (c : Contour K) (h : s.2.val c) :
    ¬ StrictlyConvex c.vertices ∧ ¬ StrictlyConvex c.vertices.reverse := by
  have h3 : 3 ≤ c.vertices.length := by
    have := ((C10_contour_sizes env x y lo hi c).2.2.2 s hs h).1
    have := le_max_right lo 4
    omega
  obtain ⟨i, hi1, j, hj, hne⟩ := C12_concave env x y lo hi s hs c h
  constructor <;> intro hc <;> apply hne
  · rw [sign_pos (strictlyConvex_turns hc h3 i 0).1, sign_pos (strictlyConvex_turns hc h3 j 0).1]
  · rw [sign_neg (strictlyConvex_reverse_turns hc h3 i 0 hi1).1,
      sign_neg (strictlyConvex_reverse_turns hc h3 j 0 hj).1]

/-- C12 without slanted collinear triples: a concave contour turns left at some vertex and right at
another one. -/
theorem C12_left_and_right (env : Env K) (hcoin : Sums env.coinChange) (x : Strategy K)
    (y : Option (Strategy K)) (hgen : GenericCoords x y) (lo : Int) (hi : Option Int)
    (s : Made (Contour K)) (hs : concaveContours env x y lo hi = .ok s) (c : Contour K)
    (h : s.2.val c) :
    (∃ i < c.vertices.length, 0 < area2 (cyc c.vertices i) (cyc c.vertices (i + 1))
      (cyc c.vertices (i + 2))) ∧
    ∃ i < c.vertices.length, area2 (cyc c.vertices i) (cyc c.vertices (i + 1))
      (cyc c.vertices (i + 2)) < 0 := by
  have hst : StrictContour c.vertices := by
    rcases C15_concave_contours_partial env hcoin x y hgen lo hi s hs c h with ⟨r, hr, h⟩ | h
    · exact C14_star env x y _ hi r hr c h
    · exact h.strict
  obtain ⟨i, hi1, j, hj, hne⟩ := C12_concave env x y lo hi s hs c h
  have hi0 := hst i hi1
  have hj0 := hst j hj
  unfold Collinear at hi0 hj0
  rcases lt_or_gt_of_ne hi0 with a | a <;> rcases lt_or_gt_of_ne hj0 with b | b
  · exact absurd (by rw [sign_neg a, sign_neg b]) hne
  · exact ⟨⟨j, hj, b⟩, i, hi1, a⟩
  · exact ⟨⟨i, hi1, a⟩, j, hj, b⟩
  · exact absurd (by rw [sign_pos a, sign_pos b]) hne

/-- C73: a concave contour has a vertex in the lower left corner of its bounding box and no other on
the left or lower side, if the centroid of its region is computed correctly and drawn points are not
on slanted lines. -/
theorem C73_concave_contours_centroid (env : Env K) (hcoin : Sums env.coinChange)
    (hpol : PolarOk env.atan2) (x : Strategy K) (y : Option (Strategy K)) (hgen : GenericCoords x y)
    (lo : Int) (hi : Option Int) (s : Made (Contour K)) (hs : concaveContours env x y lo hi = .ok s)
    (c : Contour K) (h : s.2.val c) (hg : CentroidOf c.vertices (env.regionCentroid c.vertices)) :
    HasCorner c.vertices c.vertices :=
  (C73_concave_contours env hcoin x y hgen lo hi s hs c h).resolve_left fun ⟨r, hr, h'⟩ =>
    C46_concave_not_star env hpol x y lo hi s hs c h hg x y _ hi r hr h'

/-- C74: a concave contour has two topmost or two rightmost vertices, if the centroid of its region is
computed correctly and drawn points are not on slanted lines. -/
theorem C74_concave_contours_centroid (env : Env K) (hcoin : Sums env.coinChange)
    (hpol : PolarOk env.atan2) (x : Strategy K) (y : Option (Strategy K)) (hgen : GenericCoords x y)
    (lo : Int) (hi : Option Int) (s : Made (Contour K)) (hs : concaveContours env x y lo hi = .ok s)
    (c : Contour K) (h : s.2.val c) (hg : CentroidOf c.vertices (env.regionCentroid c.vertices)) :
    TwoFarthest c.vertices c.vertices :=
  (C74_concave_contours env hcoin x y hgen lo hi s hs c h).resolve_left fun ⟨r, hr, h'⟩ =>
    C46_concave_not_star env hpol x y lo hi s hs c h hg x y _ hi r hr h'

/-- C75: the size of a concave contour, if the centroid of its region is computed correctly and drawn
points are not on slanted lines. -/
theorem C75_concave_contours_centroid (env : Env K) (hcoin : Sums env.coinChange)
    (hpol : PolarOk env.atan2) (x : Strategy K) (y : Option (Strategy K)) (hgen : GenericCoords x y)
    (lo : Int) (hi : Option Int) (s : Made (Contour K)) (hs : concaveContours env x y lo hi = .ok s)
    (c : Contour K) (h : s.2.val c) (hg : CentroidOf c.vertices (env.regionCentroid c.vertices)) :
    Roomy x y (max lo.toNat (distinctPoints c.vertices)) c.vertices :=
  (C75_concave_contours env hcoin x y hgen lo hi s hs c h).resolve_left fun ⟨r, hr, h'⟩ =>
    C46_concave_not_star env hpol x y lo hi s hs c h hg x y _ hi r hr h'

end
end HG
