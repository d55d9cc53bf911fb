import Verif.Props.Farthest
import Verif.Props.Enough

/-!
# C75: the bounding box of a polygon

All drawn points are in the convex hull of the border of a polygon, so the border reaches as far as
they do: it spans all coordinates that were drawn in one axis, and more than half of their number in
the other.
-/

set_option linter.unusedSectionVars false

namespace HG

open Strategy Spec

section
variable {K : Type} [LinearOrder K] [Zero K] [Add K] [_root_.Sub K] [Predicates K]

/-- There is a prime number `p`, at least five and at least `n`, such that the list spans `p` values
in one axis and `p / 2 + 1` values in the other. -/
def Spec.Roomy (x : Strategy K) (y : Option (Strategy K)) (n : ℕ) (l : List (Point K)) : Prop :=
  ∃ p : ℕ, p.Prime ∧ 5 ≤ p ∧ n ≤ p ∧
    (Spans p x Point.x l ∧ Spans (p / 2 + 1) (y.getD x) Point.y l ∨
      Spans p (y.getD x) Point.y l ∧ Spans (p / 2 + 1) x Point.x l)

end

section
variable {K : Type} [CommRing K] [LinearOrder K] [IsStrictOrderedRing K]

/-- A list with a convex hull is not empty. -/
theorem Spec.InHull.nonempty {l : List (Point K)} {q : Point K} (h : InHull l q) : l ≠ [] := by
  rintro rfl
  have := h 0 0 (-1) (by simp)
  simp only [zero_mul, add_zero] at this
  have := zero_lt_one (α := K)
  linarith

/-- The list reaches at least as far as its convex hull in any direction. -/
theorem Spec.InHull.reach {l : List (Point K)} {q : Point K} (h : InHull l q) (a b : K) :
    ∃ v ∈ l, a * q.x + b * q.y ≤ a * v.x + b * v.y := by
  obtain ⟨v, hv, hm⟩ := exists_greatest l (fun v => a * v.x + b * v.y) h.nonempty
  exact ⟨v, hv, h a b _ hm⟩

theorem Spec.InHull.between {l : List (Point K)} {q : Point K} (h : InHull l q) :
    Between Point.x l q.x ∧ Between Point.y l q.y := by
  obtain ⟨a, ha, la⟩ := h.reach (-1) 0
  obtain ⟨b, hb, lb⟩ := h.reach 1 0
  obtain ⟨c, hc, lc⟩ := h.reach 0 (-1)
  obtain ⟨d, hd, ld⟩ := h.reach 0 1
  exact ⟨⟨a, ha, b, hb, by linarith, by linarith⟩, ⟨c, hc, d, hd, by linarith, by linarith⟩⟩

/-- Points whose convex hull contains all points in general position span their coordinates. -/
theorem roomy_of_inHull {x : Strategy K} {y : Option (Strategy K)} {lo : Int} {hi : Option Int}
    (h3 : 3 ≤ lo) {pts : List (Point K)} (hp : (toGeneralPositionStrategy x y lo hi).val pts)
    {l : List (Point K)} (hl : ∀ q ∈ pts, InHull l q) {n : ℕ} (hn : n ≤ pts.length) :
    Roomy x y n l := by
  obtain ⟨hnd, hpr, -, hd⟩ := C35_distinct x y _ hi h3 pts hp
  have h5 : 5 ≤ pts.length := by
    obtain ⟨p, s, swap, xs, ys, -, h5, -, -, -, -, -, -, -, -, -, rfl⟩ := generalPosition_val h3 hp
    rw [List.length_map, List.length_map, intRange_length]
    simpa using h5
  have hodd : pts.length % 2 = 1 := (hpr.eq_two_or_odd).resolve_left (by omega)
  have span : ∀ (f : Point K → K) (z : Strategy K) (n : ℕ), (∀ p ∈ pts, z.val (f p)) →
      (∀ p ∈ pts, Between f l (f p)) → n ≤ (pts.map f).toFinset.card → Spans n z f l := by
    intro f z n hz hb hn
    refine ⟨(pts.map f).dedup, List.nodup_dedup _, by rwa [← List.card_toFinset], ?_⟩
    intro v hv
    rw [List.mem_dedup] at hv
    obtain ⟨p, hp, rfl⟩ := List.mem_map.1 hv
    obtain ⟨a, ha, b, hb, l1, l2⟩ := hb p hp
    exact ⟨hz p hp, ⟨a, ha, l1⟩, ⟨b, hb, l2⟩⟩
  have all : ∀ f : Point K → K, (∀ p ∈ pts, ∀ q ∈ pts, f p = f q → p = q) →
      (pts.map f).toFinset.card = pts.length := by
    intro f hf
    rw [List.toFinset_card_of_nodup (List.Nodup.map_on hf hnd), List.length_map]
  refine ⟨pts.length, hpr, h5, hn, ?_⟩
  rcases generalPosition_oneAxis h3 hp with ⟨a, b⟩ | ⟨a, b⟩
  · left
    have hb := half_distinct hnd b
    exact ⟨span _ _ _ (fun p hp => (hd p hp).1) (fun p hp => (hl p hp).between.1)
        (by rw [all _ a]),
      span _ _ _ (fun p hp => (hd p hp).2) (fun p hp => (hl p hp).between.2) (by omega)⟩
  · right
    have hb := half_distinct hnd b
    exact ⟨span _ _ _ (fun p hp => (hd p hp).2) (fun p hp => (hl p hp).between.2)
        (by rw [all _ a]),
      span _ _ _ (fun p hp => (hd p hp).1) (fun p hp => (hl p hp).between.1) (by omega)⟩

/-- Some of the points are not more than all. -/
theorem distinctPoints_le {l pts : List (Point K)} (h : ∀ v ∈ l, v ∈ pts) :
    distinctPoints l ≤ pts.length :=
  (Finset.card_le_card (t := pts.toFinset) fun p hp =>
    List.mem_toFinset.2 (h p (List.mem_toFinset.1 hp))).trans (List.toFinset_card_le _)

/-- C75: a concave contour that is not a star contour spans as many drawn coordinates as it has
vertices, and at least five, in one axis, and half of the number in the other, unless drawn points
are on a slanted line. -/
theorem C75_concave_contours (env : Env K) (hcoin : Sums env.coinChange) (x : Strategy K)
    (y : Option (Strategy K)) (hgen : GenericCoords x y) (lo : Int) (hi : Option Int)
    (s : Made (Contour K)) (hs : concaveContours env x y lo hi = .ok s) (c : Contour K)
    (h : s.2.val c) :
    (∃ r, starContours env x y (max lo 4) hi = .ok r ∧ r.2.val c) ∨
      Roomy x y (max lo.toNat (distinctPoints c.vertices)) c.vertices := by
  simp only [concaveContours, exc_bind_ok, exc_pure_ok, validate_ok] at hs
  obtain ⟨w, ⟨hb, -⟩, rfl⟩ := hs
  obtain ⟨vs, ⟨h, -⟩, rfl⟩ := h
  obtain ⟨b1, b2⟩ := okBounds_of hb
  have h3 : 3 ≤ max lo 4 := by have := le_max_right lo 4; omega
  rcases h with h | ⟨h, hsz⟩
  · exact .inl ⟨_, starContours_ok h3 b2, vs, h, rfl⟩
  · right
    rw [val_mapE] at h
    obtain ⟨⟨pts, n⟩, ⟨pts', hp, rfl, -⟩, h⟩ := h
    have hl : 3 ≤ vs.length := by
      have := ((hasValidSize_iff _ _ _).1 hsz).1
      omega
    obtain ⟨hn, hpr, hlen, -⟩ := C35_distinct x y _ _ h3 pts hp
    have hm := toVertexSequence_mem h
    refine roomy_of_inHull h3 hp (fun q hq => toVertexSequence_inHull hn (hcoin _ hpr.two_le)
        (generalPosition_noThree hgen h3 hp) h hl hq) (max_le ?_ (distinctPoints_le hm))
    have := le_max_left lo 4
    dsimp only
    omega

/-- C75: the border of a polygon spans as many drawn coordinates as the polygon has vertices, those of
the holes included, in one axis, and half of the number in the other; so for the least numbers
of vertices that were asked for, and for five. -/
theorem C75_polygons (env : Env K) (hcoin : Sums env.coinChange)
    (hset : ∀ l, (env.setOrder l).Perm l) (x : Strategy K)
    (y : Option (Strategy K)) (lo : Int) (hi : Option Int) (nlo : Int) (nhi : Option Int)
    (hlo : Int) (hhi : Option Int) (s : Made (Polygon K))
    (hs : polygons env x y lo hi nlo nhi hlo hhi = .ok s) (p : Polygon K) (h : s.2.val p) :
    Roomy x y (max (max lo 3 + max hlo 3 * max nlo 0).toNat (distinctPoints (polygonVertices p)))
      p.border.vertices := by
  simp only [polygons, exc_bind_ok, exc_pure_ok, validate_ok] at hs
  obtain ⟨w, -, w', -, w'', -, rfl⟩ := hs
  have h1 : 3 ≤ max lo 3 := le_max_right _ _
  have h2 : 0 ≤ max nlo 0 := le_max_right _ _
  have h3 : 3 ≤ max hlo 3 := le_max_right _ _
  obtain ⟨h, -⟩ := h
  simp only [val_bind', val_filter] at h
  obtain ⟨pts, ⟨hp, -⟩, h⟩ := h
  simp only [pointsToPolygonStrategy, val_mapE] at h
  obtain ⟨r, -, h⟩ := h
  have h3' : 3 ≤ max lo 3 + max hlo 3 * max nlo 0 := by nlinarith
  obtain ⟨hn, hpr, hlen, -⟩ := C35_distinct x y _ _ h3' pts hp
  obtain ⟨m1, m2⟩ := toPolygon_mem hset h
  refine roomy_of_inHull h3' hp
    (fun q hq => (toPolygon_run hn (hcoin _ hpr.two_le) h).inHull hq)
    (max_le (by omega) (distinctPoints_le fun w hw => ?_))
  rcases mem_polygonVertices.1 hw with hw | ⟨c, hc, hw⟩
  · exact m1 w hw
  · exact m2 c hc w hw

theorem Spec.Roomy.mono {x : Strategy K} {y : Option (Strategy K)} {n n' : ℕ} {l : List (Point K)}
    (h : Roomy x y n l) (hn : n' ≤ n) : Roomy x y n' l := by
  obtain ⟨p, h1, h2, h3, h4⟩ := h
  exact ⟨p, h1, h2, hn.trans h3, h4⟩

/-- C75: so for the polygons of a multipolygon, unless the multipolygon has no holes and its borders
are a multicontour. -/
theorem C75_multipolygons (env : Env K) (hcoin : Sums env.coinChange)
    (hset : ∀ l, (env.setOrder l).Perm l) (x : Strategy K) (y : Option (Strategy K)) (lo : Int)
    (hi : Option Int) (blo : Int) (bhi : Option Int) (nlo : Int) (h0 : 0 ≤ nlo) (nhi : Option Int)
    (hlo : Int) (hhi : Option Int) (s : Made (List (Polygon K)))
    (hs : multipolygons env x y lo hi blo bhi nlo nhi hlo hhi = .ok s) (l : List (Polygon K))
    (h : s.2.val l) :
    (∀ p ∈ l, Roomy x y (max (max blo 3 + max hlo 3 * max nlo 0).toNat
      (distinctPoints (polygonVertices p))) p.border.vertices) ∨
    (nlo = 0 ∧ (∀ p ∈ l, p.holes = []) ∧
      ∃ t, multicontours env x y lo hi blo bhi = .ok t ∧ t.2.val (l.map Polygon.border)) := by
  rcases C57_multipolygons env x y lo hi blo bhi nlo h0 nhi hlo hhi s hs l h with ⟨t, ht, hp⟩ | h
  · exact .inl fun p hm => C75_polygons env hcoin hset x y _ _ _ _ _ _ t ht p (hp p hm)
  · exact .inr h

/-- C75: so for the polygons of a mix. -/
theorem C75_mixes (env : Env K) (hcoin : Sums env.coinChange)
    (hset : ∀ l, (env.setOrder l).Perm l) (x : Strategy K) (y : Option (Strategy K)) (a : MixArgs)
    (s : Made (Mix K)) (hs : mixes env x y a = .ok s) (g : Mix K) (h : s.2.val g) :
    ∀ p ∈ mixPolygons g, Roomy x y (max (max a.minPolygonBorderSize 3 +
      max a.minPolygonHoleSize 3 * max a.minPolygonHolesSize 0).toNat
      (distinctPoints (polygonVertices p))) p.border.vertices := by
  obtain ⟨-, -, t, ht, hp⟩ := C57_mixes env x y a s hs g h
  exact fun p hm => C75_polygons env hcoin hset x y _ _ _ _ _ _ t ht p (hp p hm)

end

/-- A list over integers is long and wide accordingly. -/
theorem roomy_integers {x : Strategy ℤ} {y : Option (Strategy ℤ)} {n : ℕ} {l : List (Point ℤ)}
    (h : Roomy x y n l) :
    ∃ p : ℕ, p.Prime ∧ 5 ≤ p ∧ n ≤ p ∧
      ((∃ v ∈ l, ∃ w ∈ l, (p : ℤ) - 1 ≤ w.x - v.x) ∧ (∃ v ∈ l, ∃ w ∈ l, (p : ℤ) - 1 ≤ 2 * (w.y - v.y)) ∨
       (∃ v ∈ l, ∃ w ∈ l, (p : ℤ) - 1 ≤ w.y - v.y) ∧
        ∃ v ∈ l, ∃ w ∈ l, (p : ℤ) - 1 ≤ 2 * (w.x - v.x)) := by
  obtain ⟨p, h1, h2, h3, h⟩ := h
  have half : ∀ {z : Strategy ℤ} {f : Point ℤ → ℤ}, Spans (p / 2 + 1) z f l →
      ∃ v ∈ l, ∃ w ∈ l, (p : ℤ) - 1 ≤ 2 * (f w - f v) := by
    intro z f h
    obtain ⟨v, hv, w, hw, h⟩ := spans_width (by omega) h
    exact ⟨v, hv, w, hw, by omega⟩
  refine ⟨p, h1, h2, h3, ?_⟩
  rcases h with ⟨a, b⟩ | ⟨a, b⟩
  · exact .inl ⟨spans_width (by omega) a, half b⟩
  · exact .inr ⟨spans_width (by omega) a, half b⟩

/-- C75: the bounding box of a polygon with integer coordinates is at least `p - 1` long and
`(p - 1) / 2` wide for a prime number `p`, not less than five and not less than the number of
vertices. -/
theorem C75_integers (env : Env ℤ) (hcoin : Sums env.coinChange)
    (hset : ∀ l, (env.setOrder l).Perm l) (x : Strategy ℤ)
    (y : Option (Strategy ℤ)) (lo : Int) (hi : Option Int) (nlo : Int) (nhi : Option Int)
    (hlo : Int) (hhi : Option Int) (s : Made (Polygon ℤ))
    (hs : polygons env x y lo hi nlo nhi hlo hhi = .ok s) (p : Polygon ℤ) (h : s.2.val p) :
    ∃ r : ℕ, r.Prime ∧ 5 ≤ r ∧ max lo 3 + max hlo 3 * max nlo 0 ≤ r ∧
      distinctPoints (polygonVertices p) ≤ r ∧
      ((∃ v ∈ p.border.vertices, ∃ w ∈ p.border.vertices, (r : ℤ) - 1 ≤ w.x - v.x) ∧
          (∃ v ∈ p.border.vertices, ∃ w ∈ p.border.vertices, (r : ℤ) - 1 ≤ 2 * (w.y - v.y)) ∨
        (∃ v ∈ p.border.vertices, ∃ w ∈ p.border.vertices, (r : ℤ) - 1 ≤ w.y - v.y) ∧
          ∃ v ∈ p.border.vertices, ∃ w ∈ p.border.vertices, (r : ℤ) - 1 ≤ 2 * (w.x - v.x)) := by
  obtain ⟨r, h1, h2, h3, h⟩ := roomy_integers
    (C75_polygons env hcoin hset x y lo hi nlo nhi hlo hhi s hs p h)
  rw [max_le_iff] at h3
  exact ⟨r, h1, h2, Int.toNat_le.1 h3.1, h3.2, h⟩

section
open Sample

/-- Non-vacuity for C75: the border of a polygon with a hole, seven vertices together. -/
example : Roomy (K := ℤ) (sampledFrom (coords 7)) none 7 [⟨0, 0⟩, ⟨6, 1⟩, ⟨5, 4⟩, ⟨2, 4⟩] := by
  obtain ⟨s, hs, h⟩ := sample_polygons
  exact (C75_polygons env coins_sums (fun l => List.Perm.refl l) _ _ _ _ _ _ _ _ s hs _ h).mono
    (le_max_of_le_right (by decide))

/-- A triangle in a box with sides of length three is not a value of `polygons` over integers. -/
example (x : Strategy ℤ) (lo : Int) (hi : Option Int) (nlo : Int) (nhi : Option Int) (hlo : Int)
    (hhi : Option Int) (s : Made (Polygon ℤ))
    (hs : polygons env x none lo hi nlo nhi hlo hhi = .ok s) :
    ¬ s.2.val ⟨⟨[⟨0, 0⟩, ⟨3, 1⟩, ⟨3, 3⟩]⟩, []⟩ := by
  intro h
  obtain ⟨r, -, h5, -, -, h⟩ := C75_integers env coins_sums (fun l => List.Perm.refl l) x none lo hi nlo
    nhi hlo hhi s hs _ h
  simp only [List.mem_cons, List.not_mem_nil, or_false, exists_eq_or_imp, exists_eq_left] at h
  omega

end

end HG
