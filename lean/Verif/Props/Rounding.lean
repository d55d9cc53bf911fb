import Verif.Props.Mixes
import Verif.Spec.Rough

/-!
# C51, C52: what holds however the arithmetic rounds

Nothing is assumed about the operations `+` and `-` on coordinates, nor about the orientation and
circle predicates: only the comparison of coordinates is a linear order.
-/

set_option linter.unusedSectionVars false

namespace HG

open Strategy Spec

section
variable {K : Type} [LinearOrder K] [Zero K] [Add K] [Sub K] [Predicates K]

/-! ## C51: coordinates stay in the drawn range -/

theorem vertexSequence_range {env : Env K} (henv : ∀ pts, ∀ p ∈ env.convexHull pts, p ∈ pts)
    {x : Strategy K} {y : Option (Strategy K)} {lo : Int} {hi : Option Int} (h3 : 3 ≤ lo)
    {vs : List (Point K)} (h : (toVertexSequenceStrategy env x y lo hi).val vs) :
    ∀ v ∈ vs, InRange x v.x ∧ InRange (y.getD x) v.y := by
  intro v hv
  rcases h with h | h
  · exact convexStrategy_range henv h3 h v hv
  · have := drawn_iff.1 (vertexSequences_drawn h3 h v hv)
    refine ⟨inRange_of_val this.1, inRange_of_val ?_⟩
    cases y <;> exact this.2

/-- C51 for `contours`: every vertex is between drawn coordinates. -/
theorem C51_contours (env : Env K) (henv : ∀ pts, ∀ p ∈ env.convexHull pts, p ∈ pts)
    (x : Strategy K) (y : Option (Strategy K)) (lo : Int) (hi : Option Int) (s : Made (Contour K))
    (hs : contours env x y lo hi = .ok s) (c : Contour K) (h : s.2.val c) :
    ∀ v ∈ c.vertices, InRange x v.x ∧ InRange (y.getD x) v.y := by
  simp only [contours, exc_bind_ok, exc_pure_ok, validate_ok] at hs
  obtain ⟨w, -, rfl⟩ := hs
  obtain ⟨vs, hv, rfl⟩ := h
  exact vertexSequence_range henv (le_max_right _ _) hv

/-- `y_coordinates=None` and `y_coordinates=x_coordinates` are the same. -/
theorem segmentSequence_some (env : Env K) (x : Strategy K) (y : Option (Strategy K)) (lo : Int)
    (hi : Option Int) (l : List (Segment K)) :
    (toSegmentSequenceStrategy env x y lo hi).val l →
      (toSegmentSequenceStrategy env x (some (y.getD x)) lo hi).val l := by
  cases y with
  | some y => exact id
  | none => exact id

/-- C51 for `multisegments`: every endpoint is between drawn coordinates. -/
theorem C51_multisegments (env : Env K) (henv : ∀ pts, ∀ p ∈ env.convexHull pts, p ∈ pts)
    (x : Strategy K) (y : Option (Strategy K)) (lo : Int) (hi : Option Int)
    (s : Made (List (Segment K))) (hs : multisegments env x y lo hi = .ok s)
    (l : List (Segment K)) (h : s.2.val l) :
    ∀ t ∈ l, ∀ p ∈ [t.start, t.stop], InRange x p.x ∧ InRange (y.getD x) p.y := by
  simp only [multisegments, exc_bind_ok, exc_pure_ok, validate_ok] at hs
  obtain ⟨w, -, rfl⟩ := hs
  intro t ht
  have := segmentSequence_range henv (segmentSequence_some env x y _ _ l h) t ht
  simpa [PointIn] using this

/-- Where the coordinates of the pieces come from. -/
structure Spec.MixDrawn (x y : Strategy K) (points : List (Point K)) (segments : List (Segment K))
    (polygons : List (Polygon K)) : Prop where
  points : ∀ p ∈ points, x.val p.x ∧ y.val p.y
  segments : ∀ t ∈ segments, ∀ p ∈ [t.start, t.stop], InRange x p.x ∧ InRange y p.y
  polygons : ∀ g ∈ polygons, ∀ v ∈ polygonVertices g, x.val v.x ∧ y.val v.y

theorem inRange_mono {x x' : Strategy K} (h : ∀ a, x.val a → x'.val a) {a : K} (ha : InRange x a) :
    InRange x' a := by
  obtain ⟨b, c, hb, hc, h1, h2⟩ := ha
  exact ⟨b, c, h b hb, h c hc, h1, h2⟩

theorem polygonDrawn_vertices {x y : Strategy K} {g : Polygon K} (h : PolygonDrawn x (some y) g) :
    ∀ v ∈ polygonVertices g, x.val v.x ∧ y.val v.y := by
  intro v hv
  rcases mem_polygonVertices.1 hv with hv | ⟨c, hc, hv⟩
  · exact h.1 v hv
  · exact h.2 c hc v hv

theorem mixLoop_drawn {env : Env K} (henv : ∀ pts, ∀ p ∈ env.convexHull pts, p ∈ pts)
    (hset : ∀ l, (env.setOrder l).Perm l) {a : Bool} {x y : Strategy K} {z : PolygonSizes}
    (h3 : 3 ≤ z.minSize + z.minHoleSize * z.minHoleCount)
    (ds : List (Drawer × Int)) (R : List K) (hR : ∀ c ∈ R, (bif a then x else y).val c)
    (s : MixState K) (hs : MixDrawn x y s.points s.segments s.polygons) {t : MixState K}
    (h : (mixLoop env a (bif a then y else x) z ds R s).val t) :
    MixDrawn x y t.points t.segments t.polygons := by
  induction ds generalizing R s with
  | nil =>
    simp only [mixLoop, val_just] at h
    subst h
    exact hs
  | cons d ds ih =>
    obtain ⟨dr, n⟩ := d
    simp only [mixLoop, val_bind, val_ofExcept] at h
    obtain ⟨s1, h1, touch, -, h⟩ := h
    refine ih _ (fun c hc => hR c (List.mem_of_mem_drop hc)) _ ?_ h
    have slab : ∀ (m : Nat) c, (sampledFrom (R.take m)).val c → (bif a then x else y).val c :=
      fun m c hc => hR c (List.mem_of_mem_take hc)
    cases dr with
    | points =>
      simp only [runDrawer, drawPoints, val_bind, val_pure] at h1
      obtain ⟨ps, hps, rfl⟩ := h1
      refine ⟨fun p hp => ?_, hs.segments, hs.polygons⟩
      rcases List.mem_append.1 hp with hp | hp
      · exact hs.points p hp
      · cases a <;>
        · simp only [Bool.false_eq_true, if_true, if_false] at hps
          obtain ⟨h1, -, -⟩ := hps
          obtain ⟨q, ⟨q1, q2⟩, rfl⟩ := h1 p hp
          first
          | exact ⟨slab _ _ q1, q2⟩
          | exact ⟨q1, slab _ _ q2⟩
    | segments =>
      simp only [runDrawer, drawSegments, val_bind, val_pure] at h1
      obtain ⟨ss, hss, rfl⟩ := h1
      refine ⟨hs.points, fun u hu => ?_, hs.polygons⟩
      rcases List.mem_append.1 hu with hu | hu
      · exact hs.segments u hu
      · cases a
        · simp only [Bool.false_eq_true, if_false] at hss
          obtain ⟨⟨a1, a2⟩, ⟨b1, b2⟩⟩ := segmentSequence_range henv hss u hu
          simpa using ⟨⟨a1, inRange_mono (slab _) a2⟩, ⟨b1, inRange_mono (slab _) b2⟩⟩
        · simp only [if_true] at hss
          obtain ⟨⟨a1, a2⟩, ⟨b1, b2⟩⟩ := segmentSequence_range henv hss u hu
          simpa using ⟨⟨inRange_mono (slab _) a1, a2⟩, ⟨inRange_mono (slab _) b1, b2⟩⟩
    | polygon =>
      simp only [runDrawer, drawPolygon, val_bind, val_pure] at h1
      obtain ⟨m, -, g, hg, rfl⟩ := h1
      refine ⟨hs.points, hs.segments, fun g' hg' => ?_⟩
      rcases List.mem_append.1 hg' with hg' | hg'
      · exact hs.polygons g' hg'
      · rw [List.mem_singleton] at hg'
        subst hg'
        unfold slabPolygon at hg
        cases a
        · have := polygonDrawn_vertices (polygon_drawn hset h3 (by simpa using hg))
          exact fun v hv => ⟨(this v hv).1, slab _ _ (this v hv).2⟩
        · have := polygonDrawn_vertices (polygon_drawn hset h3 (by simpa using hg))
          exact fun v hv => ⟨slab _ _ (this v hv).1, (this v hv).2⟩

/-- C51 for `mixes`: points and polygon vertices are drawn, segment endpoints are between drawn
coordinates. -/
theorem C51_mixes (env : Env K) (henv : ∀ pts, ∀ p ∈ env.convexHull pts, p ∈ pts)
    (hset : ∀ l, (env.setOrder l).Perm l) (x : Strategy K) (y : Option (Strategy K))
    (a : MixArgs) (s : Made (Mix K)) (hs : mixes env x y a = .ok s) (g : Mix K)
    (h : s.2.val g) : MixDrawn x (y.getD x) (mixPoints g) (mixSegments g) (mixPolygons g) := by
  obtain ⟨-, z, hz, -, t, ht, hg⟩ := mixes_val hs h
  obtain ⟨-, -, -, e4, -⟩ := branches_spec a z hz
  have hz3 : 3 ≤ z.polygon.minSize := by rw [e4]; exact le_max_right _ _
  have hzn : 0 ≤ z.polygon.minHoleCount := by rw [e4]; exact le_max_right _ _
  have hzh : 0 ≤ z.polygon.minHoleSize := by
    rw [e4]; exact le_trans (by norm_num) (le_max_right _ _)
  simp only [toMixStrategy, exc_bind_ok, exc_pure_ok] at ht
  obtain ⟨mp, -, rfl⟩ := ht
  have hy : yOr x y = y.getD x := by cases y <;> rfl
  rw [hy] at hg
  have empty : MixDrawn x (y.getD x) [] [] [] := by constructor <;> simp
  rcases hg with ⟨c, hc, hg⟩ | ⟨c, hc, hg⟩ <;>
  · simp only [coordsToMix, val_bind, val_permutations, val_pure] at hg
    obtain ⟨_, -, drawers, -, s, hs, rfl⟩ := hg
    rw [unpackPoints_spec, unpackSegments_spec, unpackPolygons_spec]
    first
    | exact mixLoop_drawn (a := true) henv hset (by nlinarith) drawers _
        (fun b hb => hc.1 b ((sortCoords_perm _).mem_iff.1 hb)) ⟨[], [], []⟩ empty hs
    | exact mixLoop_drawn (a := false) henv hset (by nlinarith) drawers _
        (fun b hb => hc.1 b ((sortCoords_perm _).mem_iff.1 hb)) ⟨[], [], []⟩ empty hs

/-! ## C52: pieces are ordered -/

/-- C52 for `multicontours`: of two contours one is not after, the other not before some point, in
the order by abscissa then ordinate or in the order by ordinate then abscissa. -/
theorem C52_multicontours (env : Env K) (x : Strategy K) (y : Option (Strategy K)) (lo : Int)
    (hi : Option Int) (clo : Int) (chi : Option Int) (s : Made (List (Contour K)))
    (hs : multicontours env x y lo hi clo chi = .ok s) (l : List (Contour K)) (h : s.2.val l) :
    l.Pairwise fun a b => Separated a.vertices b.vertices := by
  simp only [multicontours, exc_bind_ok, exc_pure_ok, validate_ok] at hs
  obtain ⟨w, -, w', -, rfl⟩ := hs
  have h1 : 2 ≤ max lo 2 := le_max_right _ _
  have h2 : 3 ≤ max clo 3 := le_max_right _ _
  exact multicontour_separated (by nlinarith) h

/-- C52 for the holes of `polygons`. -/
theorem C52_holes (env : Env K) (hset : ∀ l, (env.setOrder l).Perm l) (x : Strategy K)
    (y : Option (Strategy K)) (lo : Int) (hi : Option Int) (nlo : Int) (nhi : Option Int)
    (hlo : Int) (hhi : Option Int) (s : Made (Polygon K))
    (hs : polygons env x y lo hi nlo nhi hlo hhi = .ok s) (p : Polygon K) (h : s.2.val p) :
    p.holes.Pairwise fun a b => Separated a.vertices b.vertices := by
  simp only [polygons, exc_bind_ok, exc_pure_ok, validate_ok] at hs
  obtain ⟨w, -, w', -, w'', -, rfl⟩ := hs
  refine polygon_holes_separated hset ?_ h
  have h1 : 3 ≤ max lo 3 := le_max_right _ _
  have h2 : 0 ≤ max nlo 0 := le_max_right _ _
  have h3 : 3 ≤ max hlo 3 := le_max_right _ _
  dsimp only
  nlinarith

/-- C52 for `multipolygons`: the polygons are ordered along an axis, or they have no holes and
their borders are separated like the contours of a multicontour. -/
theorem C52_multipolygons (env : Env K) (hset : ∀ l, (env.setOrder l).Perm l) (x : Strategy K)
    (y : Option (Strategy K)) (lo : Int) (hi : Option Int) (blo : Int) (bhi : Option Int)
    (nlo : Int) (nhi : Option Int) (hlo : Int) (hhi : Option Int)
    (s : Made (List (Polygon K)))
    (hs : multipolygons env x y lo hi blo bhi nlo nhi hlo hhi = .ok s) (l : List (Polygon K))
    (h : s.2.val l) : (∃ a, l.Pairwise (PolygonsOrdered a)) ∨
      ((∀ p ∈ l, p.border.vertices ≠ [] ∧ p.holes = []) ∧
        l.Pairwise fun p q => Separated p.border.vertices q.border.vertices) := by
  simp only [multipolygons, exc_bind_ok, exc_pure_ok, validate_ok] at hs
  obtain ⟨w, -, w', -, w'', -, w''', -, s, hs, rfl⟩ := hs
  exact multipolygon_ordered hset (le_max_right _ _) (le_max_right _ _) hs h

/-- C52 for `mixes`: along one of the axes, points are strictly beside segments and polygons,
segments beside borders of polygons, polygons are ordered, and segments come in ordered groups drawn
as multisegments. -/
theorem C52_mixes (env : Env K) (henv : ∀ pts, ∀ p ∈ env.convexHull pts, p ∈ pts)
    (hset : ∀ l, (env.setOrder l).Perm l) (x : Strategy K) (y : Option (Strategy K))
    (a : MixArgs) (s : Made (Mix K)) (hs : mixes env x y a = .ok s) (g : Mix K)
    (h : s.2.val g) : ∃ b : Bool,
    (mixPoints g).Nodup ∧
    (∀ p ∈ mixPoints g, ∀ t ∈ mixSegments g, PointBeside b p [t.start, t.stop]) ∧
    (∀ p ∈ mixPoints g, ∀ q ∈ mixPolygons g, PointBeside b p (polygonVertices q)) ∧
    (∀ t ∈ mixSegments g, ∀ q ∈ mixPolygons g, SegmentBesidePolygon b t q) ∧
    (mixPolygons g).Pairwise (PolygonsOrdered b) ∧
    ∃ groups : List (List (Segment K)), groups.flatten = mixSegments g ∧
      (groups.Pairwise fun k l => ∀ s ∈ k, ∀ t ∈ l, SegBefore b s t) ∧
      ∀ l ∈ groups, SegmentGroup env x y l := by
  obtain ⟨b, groups, ho, hg⟩ := mix_ordered henv hset hs h
  exact ⟨b, ho.nodup, ho.pointSegment, ho.pointPolygon, ho.segmentPolygon, ho.polygons, groups,
    ho.flat, ho.groups, hg⟩

end

/-! ## Non-vacuity: an arithmetic that rounds -/

section
open Rough

/-- The convex hull of `Rough.env` consists of given points. -/
theorem rough_hull (pts : List (Point Rough)) : ∀ p ∈ Rough.env.convexHull pts, p ∈ pts := by
  intro p hp
  obtain ⟨q, hq, rfl⟩ := List.mem_map.1 hp
  obtain ⟨r, hr, rfl⟩ := List.mem_map.1 ((sample_hullOk (pts.map Point.exact)).sub q hq)
  exact hr

/-- A draw of the random source. -/
def roughRandom : ConvexRandom Rough := ⟨fun i => i % 2 = 0, fun i => i % 3 = 0, fun l => l⟩

/-- Coordinates `0, ..., 6`. -/
def roughCoords : List Rough := (Sample.coords 7).map Rough.mk

/-- Seven points in general position. -/
def roughPoints : List (Point Rough) := (Sample.parab 7).map rough

theorem rough_generalPosition :
    (toGeneralPositionStrategy (sampledFrom roughCoords) none 6 none).val roughPoints := by
  have hl : roughCoords.length = 7 := by decide
  simp only [toGeneralPositionStrategy, val_bind, val_ofExcept, val_prod, val_uniqueLists]
  refine ⟨7, by decide +kernel, (roughCoords, roughCoords), ⟨⟨fun a ha => ha, by decide, by decide,
    trivial⟩, ⟨fun a ha => ha, by decide, by decide, trivial⟩⟩, ?_⟩
  simp only [coordinatePairToPoints, val_bind, val_ofExcept]
  refine ⟨7, by decide +kernel, Or.inl ?_⟩
  simp only [val_mapE, val_bind', val_integersFrom, val_integers]
  exact ⟨1, ⟨0, le_refl _, by simp, by decide +kernel⟩, by decide +kernel⟩

/-- The vectors of the construction for these points and this random source. -/
def roughVectors : List (Rough × Rough) :=
  pySort (fun v w => decide (Rough.env.atan2 v.2 v.1 ≤ Rough.env.atan2 w.2 w.1))
    ((vectorCoordinates ([1, 2, 3, 4, 5].map Rough.mk |>.zip [true, false, true, false, true])
      ⟨0⟩ ⟨0⟩ ⟨6⟩).zip
    (vectorCoordinates ([1, 1, 2, 2, 4].map Rough.mk |>.zip [true, false, false, true, false])
      ⟨0⟩ ⟨0⟩ ⟨4⟩))

/-- With rounding operations a position of the chain of these vectors leaves the drawn range, so
that the construction has to put it back (compare C09: this never happens in exact arithmetic). -/
example : ∃ p ∈ chainPositions ⟨⟨0⟩, ⟨0⟩⟩ roughVectors,
    ⟨6⟩ < p.x + ((⟨0⟩ : Rough) - chainMin Prod.fst ⟨0⟩ ⟨0⟩ roughVectors) := by
  decide +kernel

theorem rough_candidates : convexCandidates Rough.env roughPoints roughRandom =
    .ok ([⟨0, 2⟩, ⟨2, 0⟩, ⟨4, 0⟩, ⟨6, 2⟩, ⟨6, 4⟩, ⟨6, 4⟩, ⟨4, 4⟩].map rough) := by
  decide +kernel

/-- Rounding may even break the closing of the chain: what C09 claims is false here. -/
example : (roughVectors.map Prod.fst).foldl (· + ·) ⟨0⟩ ≠ (⟨0⟩ : Rough) ∨
    (roughVectors.map Prod.snd).foldl (· + ·) ⟨0⟩ ≠ (⟨0⟩ : Rough) := by
  decide +kernel

/-- The hypotheses of C08 and C51 are met by a hexagon drawn with rounding operations. -/
theorem rough_convex : (∀ pts, ∀ p ∈ Rough.env.convexHull pts, p ∈ pts) ∧
    ∃ s, contours Rough.env (sampledFrom roughCoords) none 6 none = .ok s ∧
      s.2.val ⟨[⟨0, 2⟩, ⟨2, 0⟩, ⟨4, 0⟩, ⟨6, 2⟩, ⟨6, 4⟩, ⟨4, 4⟩].map rough⟩ := by
  refine ⟨rough_hull, _, rfl, _, Or.inl ?_, rfl⟩
  simp only [toConvexStrategy, show ¬ (max 6 3 : Int) ≤ 4 by decide,
    show ¬ (max 6 3 : Int) = 3 by decide, if_false, val_filter, val_mapE, val_prod]
  refine ⟨⟨(roughPoints, roughRandom), ⟨rough_generalPosition, fun l => List.Perm.refl _⟩, ?_⟩,
    by decide +kernel⟩
  simp only [toConvexVertexSequence, rough_candidates]
  decide +kernel

end
end HG
