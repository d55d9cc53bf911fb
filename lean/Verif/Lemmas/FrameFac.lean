import Verif.Lemmas.FrameSeq
import Verif.Model.Base

/-!
# Change of coordinates: factories
-/

set_option linter.unusedSectionVars false

namespace HG

section
variable {K L : Type} [LinearOrder K] [Zero K] [Add K] [Sub K] [Predicates K]
  [LinearOrder L] [Zero L] [Add L] [Sub L] [Predicates L]

/-- Environments that do the same in both coordinate systems. -/
structure Frame.Compat (T : Frame K L) (env : Env K) (env' : Env L) : Prop where
  fuel : env'.fuel = env.fuel
  coin : env'.coinChange = env.coinChange
  order : env'.edgeOrder = env.edgeOrder
  hull : ∀ l, env'.convexHull (l.map T.pt) = (env.convexHull l).map T.pt
  scross : ∀ l, env'.segmentsCrossOrOverlap (l.map T.seg) = env.segmentsCrossOrOverlap l
  nearest : ∀ l s, l ≠ [] → env'.nearestSegment (l.map T.seg) (T.seg s) = T.seg (env.nearestSegment l s)
  mcent : ∀ l, 2 < l.length → env'.multipointCentroid (l.map T.pt) = T.pt (env.multipointCentroid l)
  rcent : ∀ l, 2 < l.length → env'.regionCentroid (l.map T.pt) = T.pt (env.regionCentroid l)
  atan : ∀ y x, env'.atan2 (T.g y) (T.g x) = env.atan2 y x
  set : ∀ l, env'.setOrder (l.map T.pt) = (env.setOrder l).map T.pt

theorem pyMaxBy_map {α β : Type} {key : α → K} {key' : β → L} {f : α → β}
    (h : ∀ a b, key' (f a) < key' (f b) ↔ key a < key b) (a : α) (l : List α) :
    pyMaxBy key' (f a) (l.map f) = f (pyMaxBy key a l) := by
  induction l generalizing a with
  | nil => rfl
  | cons b l ih =>
    simp only [List.map_cons, pyMaxBy, h]
    split <;> exact ih _

namespace Frame

variable (T : Frame K L)

theorem contourEdges_eq (vs : List (Point K)) :
    contourEdges (vs.map T.pt) = (contourEdges vs).map T.seg := by
  unfold contourEdges
  rw [List.length_map, List.map_map]
  refine List.map_congr_left fun i hi => ?_
  have hi := List.mem_range.1 hi
  show Segment.mk _ _ = Segment.mk _ _
  rw [T.pyAt_pt (by omega) (by omega), T.pyAt_pt (by omega) (by omega)]

theorem reverse_eq (vs : List (Point K)) :
    reverseVertices (vs.map T.pt) = (reverseVertices vs).map T.pt := by
  simp [reverseVertices, List.map_take]

theorem sortByKey_eq (h : Bool) (l : List (Point K)) :
    sortByKey h (l.map T.pt) = (sortByKey h l).map T.pt := by
  unfold sortByKey
  split
  · exact T.sort_pt l
  · exact pySort_map' T.leVB_pt l

theorem segMinY_eq (s : Segment K) : segMinY (T.seg s) = T.fy (segMinY s) :=
  (T.monoY.monotone.map_min).symm

theorem segMaxX_eq (s : Segment K) : segMaxX (T.seg s) = T.fx (segMaxX s) :=
  (T.monoX.monotone.map_min).symm

theorem horiz_eq (s : Segment K) : isSegmentHorizontal (T.seg s) = isSegmentHorizontal s := by
  unfold isSegmentHorizontal
  exact decide_eq_decide.2 T.monoY.injective.eq_iff

theorem vert_eq (s : Segment K) : isSegmentVertical (T.seg s) = isSegmentVertical s := by
  unfold isSegmentVertical
  exact decide_eq_decide.2 T.monoX.injective.eq_iff

theorem hasHor_eq (l : List (Segment K)) :
    hasHorizontalLowermostSegment (l.map T.seg) = hasHorizontalLowermostSegment l := by
  cases l with
  | nil => rfl
  | cons s l =>
    have h : ∀ a b : Segment K, segMinY (T.seg a) < segMinY (T.seg b) ↔ segMinY a < segMinY b :=
      fun a b => by rw [segMinY_eq, segMinY_eq, T.monoY.lt_iff_lt]
    rw [List.map_cons]
    unfold hasHorizontalLowermostSegment
    simp only
    rw [pyMaxBy_map h, horiz_eq, ← List.map_cons, List.any_map]
    congr 3
    funext t
    simp only [Function.comp, horiz_eq, segMinY_eq, T.monoY.injective.eq_iff]

theorem hasVer_eq (l : List (Segment K)) :
    hasVerticalLeftmostSegment (l.map T.seg) = hasVerticalLeftmostSegment l := by
  cases l with
  | nil => rfl
  | cons s l =>
    have h : ∀ a b : Segment K, segMaxX (T.seg a) < segMaxX (T.seg b) ↔ segMaxX a < segMaxX b :=
      fun a b => by rw [segMaxX_eq, segMaxX_eq, T.monoX.lt_iff_lt]
    rw [List.map_cons]
    unfold hasVerticalLeftmostSegment
    simp only
    rw [pyMaxBy_map h, vert_eq, ← List.map_cons, List.any_map]
    congr 3
    funext t
    simp only [Function.comp, vert_eq, segMaxX_eq, T.monoX.injective.eq_iff]

theorem touch_eq (h : Bool) (l : List (Segment K)) :
    touchPredicate h (l.map T.seg) = touchPredicate h l := by
  unfold touchPredicate
  rw [hasVer_eq, hasHor_eq]

theorem exc_ok_map {α β : Type} (f : α → β) (a : α) :
    (pure (f a) : Except Exc β) = (pure a : Except Exc α).map f := rfl

theorem multicontourLoop_eq {env : Env K} {env' : Env L} (hE : T.Compat env env')
    (l : List (Int × Bool)) (pts : List (Point K)) (prior : Option Bool) :
    multicontourLoop env' (pts.map T.pt) prior l =
      (multicontourLoop env pts prior l).map (List.map T.con) := by
  induction l generalizing pts prior with
  | nil => rfl
  | cons a l ih =>
    obtain ⟨size, key⟩ := a
    simp only [multicontourLoop]
    have e : (if prior ≠ some key then sortByKey key (pts.map T.pt) else pts.map T.pt) =
        (if prior ≠ some key then sortByKey key pts else pts).map T.pt := by
      split
      · rw [sortByKey_eq]
      · rfl
    rw [e, ← List.map_take, hE.fuel, hE.coin, hE.order, toVertexSequence_eq]
    refine exc_nat fun vs => ?_
    simp only [List.length_map, contourEdges_eq, touch_eq]
    split
    · refine exc_nat' fun b => ?_
      rw [← List.map_drop, ih]
      exact exc_nat fun _ => rfl
    · exact ih _ _

theorem toMulticontour_eq {env : Env K} {env' : Env L} (hE : T.Compat env env')
    (pts : List (Point K)) (sizes : List Int) (ch : Nat → Bool) :
    toMulticontour env' (pts.map T.pt) sizes ch =
      (toMulticontour env pts sizes ch).map (List.map T.con) :=
  T.multicontourLoop_eq hE _ _ _

/-! ## Polygons -/

def holeState (s : HoleState K) : HoleState L :=
  { innerPoints := s.innerPoints.map T.pt, boundaryPoints := s.boundaryPoints.map T.pt
    holes := s.holes.map T.con, holeEdges := s.holeEdges.map T.seg }

theorem holeLoop_eq {env : Env K} {env' : Env L} (hE : T.Compat env env')
    (l : List (Int × Bool)) (s : HoleState K) (prior : Option Bool) :
    holeLoop env' (T.holeState s) prior l = (holeLoop env s prior l).map T.holeState := by
  induction l generalizing s prior with
  | nil => rfl
  | cons a l ih =>
    obtain ⟨size, key⟩ := a
    simp only [holeLoop]
    have e : (if prior ≠ some key then sortByKey key (T.holeState s).innerPoints
          else (T.holeState s).innerPoints) =
        (if prior ≠ some key then sortByKey key s.innerPoints else s.innerPoints).map T.pt := by
      split
      · exact T.sortByKey_eq _ _
      · rfl
    rw [e, ← List.map_take, hE.fuel, hE.coin, hE.order, toVertexSequence_eq]
    refine exc_nat fun vs => ?_
    have e2 : (((T.holeState s).holes ++ [(⟨reverseVertices (vs.map T.pt)⟩ : Contour L)]).flatMap
          fun c => contourEdges c.vertices) =
        ((s.holes ++ [(⟨reverseVertices vs⟩ : Contour K)]).flatMap
          fun c => contourEdges c.vertices).map T.seg := by
      rw [reverse_eq]
      show ((s.holes.map T.con ++ [T.con ⟨reverseVertices vs⟩]).flatMap _) = _
      rw [← List.map_singleton (f := T.con), ← List.map_append, List.flatMap_map, List.map_flatMap]
      congr 1
      funext c
      exact T.contourEdges_eq _
    rw [e2, hE.scross]
    simp only [List.length_map]
    split
    · split
      · rfl
      · simp only [reverse_eq, contourEdges_eq, touch_eq]
        refine exc_nat' fun b => ?_
        rw [← ih]
        congr 1
        simp only [holeState, List.map_append, List.map_drop, List.map_take]
        rfl
    · rw [← ih]
      rfl

theorem lo_eq (s : Segment K) : (T.seg s).lo = T.pt s.lo := by
  unfold Segment.lo
  simp only [seg, leB_pt]
  split <;> rfl

theorem hi_eq (s : Segment K) : (T.seg s).hi = T.pt s.hi := by
  unfold Segment.hi
  simp only [seg, leB_pt]
  split <;> rfl

theorem pair_eq (s t : Segment K) :
    segmentPairCrossOrOverlap (T.seg s) (T.seg t) = segmentPairCrossOrOverlap s t := by
  unfold segmentPairCrossOrOverlap segmentsProperCross segmentsOverlap
  rw [lo_eq, lo_eq, hi_eq, hi_eq]
  simp only [seg, orient_pt, ltB_pt]

theorem detector_eq {env : Env K} {env' : Env L} (hE : T.Compat env env') (es : List (Segment K))
    (s : Segment K) :
    crossOrOverlapHoles env' (es.map T.seg) (T.seg s) = crossOrOverlapHoles env es s := by
  unfold crossOrOverlapHoles
  simp only [List.map_eq_nil_iff]
  split
  · rfl
  · rename_i h
    rw [hE.nearest _ _ h, pair_eq]

theorem polygonMouth_eq {env : Env K} {env' : Env L} (hE : T.Compat env env')
    (es : List (Segment K)) (m : Mesh K) (bp : List (Point K)) (e : Ref) :
    isPolygonMouth env' (es.map T.seg) (T.mesh m) (bp.map T.pt) e = isPolygonMouth env es m bp e := by
  unfold isPolygonMouth
  simp only [mesh_lfs, mesh_stop, mesh_start, mem_pt]
  congr 1
  · congr 2
    exact T.detector_eq hE es ⟨m.start e, m.stop (m.lfs e)⟩
  · exact congrArg _ (T.detector_eq hE es ⟨m.stop e, m.stop (m.lfs e)⟩)

def borderState (s : BorderState K) : BorderState L :=
  { mesh := T.mesh s.mesh, tri := s.tri, boundaryPoints := s.boundaryPoints.map T.pt
    neighbours := s.neighbours, candidates := T.ks s.candidates, size := s.size }

theorem borderLoop_eq {env : Env K} {env' : Env L} (hE : T.Compat env env')
    (es : List (Segment K)) (size : Int) (n : Nat) (s : BorderState K) :
    borderLoop env' (es.map T.seg) size n (T.borderState s) =
      (borderLoop env es size n s).map T.borderState := by
  induction n generalizing s with
  | zero => rfl
  | succ n ih =>
    unfold borderLoop
    simp only [borderState, ks_pop]
    split
    · cases hp : s.candidates.popmax with
      | none => rfl
      | some r =>
        obtain ⟨e, rest⟩ := r
        simp only [Option.map_some, T.polygonMouth_eq hE]
        split
        · exact ih { s with candidates := rest }
        · simp only [delete_eq]
          refine exc_nat fun ⟨m, t⟩ => ?_
          dsimp only [mp]
          split
          · rfl
          · rename_i ns _
            refine exc_nat2 (foldlM_nat (φ := fun p : List (Ref × List Ref) × KeyedSet K => (p.1, T.ks p.2)) _ ?_
              (s.neighbours.filter (fun p => p.1 ≠ e), rest)) fun ⟨c, b⟩ => ?_
            · rintro ⟨c, b⟩ e
              dsimp only
              rw [hE.fuel, edgeKey_eq]
              refine exc_nat fun k => ?_
              rw [mesh_nbr, ks_add]
              rfl
            · dsimp only
              rw [← ih]
              simp only [borderState, mesh_lfs, mesh_stop, insert_pt]
    · rfl

theorem toPolygon_eq {env : Env K} {env' : Env L} (hE : T.Compat env env')
    (pts : List (Point K)) (size : Int) (holes : List Int) (ch : Nat → Bool) :
    toPolygon env' (pts.map T.pt) size holes ch = (toPolygon env pts size holes ch).map T.poly := by
  unfold toPolygon
  rw [List.length_map, hE.fuel, hE.coin, delaunay_eq]
  refine exc_nat fun ⟨m, t⟩ => ?_
  dsimp only [mp]
  rw [boundaryEdges_eq]
  refine exc_nat' fun es => ?_
  have e1 : es.map (T.mesh m).start = (es.map m.start).map T.pt := by simp [mesh_start]
  rw [e1, List.dedup_map_of_injective T.pt_inj]
  have e2 : (pts.map T.pt).filter (fun p => p ∉ (es.map m.start).dedup.map T.pt) =
      (pts.filter (fun p => p ∉ (es.map m.start).dedup)).map T.pt := by
    rw [List.filter_map]
    congr 2
    funext p
    simp only [Function.comp, mem_pt]
  rw [e2, hE.set]
  refine exc_nat2 (T.holeLoop_eq hE _ { innerPoints := _, boundaryPoints := _, holes := [], holeEdges := [] } none)
    fun h => ?_
  have e3 : isPolygonMouth env' (T.holeState h).holeEdges (T.mesh m) (T.holeState h).boundaryPoints =
      isPolygonMouth env h.holeEdges m h.boundaryPoints := by
    funext e
    exact T.polygonMouth_eq hE _ _ _ _
  rw [e3]
  refine exc_nat2 (foldlM_nat (φ := T.ks) _ ?_ []) fun c => ?_
  · intro c e
    rw [edgeKey_eq]
    refine exc_nat fun k => ?_
    rw [ks_add]
    rfl
  · have e4 : es.map (fun e => (e, (T.mesh m).edgeNeighbours e)) =
      es.map (fun e => (e, m.edgeNeighbours e)) := by simp only [mesh_nbr]
    rw [e4, compress_pt, List.length_map]
    refine exc_nat2 (T.borderLoop_eq hE h.holeEdges size env.fuel
      { mesh := m, tri := t, boundaryPoints := h.boundaryPoints, neighbours := _, candidates := c
        size := _ }) fun s => ?_
    show (triToBorderVertices env.fuel (T.mesh s.mesh) s.tri >>= _) = _
    rw [border_eq]
    refine exc_nat fun b => ?_
    rw [List.length_map]
    split <;> rfl

/-! ## Star contours -/

theorem lastOfGroups_eq (l : List (ℚ × Point K)) :
    lastOfGroups (l.map fun a => (a.1, T.pt a.2)) = (lastOfGroups l).map T.pt := by
  induction l with
  | nil => rfl
  | cons a l ih =>
    cases l with
    | nil => rfl
    | cons b l =>
      simp only [List.map_cons, lastOfGroups] at ih ⊢
      split
      · exact ih
      · rw [ih]; rfl

theorem angleContains_eq (a b c d : Point K) :
    angleContainsPoint (T.pt a) (T.pt b) (T.pt c) (T.pt d) = angleContainsPoint a b c d := by
  simp only [angleContainsPoint, orient_pt]

theorem starInner_eq (c : Point K) (n i : Nat) (vs : List (Point K)) :
    starInner (T.pt c) n i (vs.map T.pt) = (starInner c n i vs).map T.pt := by
  induction n generalizing i vs with
  | zero => rfl
  | succ n ih =>
    unfold starInner
    rw [List.length_map]
    split
    · rename_i h
      have hm : (i + 1) % vs.length < vs.length := Nat.mod_lt _ (by omega)
      rw [T.pyAt_pt (by omega) (by omega), T.pyAt_pt (by omega) (by omega),
        T.pyAt_pt (by omega) (by omega), angleContains_eq]
      split
      · exact ih _ _
      · rw [map_eraseIdx']
        exact ih _ _
    · rfl

theorem starRound_eq {env : Env K} {env' : Env L} (hE : T.Compat env env') (c : Point K)
    (vs : List (Point K)) :
    starRound env' (T.pt c) (vs.map T.pt) =
      (T.pt (starRound env c vs).1, (starRound env c vs).2.map T.pt) := by
  unfold starRound
  have e1 : (vs.map T.pt).map (fun p => (env'.atan2 (p.y - (T.pt c).y) (p.x - (T.pt c).x), p)) =
      (vs.map fun p => (env.atan2 (p.y - c.y) (p.x - c.x), p)).map fun a => (a.1, T.pt a.2) := by
    rw [List.map_map, List.map_map]
    refine List.map_congr_left fun p _ => ?_
    show (env'.atan2 (T.fy p.y - T.fy c.y) (T.fx p.x - T.fx c.x), T.pt p) = _
    rw [T.subX, T.subY, hE.atan]
    rfl
  have e2 : ∀ a b : ℚ × Point K, anglePointLe (a.1, T.pt a.2) (b.1, T.pt b.2) = anglePointLe a b := by
    intro a b
    simp only [anglePointLe, leB_pt]
  rw [e1, pySort_map' e2, lastOfGroups_eq]
  simp only [List.length_map]
  split
  · rename_i h
    simp only [hE.rcent _ h, starInner_eq, compress_pt]
  · rfl

theorem starLoop_eq {env : Env K} {env' : Env L} (hE : T.Compat env env') (n : Nat) (c : Point K)
    (k : Nat) (vs : List (Point K)) :
    starLoop env' n (T.pt c) k (vs.map T.pt) = (starLoop env n c k vs).map T.pt := by
  induction n generalizing c k vs with
  | zero => rfl
  | succ n ih =>
    simp only [starLoop, List.length_map, T.starRound_eq hE, ih]
    split <;> rfl

theorem star_eq {env : Env K} {env' : Env L} (hE : T.Compat env env') (pts : List (Point K)) :
    toStarContourVertices env' (pts.map T.pt) = (toStarContourVertices env pts).map T.pt := by
  unfold toStarContourVertices
  rw [List.length_map]
  by_cases h : 2 < pts.length
  · rw [hE.mcent _ h, T.starLoop_eq hE]
  · simp only [starLoop, List.length_map, h, false_and, if_false]

/-! ## Convex contours -/

def vec (v : K × K) : L × L := (T.g v.1, T.g v.2)

theorem vectorX (l : List (K × Bool)) (a b c : K) :
    vectorCoordinates (l.map fun p => (T.fx p.1, p.2)) (T.fx a) (T.fx b) (T.fx c) =
      (vectorCoordinates l a b c).map T.g := by
  induction l generalizing a b with
  | nil => simp [vectorCoordinates, T.subX]
  | cons p l ih =>
    obtain ⟨d, _ | _⟩ := p <;> simp [vectorCoordinates, T.subX, ih]

theorem vectorY (l : List (K × Bool)) (a b c : K) :
    vectorCoordinates (l.map fun p => (T.fy p.1, p.2)) (T.fy a) (T.fy b) (T.fy c) =
      (vectorCoordinates l a b c).map T.g := by
  induction l generalizing a b with
  | nil => simp [vectorCoordinates, T.subY]
  | cons p l ih =>
    obtain ⟨d, _ | _⟩ := p <;> simp [vectorCoordinates, T.subY, ih]

theorem splitEnds_eq (f : K → L) (l : List K) :
    splitEnds (l.map f) = (splitEnds l).map fun r => (f r.1, r.2.1.map f, f r.2.2) := by
  cases l with
  | nil => rfl
  | cons a l =>
    simp only [splitEnds, List.map_cons, List.getLast?_map]
    cases l.getLast? with
    | none => rfl
    | some b =>
      simp only [Option.map_some, ← List.map_dropLast]
      rfl

theorem chainPositions_eq (p : Point K) (l : List (K × K)) :
    chainPositions ⟨T.g p.x, T.g p.y⟩ (l.map T.vec) =
      (chainPositions p l).map fun q => ⟨T.g q.x, T.g q.y⟩ := by
  induction l generalizing p with
  | nil => rfl
  | cons v l ih =>
    simp only [List.map_cons, chainPositions, vec, T.addG]
    rw [← ih]

theorem chainMin_eq {f : K × K → K} {f' : L × L → L} (hf : ∀ v, f' (T.vec v) = T.g (f v))
    (l : List (K × K)) (a b : K) :
    chainMin f' (T.g a) (T.g b) (l.map T.vec) = T.g (chainMin f a b l) := by
  induction l generalizing a b with
  | nil => rfl
  | cons v l ih =>
    simp only [List.map_cons, chainMin, hf, T.addG, ← T.monoG.monotone.map_min, ih]

theorem sort_fx (l : List K) : pySort (fun a b => decide (a ≤ b)) (l.map T.fx) =
    (pySort (fun a b => decide (a ≤ b)) l).map T.fx :=
  pySort_map' (fun _ _ => decide_eq_decide.2 T.monoX.le_iff_le) l

theorem sort_fy (l : List K) : pySort (fun a b => decide (a ≤ b)) (l.map T.fy) =
    (pySort (fun a b => decide (a ≤ b)) l).map T.fy :=
  pySort_map' (fun _ _ => decide_eq_decide.2 T.monoY.le_iff_le) l

/-- Random sources that do the same in both coordinate systems. -/
structure SameRandom (r : ConvexRandom K) (r' : ConvexRandom L) : Prop where
  x : r'.xBits = r.xBits
  y : r'.yBits = r.yBits
  shuffle : ∀ l, r'.shuffle (l.map T.g) = (r.shuffle l).map T.g

theorem convexCandidates_eq {env : Env K} {env' : Env L} (hE : T.Compat env env')
    (pts : List (Point K)) {r : ConvexRandom K} {r' : ConvexRandom L} (hr : T.SameRandom r r') :
    convexCandidates env' (pts.map T.pt) r' = (convexCandidates env pts r).map (List.map T.pt) := by
  unfold convexCandidates
  have ex : (pts.map T.pt).map Point.x = (pts.map Point.x).map T.fx := by
    simp [List.map_map, Function.comp_def, pt]
  have ey : (pts.map T.pt).map Point.y = (pts.map Point.y).map T.fy := by
    simp [List.map_map, Function.comp_def, pt]
  rw [ex, ey, sort_fx, sort_fy, splitEnds_eq, splitEnds_eq]
  refine exc_nat fun ⟨x0, xs, x1⟩ => ?_
  dsimp only
  refine exc_nat fun ⟨y0, ys, y1⟩ => ?_
  dsimp only
  have ez : ∀ (f : K → L) (l : List K) (bits : Nat → Bool),
      (l.map f).zip ((List.range (l.map f).length).map bits) =
        (l.zip ((List.range l.length).map bits)).map fun p => (f p.1, p.2) := by
    intro f l bits
    rw [List.length_map, List.zip_map_left]
    rfl
  rw [hr.x, hr.y, ez, ez, vectorX, vectorY, hr.shuffle]
  generalize vectorCoordinates _ x0 x0 x1 = vx
  generalize r.shuffle _ = vy
  have e1 : (vx.map T.g).zip (vy.map T.g) = (vx.zip vy).map T.vec := by
    rw [List.zip_map]
    rfl
  have e2 : ∀ v w : K × K, decide (env'.atan2 (T.vec v).2 (T.vec v).1 ≤ env'.atan2 (T.vec w).2 (T.vec w).1) =
      decide (env.atan2 v.2 v.1 ≤ env.atan2 w.2 w.1) := by
    intro v w
    simp only [vec, hE.atan]
  rw [e1, pySort_map' e2]
  generalize pySort _ (vx.zip vy) = vs
  have e3 : chainMin Prod.fst 0 0 (vs.map T.vec) = T.g (chainMin Prod.fst 0 0 vs) := by
    rw [← T.chainMin_eq (f' := Prod.fst) (fun _ => rfl), T.zeroG]
  have e4 : chainMin Prod.snd 0 0 (vs.map T.vec) = T.g (chainMin Prod.snd 0 0 vs) := by
    rw [← T.chainMin_eq (f' := Prod.snd) (fun _ => rfl), T.zeroG]
  have e5 : chainPositions ⟨0, 0⟩ (vs.map T.vec) =
      (chainPositions ⟨0, 0⟩ vs).map fun q => (⟨T.g q.x, T.g q.y⟩ : Point L) := by
    rw [← T.chainPositions_eq, T.zeroG]
  rw [e3, e4, e5]
  show Except.ok _ = Except.ok _
  congr 1
  rw [List.map_map, List.map_map]
  refine List.map_congr_left fun p _ => ?_
  simp only [Function.comp, pt, T.shiftX, T.shiftY, T.monoX.monotone.map_min,
    T.monoX.monotone.map_max, T.monoY.monotone.map_min, T.monoY.monotone.map_max]

theorem convex_eq {env : Env K} {env' : Env L} (hE : T.Compat env env')
    (pts : List (Point K)) {r : ConvexRandom K} {r' : ConvexRandom L} (hr : T.SameRandom r r') :
    toConvexVertexSequence env' (pts.map T.pt) r' =
      (toConvexVertexSequence env pts r).map (List.map T.pt) := by
  unfold toConvexVertexSequence
  rw [T.convexCandidates_eq hE pts hr]
  refine exc_nat fun l => ?_
  rw [hE.hull]
  rfl

/-! ## `to_max_convex_hull` -/

theorem subHullPop_eq (p : Point K) (l : List (Point K)) :
    subHullPop (T.pt p) (l.map T.pt) = (subHullPop p l).map T.pt := by
  induction l with
  | nil => rfl
  | cons b l ih =>
    cases l with
    | nil => rfl
    | cons a l =>
      simp only [List.map_cons, subHullPop, orient_pt] at ih ⊢
      split
      · exact ih
      · rfl

theorem subHullRev_eq (l : List (Point K)) :
    subHullRev (l.map T.pt) = (subHullRev l).map T.pt := by
  unfold subHullRev
  have : ∀ acc : List (Point K), (l.map T.pt).foldl (fun acc p => p :: subHullPop p acc) (acc.map T.pt) =
      (l.foldl (fun acc p => p :: subHullPop p acc) acc).map T.pt := by
    induction l with
    | nil => intro acc; rfl
    | cons a l ih =>
      intro acc
      simp only [List.map_cons, List.foldl_cons, subHullPop_eq]
      exact ih (a :: subHullPop a acc)
  exact this []

theorem maxHull_eq (l : List (Point K)) :
    toMaxConvexHull (l.map T.pt) = (toMaxConvexHull l).map T.pt := by
  unfold toMaxConvexHull toSubHull
  simp only [sort_pt, ← List.map_reverse, subHullRev_eq, ← List.map_dropLast, ← List.map_append]

/-! ## Contracts -/

theorem getD_pt {l : List (Point K)} {i : Nat} (h : i < l.length) :
    (l.map T.pt).getD i default = T.pt (l.getD i default) := by
  simp [List.getD, h]

theorem orientations_eq (vs : List (Point K)) :
    contourOrientations (vs.map T.pt) = contourOrientations vs := by
  unfold contourOrientations
  rw [List.length_map]
  refine List.map_congr_left fun i hi => ?_
  have hi := List.mem_range.1 hi
  rw [T.getD_pt hi, T.getD_pt (Nat.mod_lt _ (by omega)), T.getD_pt (Nat.mod_lt _ (by omega)), orient_pt]

theorem nonConvex_eq (vs : List (Point K)) :
    areVerticesNonConvex (vs.map T.pt) = areVerticesNonConvex vs := by
  unfold areVerticesNonConvex
  rw [orientations_eq]

theorem strict_eq (vs : List (Point K)) : areVerticesStrict (vs.map T.pt) = areVerticesStrict vs := by
  unfold areVerticesStrict
  rw [orientations_eq]

theorem multiSizes_eq (a : Int) (b : Option Int) (c : Int) (d : Option Int) (cs : List (Contour K)) :
    multicontourHasValidSizes a b c d (cs.map T.con) = multicontourHasValidSizes a b c d cs := by
  unfold multicontourHasValidSizes
  rw [List.length_map, List.all_map]
  congr 2
  funext c
  simp [con]

end Frame
end
end HG
