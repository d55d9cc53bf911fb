import Verif.Model.Factories
import Verif.Model.Env

/-!
# Factories, second part (`/repo/hypothesis_geometry/_core/factories.py`)

Convex, star, multicontour and polygon construction.
-/

namespace HG

section
variable {K : Type} [LinearOrder K] [Zero K] [Add K] [Sub K] [Predicates K]

/-! ## Helpers -/

/-- `contour_vertices_to_edges` (`factories.py:396-405`) and `context.contour_segments` of
`ground`: the edges `vertices[i - 1], vertices[i]`. -/
def contourEdges (vs : List (Point K)) : List (Segment K) :=
  (List.range vs.length).map fun i : Nat =>
    ⟨pyAt vs ((i : Int) - 1), pyAt vs (i : Int)⟩

/-- `_reverse_vertices` (`factories.py:219-222`): `[*vertices[:1], *vertices[:0:-1]]`. -/
def reverseVertices (vs : List (Point K)) : List (Point K) :=
  vs.take 1 ++ (vs.drop 1).reverse

/-- `vertical_point_key` (`factories.py:729-730`, `(point.y, point.x)`) as an order; for
`horizontal_point_key` (`factories.py:725-726`) see `Point.leB`. -/
def Point.leVB (p q : Point K) : Bool := decide (p.y < q.y ∨ (p.y = q.y ∧ p.x ≤ q.x))

/-- `points.sort(key=sorting_key)`; `true` is `horizontal_point_key`. -/
def sortByKey (horizontal : Bool) (points : List (Point K)) : List (Point K) :=
  if horizontal then pySort Point.leB points else pySort Point.leVB points

/-- The predicate chosen together with the sorting key (`factories.py:56-62,102-110`). -/
def touchPredicate (horizontal : Bool) (segments : List (Segment K)) : Except Exc Bool :=
  match (if horizontal then hasVerticalLeftmostSegment segments
    else hasHorizontalLowermostSegment segments) with
  | some b => pure b
  | none => throw .valueError

/-! ## `to_multicontour` -/

/-- The loop of `to_multicontour` (`factories.py:54-72`).  `choices` are the results of the
chooser, one per size (`true` is `horizontal_point_key`); `prior` is `prior_sorting_key`. -/
def multicontourLoop (env : Env K) : List (Point K) → Option Bool → List (Int × Bool) →
    Except Exc (List (Contour K))
  | _, _, [] => pure []
  | points, prior, (size, key) :: rest => do
    let points := if prior ≠ some key then sortByKey key points else points
    let vertices ← toVertexSequence env.fuel env.coinChange env.edgeOrder (points.take size.toNat) size
    if 3 ≤ vertices.length then
      let canTouch ← touchPredicate key (contourEdges vertices)
      let result ← multicontourLoop env (points.drop (size - b2i canTouch).toNat) (some key) rest
      pure (⟨vertices⟩ :: result)
    else multicontourLoop env points (some key) rest

/-- `to_multicontour` (`factories.py:36-73`). -/
def toMulticontour (env : Env K) (points : List (Point K)) (sizes : List Int)
    (chooser : Nat → Bool) : Except Exc (List (Contour K)) :=
  multicontourLoop env points none (sizes.zip ((List.range sizes.length).map chooser))

/-! ## `to_polygon` -/

/-- State of the hole loop of `to_polygon`. -/
structure HoleState (K : Type) where
  innerPoints : List (Point K)
  boundaryPoints : List (Point K)
  holes : List (Contour K)
  holeEdges : List (Segment K)

/-- The hole loop of `to_polygon` (`factories.py:100-129`).  The check
`contours_do_not_cross_or_overlap` (`utils.py:92-106`) flattens the edges of all holes. -/
def holeLoop (env : Env K) : HoleState K → Option Bool → List (Int × Bool) →
    Except Exc (HoleState K)
  | s, _, [] => pure s
  | s, prior, (size, key) :: rest => do
    let inner := if prior ≠ some key then sortByKey key s.innerPoints else s.innerPoints
    let holePoints := inner.take size.toNat
    let vertices ← toVertexSequence env.fuel env.coinChange env.edgeOrder holePoints size
    if 3 ≤ vertices.length then
      let hole : Contour K := ⟨reverseVertices vertices⟩
      if env.segmentsCrossOrOverlap
          ((s.holes ++ [hole]).flatMap fun c => contourEdges c.vertices) = true then
        throw .assertion
      else
        let edges := contourEdges hole.vertices
        let canTouch ← touchPredicate key edges
        holeLoop env
          { innerPoints := inner.drop ((holePoints.length : Int) - b2i canTouch).toNat
            boundaryPoints := s.boundaryPoints ++ holePoints
            holes := s.holes ++ [hole]
            holeEdges := s.holeEdges ++ edges } (some key) rest
    else holeLoop env { s with innerPoints := inner } (some key) rest

/-- Proper crossing of two segments: the endpoints of each are strictly on different sides of
the other. -/
def segmentsProperCross (s t : Segment K) : Bool :=
  (orient s.start s.stop t.start != .collinear) && (orient s.start s.stop t.stop != .collinear)
  && (orient s.start s.stop t.start != orient s.start s.stop t.stop)
  && (orient t.start t.stop s.start != .collinear) && (orient t.start t.stop s.stop != .collinear)
  && (orient t.start t.stop s.start != orient t.start t.stop s.stop)

/-- Lexicographic minimum of the endpoints. -/
def Segment.lo (s : Segment K) : Point K := if Point.leB s.start s.stop then s.start else s.stop

/-- Lexicographic maximum of the endpoints. -/
def Segment.hi (s : Segment K) : Point K := if Point.leB s.start s.stop then s.stop else s.start

/-- Collinear segments with more than one common point. -/
def segmentsOverlap (s t : Segment K) : Bool :=
  (orient s.start s.stop t.start == .collinear) && (orient s.start s.stop t.stop == .collinear)
  && Point.ltB s.lo t.hi && Point.ltB t.lo s.hi

/-- `segments_cross_or_overlap` local to `to_polygon` (`factories.py:172-178`): the relation of
`Context.segments_relation` of `ground` is neither `DISJOINT` nor `TOUCH`, i.e. the segments
cross properly or have infinitely many common points. -/
def segmentPairCrossOrOverlap (s t : Segment K) : Bool :=
  segmentsProperCross s t || segmentsOverlap s t

/-- The detector of `to_cross_or_overlap_segment_detector` (`factories.py:131-152`). -/
def crossOrOverlapHoles (env : Env K) (holeEdges : List (Segment K)) (s : Segment K) : Bool :=
  if holeEdges = [] then false
  else segmentPairCrossOrOverlap (env.nearestSegment holeEdges s) s

/-- `is_mouth` local to `to_polygon` (`factories.py:154-170`). -/
def isPolygonMouth (env : Env K) (holeEdges : List (Segment K)) (m : Mesh K)
    (boundaryPoints : List (Point K)) (e : Ref) : Bool :=
  let neighbourEnd := m.stop (m.lfs e)
  decide (neighbourEnd ∉ boundaryPoints)
    && !crossOrOverlapHoles env holeEdges ⟨m.start e, neighbourEnd⟩
    && !crossOrOverlapHoles env holeEdges ⟨m.stop e, neighbourEnd⟩

/-- State of the border loop of `to_polygon`. -/
structure BorderState (K : Type) where
  mesh : Mesh K
  tri : Tri
  boundaryPoints : List (Point K)
  neighbours : List (Ref × List Ref)
  candidates : KeyedSet K
  size : Int

/-- The border loop of `to_polygon` (`factories.py:199-213`). -/
def borderLoop (env : Env K) (holeEdges : List (Segment K)) (borderSize : Int) :
    Nat → BorderState K → Except Exc (BorderState K)
  | 0, _ => throw .outOfFuel
  | fuel + 1, s =>
    if s.size < borderSize then
      match s.candidates.popmax with
      | none => pure s
      | some (e, rest) => do
        let s := { s with candidates := rest }
        if isPolygonMouth env holeEdges s.mesh s.boundaryPoints e = false then
          borderLoop env holeEdges borderSize fuel s
        else
          let boundaryPoints := insertSet (s.mesh.stop (s.mesh.lfs e)) s.boundaryPoints
          let (m, t) ← Tri.delete s.mesh s.tri e
          match s.neighbours.lookup e with
          | none => throw .keyError
          | some ns =>
            let neighbours := s.neighbours.filter (fun p => p.1 ≠ e)
            let (neighbours, candidates) ← ns.foldlM (fun (nb, c) n => do
              let k ← edgeKey env.fuel m n
              pure ((n, m.edgeNeighbours n) :: nb.filter (fun p => p.1 ≠ n),
                KeyedSet.add k n c)) (neighbours, s.candidates)
            borderLoop env holeEdges borderSize fuel
              { mesh := m, tri := t, boundaryPoints, neighbours, candidates,
                size := s.size + 1 }
    else pure s

/-- `to_polygon` (`factories.py:76-216`).  `choices` are the results of the chooser. -/
def toPolygon (env : Env K) (points : List (Point K)) (borderSize : Int) (holeSizes : List Int)
    (chooser : Nat → Bool) : Except Exc (Polygon K) := do
  let (m, t) ← delaunay env.fuel (env.coinChange points.length) points
  let boundary ← boundaryEdges env.fuel m t
  let boundaryPoints := (boundary.map m.start).dedup
  let inner := env.setOrder (points.filter (fun p => p ∉ boundaryPoints))
  let h ← holeLoop env
    { innerPoints := inner, boundaryPoints, holes := [], holeEdges := [] } none
    (holeSizes.zip ((List.range holeSizes.length).map chooser))
  let candidates ← (boundary.filter
      (isPolygonMouth env h.holeEdges m h.boundaryPoints)).foldlM (fun c e => do
        let k ← edgeKey env.fuel m e
        pure (KeyedSet.add k e c)) ([] : KeyedSet K)
  let s ← borderLoop env h.holeEdges borderSize env.fuel
    { mesh := m, tri := t, boundaryPoints := h.boundaryPoints
      neighbours := boundary.map (fun e => (e, m.edgeNeighbours e))
      candidates
      size := (compressContour (boundary.map m.start)).length }
  let border ← triToBorderVertices env.fuel s.mesh s.tri
  if 3 ≤ border.length then pure ⟨⟨border⟩, h.holes⟩ else throw .assertion

/-! ## `to_star_contour_vertices` -/

/-- `groupby` on sorted pairs keeping the last element of every group of equal angles
(`factories.py:241-250`). -/
def lastOfGroups : List (ℚ × Point K) → List (Point K)
  | [] => []
  | [a] => [a.2]
  | a :: b :: l => if a.1 = b.1 then lastOfGroups (b :: l) else a.2 :: lastOfGroups (b :: l)

/-- Order of the tuples `(angle, point)`. -/
def anglePointLe (a b : ℚ × Point K) : Bool :=
  decide (a.1 < b.1) || (decide (a.1 = b.1) && Point.leB a.2 b.2)

/-- The inner `while` loop of `to_star_contour_vertices` (`factories.py:254-263`). -/
def starInner (centroid : Point K) : Nat → Nat → List (Point K) → List (Point K)
  | 0, _, vs => vs
  | fuel + 1, index, vs =>
    if max index 2 < vs.length then
      let vs' := if angleContainsPoint (pyAt vs index) (pyAt vs ((index : Int) - 1))
          (pyAt vs (((index + 1) % vs.length : Nat) : Int)) centroid = true then vs
        else vs.eraseIdx index
      starInner centroid fuel (index + 1) vs'
    else vs

/-- One round of the outer loop of `to_star_contour_vertices` (`factories.py:240-264`). -/
def starRound (env : Env K) (centroid : Point K) (vs : List (Point K)) :
    Point K × List (Point K) :=
  let result := lastOfGroups (pySort anglePointLe
    (vs.map fun p => (env.atan2 (p.y - centroid.y) (p.x - centroid.x), p)))
  if 2 < result.length then
    let centroid := env.regionCentroid result
    (centroid, compressContour (starInner centroid result.length 0 result))
  else (centroid, result)

/-- The outer loop of `to_star_contour_vertices` (`factories.py:238-264`); every round but the
last one shortens the list, so that its length is a sufficient budget. -/
def starLoop (env : Env K) : Nat → Point K → Nat → List (Point K) → List (Point K)
  | 0, _, _, vs => vs
  | fuel + 1, centroid, prevSize, vs =>
    if 2 < vs.length ∧ vs.length < prevSize then
      let r := starRound env centroid vs
      starLoop env fuel r.1 vs.length r.2
    else vs

/-- `to_star_contour_vertices` (`factories.py:229-265`). -/
def toStarContourVertices (env : Env K) (points : List (Point K)) : List (Point K) :=
  starLoop env (points.length + 2) (env.multipointCentroid points) (points.length + 1) points

/-! ## `to_convex_vertex_sequence` -/

/-- The loop of `to_vectors_coordinates` (`factories.py:290-306`); the Booleans are the results
of `random.getrandbits(1)`. -/
def vectorCoordinates : List (K × Bool) → K → K → K → List K
  | [], lastMin, lastMax, maxC => [maxC - lastMin, lastMax - maxC]
  | (c, true) :: l, lastMin, lastMax, maxC => (c - lastMin) :: vectorCoordinates l c lastMax maxC
  | (c, false) :: l, lastMin, lastMax, maxC => (lastMax - c) :: vectorCoordinates l lastMin c maxC

/-- `min_x, *xs, max_x = sorted(xs)`; fails (`ValueError`) with fewer than two values. -/
def splitEnds (l : List K) : Except Exc (K × List K × K) :=
  match l with
  | [] => throw .valueError
  | a :: rest =>
    match rest.getLast? with
    | none => throw .valueError
    | some b => pure (a, rest.dropLast, b)

/-- The summation loop (`factories.py:319-329`): positions, starting from the given point. -/
def chainPositions (p : Point K) : List (K × K) → List (Point K)
  | [] => []
  | v :: vs => p :: chainPositions ⟨p.x + v.1, p.y + v.2⟩ vs

/-- The running minima of the partial sums (`factories.py:326-329`), including the start. -/
def chainMin (f : K × K → K) (pos acc : K) : List (K × K) → K
  | [] => acc
  | v :: vs => chainMin f (pos + f v) (min acc (pos + f v)) vs

/-- The random source of `to_convex_vertex_sequence`: bits for both axes and the shuffle. -/
structure ConvexRandom (K : Type) where
  xBits : Nat → Bool
  yBits : Nat → Bool
  shuffle : List K → List K

/-- The points passed to the convex hull in `to_convex_vertex_sequence`
(`factories.py:284-340`). -/
def convexCandidates (env : Env K) (points : List (Point K)) (r : ConvexRandom K) :
    Except Exc (List (Point K)) := do
  let (minX, xs, maxX) ← splitEnds (pySort (fun a b => decide (a ≤ b)) (points.map Point.x))
  let (minY, ys, maxY) ← splitEnds (pySort (fun a b => decide (a ≤ b)) (points.map Point.y))
  let vectorsXs := vectorCoordinates (xs.zip ((List.range xs.length).map r.xBits)) minX minX maxX
  let vectorsYs := vectorCoordinates (ys.zip ((List.range ys.length).map r.yBits)) minY minY maxY
  let vectors := pySort (fun v w : K × K => decide (env.atan2 v.2 v.1 ≤ env.atan2 w.2 w.1))
    (vectorsXs.zip (r.shuffle vectorsYs))
  let shiftX := minX - chainMin Prod.fst 0 0 vectors
  let shiftY := minY - chainMin Prod.snd 0 0 vectors
  pure ((chainPositions ⟨0, 0⟩ vectors).map fun p =>
    ⟨min (max (p.x + shiftX) minX) maxX, min (max (p.y + shiftY) minY) maxY⟩)

/-- `to_convex_vertex_sequence` (`factories.py:268-340`). -/
def toConvexVertexSequence (env : Env K) (points : List (Point K)) (r : ConvexRandom K) :
    Except Exc (List (Point K)) := do
  let candidates ← convexCandidates env points r
  pure (env.convexHull candidates)

/-! ## `to_max_convex_hull` -/

/-- The `while` loop of `_to_sub_hull` (`factories.py:384-391`) on the reversed result. -/
def subHullPop (p : Point K) : List (Point K) → List (Point K)
  | b :: a :: l => if orient a b p = .clockwise then subHullPop p (a :: l) else b :: a :: l
  | l => l

/-- `_to_sub_hull` (`factories.py:379-393`), the result in reversed order. -/
def subHullRev (points : List (Point K)) : List (Point K) :=
  points.foldl (fun acc p => p :: subHullPop p acc) []

/-- `_to_sub_hull` (`factories.py:379-393`). -/
def toSubHull (points : List (Point K)) : List (Point K) := (subHullRev points).reverse

/-- `to_max_convex_hull` (`factories.py:370-376`). -/
def toMaxConvexHull (points : List (Point K)) : List (Point K) :=
  let sorted := pySort Point.leB points
  (toSubHull sorted).dropLast ++ (toSubHull sorted.reverse).dropLast

end
end HG
