import Verif.Model.Factories2
import Verif.Model.Strategy
import Verif.Model.Utils

/-!
# Strategies (`/repo/hypothesis_geometry/_core/base.py`)

Keyword arguments `min_size`, `max_size`, ... are integers and optional integers.  The `context`
argument is the `Env`.
-/

namespace HG

open Strategy

section
variable {K : Type} [LinearOrder K] [Zero K] [Add K] [Sub K] [Predicates K]

/-- `None` if one bound is missing, else a function of both (`base.py:561-565`). -/
def optMul : Option Int → Option Int → Option Int
  | some a, some b => some (a * b)
  | _, _ => none

/-- `bound if max_size is None else min(bound, max_size)` (e.g. `base.py:536-540`). -/
def minOpt (bound : Int) : Option Int → Int
  | none => bound
  | some m => min bound m

/-- `max_size if max_size is None else max(max_size, bound)` (`base.py:940-942`). -/
def maxOpt (bound : Int) : Option Int → Option Int
  | none => none
  | some m => some (max m bound)

/-- `y_coordinate_strategy` with its default (`base.py:67-71`). -/
def yOr (x : Strategy K) (y : Option (Strategy K)) : Strategy K := y.getD x

/-- `to_point_strategy` (`base.py:912-927`). -/
def toPointStrategy (x : Strategy K) (y : Option (Strategy K)) : Strategy (Point K) :=
  (prod x (yOr x y)).map fun p => ⟨p.1, p.2⟩

/-- `sort_pair` applied to a list of two elements (`base.py:63-65`); unpacking another number of
values is a `ValueError`. -/
def sortPairList : List K → Except Exc (K × K)
  | [a, b] => pure (sortPair a b)
  | _ => throw .valueError

/-- `to_box_strategy` (`base.py:54-76`). -/
def toBoxStrategy (x : Strategy K) (y : Option (Strategy K)) : Strategy (Box K) :=
  (prod ((uniqueLists x 2 (some 2)).mapE sortPairList)
    ((uniqueLists (yOr x y) 2 (some 2)).mapE sortPairList)).map
    fun p => ⟨p.1.1, p.1.2, p.2.1, p.2.2⟩

/-- `to_segment_strategy` (`base.py:1209-1229`). -/
def toSegmentStrategy (x : Strategy K) (y : Option (Strategy K)) : Strategy (Segment K) :=
  ((prod (toPointStrategy x y) (toPointStrategy x y)).filter fun p => decide (p.1 ≠ p.2)).map
    fun p => ⟨p.1, p.2⟩

/-- `to_unique_point_sequence_strategy` (`base.py:1298-1314`). -/
def toUniquePointSequenceStrategy (x : Strategy K) (y : Option (Strategy K)) (minSize : Int)
    (maxSize : Option Int) : Strategy (List (Point K)) :=
  uniqueLists (toPointStrategy x y) minSize maxSize

/-- `to_multipoint_strategy` (`base.py:587-602`); a multipoint is its list of points. -/
def toMultipointStrategy (x : Strategy K) (y : Option (Strategy K)) (minSize : Int)
    (maxSize : Option Int) : Strategy (List (Point K)) :=
  toUniquePointSequenceStrategy x y minSize maxSize

/-- `to_vertices` in `to_rectangular_vertex_sequence_strategy` (`base.py:1191-1202`). -/
def boxVertices (b : Box K) : List (Point K) :=
  [⟨b.minX, b.minY⟩, ⟨b.maxX, b.minY⟩, ⟨b.maxX, b.maxY⟩, ⟨b.minX, b.maxY⟩]

/-- `to_rectangular_vertex_sequence_strategy` (`base.py:1184-1206`). -/
def toRectangularStrategy (x : Strategy K) (y : Option (Strategy K)) :
    Strategy (List (Point K)) :=
  (toBoxStrategy x y).map boxVertices

/-- `to_counterclockwise_vertices` (`base.py:1269-1283`). -/
def toCcwTriplet (a b c : Point K) : List (Point K) :=
  if orient a b c = .counterclockwise then [a, b, c] else [c, b, a]

/-- `to_triangular_vertex_sequence_strategy` (`base.py:1262-1295`). -/
def toTriangularStrategy (x : Strategy K) (y : Option (Strategy K)) :
    Strategy (List (Point K)) :=
  let v := toPointStrategy x y
  ((prod v (prod v v)).filter fun t => areVerticesStrict [t.1, t.2.1, t.2.2]).map
    fun t => toCcwTriplet t.1 t.2.1 t.2.2

/-! ## General position -/

/-- Number of occurrences is at most two for every value: `are_indices_sparse`
(`base.py:1025-1028`); `groupby(sorted(...))` groups equal values. -/
def indicesSparse (l : List Int) : Bool := l.all fun a => decide (l.count a ≤ 2)

/-- `are_index_sequence_pair_sparse` (`base.py:1002-1023`). -/
def indexPairSparse (left right : List Int) : Bool :=
  indicesSparse left && indicesSparse right &&
    indicesSparse (List.zipWith (· + ·) left right) &&
    indicesSparse (List.zipWith (· - ·) left right)

/-- `(scale * (index * index)) % grid_size`. -/
def parabola (gridSize scale index : Int) : Int := (scale * (index * index)) % gridSize

/-- `range(n)` as integers. -/
def intRange (n : Int) : List Int := (List.range n.toNat).map Int.ofNat

/-- `xs[index]`, an `IndexError` outside the list (indices are not negative here). -/
def getE {α : Type} (l : List α) (i : Int) : Except Exc α :=
  match pyGet l i with
  | some a => pure a
  | none => throw .indexError

/-- `x_indices_to_points` (`swap = false`, `base.py:960-979`) and `y_indices_to_points`
(`swap = true`, `base.py:981-1000`). -/
def indicesToPoints (swap : Bool) (gridSize : Int) (xs ys : List K) (scale : Int) :
    Except Exc (List (Point K)) := do
  if indexPairSparse (intRange gridSize) ((intRange gridSize).map (parabola gridSize scale)) then
    (intRange gridSize).mapM fun i => do
      if swap then
        let x ← getE xs (parabola gridSize scale i)
        let y ← getE ys i
        pure ⟨x, y⟩
      else
        let x ← getE xs i
        let y ← getE ys (parabola gridSize scale i)
        pure ⟨x, y⟩
  else throw .assertion

/-- Python's `sorted` on coordinates. -/
def sortCoords (l : List K) : List K := pySort (fun a b => decide (a ≤ b)) l

/-- `coordinate_sequence_pair_to_point_sequence_strategy` (`base.py:944-958`). -/
def coordinatePairToPoints (xs ys : List K) : Strategy (List (Point K)) := do
  let xs := sortCoords xs
  let ys := sortCoords ys
  let gridSize ← ofExcept (toPriorPrime (min xs.length ys.length))
  let scale : Strategy Int := (integersFrom 0).bind fun s =>
    integers (s * gridSize + 1) ((s + 1) * gridSize - 1)
  scale.mapE (indicesToPoints false gridSize xs ys) |||
    scale.mapE (indicesToPoints true gridSize xs ys)

/-- `to_point_sequence_in_general_position_strategy` (`base.py:930-1047`). -/
def toGeneralPositionStrategy (x : Strategy K) (y : Option (Strategy K)) (minSize : Int)
    (maxSize : Option Int) : Strategy (List (Point K)) := do
  let lower ← ofExcept (toNextPrime minSize)
  let upper := maxOpt lower maxSize
  let p ← prod (uniqueLists x lower upper) (uniqueLists (yOr x y) lower upper)
  coordinatePairToPoints p.1 p.2

/-! ## Contours -/

/-- `st.randoms(use_true_random=True)` as used by `to_convex_vertex_sequence`: arbitrary bits,
arbitrary shuffles. -/
def convexRandoms : Strategy (ConvexRandom K) :=
  ⟨fun r => ∀ l, (r.shuffle l).Perm l, fun _ => False⟩

/-- `to_chooser_strategy` (`base.py:79-80`): arbitrary choices between two keys. -/
def choosers : Strategy (Nat → Bool) := anything

/-- `to_convex_vertex_sequence_strategy` (`base.py:103-146`). -/
def toConvexStrategy (env : Env K) (x : Strategy K) (y : Option (Strategy K)) (minSize : Int)
    (maxSize : Option Int) : Strategy (List (Point K)) :=
  let big : Strategy (List (Point K)) :=
    ((prod (toGeneralPositionStrategy x y minSize maxSize) convexRandoms).mapE
      fun p => toConvexVertexSequence env p.1 p.2).filter
      fun vs => hasValidSize minSize maxSize vs.length
  let withRect := if minSize ≤ 4 then toRectangularStrategy x y ||| big else big
  let withTri := if minSize = 3 then toTriangularStrategy x y ||| withRect else withRect
  match maxSize with
  | some m => if m < 4 then toTriangularStrategy x y else withTri
  | none => withTri

/-- `to_star_vertex_sequence_strategy` (`base.py:1232-1251`). -/
def toStarStrategy (env : Env K) (x : Strategy K) (y : Option (Strategy K)) (minSize : Int)
    (maxSize : Option Int) : Strategy (List (Point K)) :=
  ((toGeneralPositionStrategy x y minSize maxSize).map (toStarContourVertices env)).filter
    fun vs => hasValidSize minSize maxSize vs.length

/-- `_to_vertex_sequences` (`base.py:1341-1376`). -/
def toVertexSequences (env : Env K) (x : Strategy K) (y : Option (Strategy K)) (minSize : Int)
    (maxSize : Option Int) : Strategy (List (Point K)) :=
  toStarStrategy env x y minSize maxSize |||
    ((((toGeneralPositionStrategy x y minSize maxSize).bind fun points =>
      prod (just points) (integers minSize (minOpt points.length maxSize))).mapE
        fun p => toVertexSequence env.fuel env.coinChange env.edgeOrder p.1 p.2).filter
      fun vs => hasValidSize minSize maxSize vs.length)

/-- `are_vertices_non_convex` with its `StopIteration` on an empty sequence. -/
def areVerticesNonConvexE (vs : List (Point K)) : Except Exc Bool :=
  match areVerticesNonConvex vs with
  | some b => pure b
  | none => throw .stopIteration

/-- `to_concave_vertex_sequence_strategy` (`base.py:83-100`). -/
def toConcaveStrategy (env : Env K) (x : Strategy K) (y : Option (Strategy K)) (minSize : Int)
    (maxSize : Option Int) : Strategy (List (Point K)) :=
  (toVertexSequences env x y minSize maxSize).filterE areVerticesNonConvexE

/-- `to_vertex_sequence_strategy` (`base.py:1317-1338`). -/
def toVertexSequenceStrategy (env : Env K) (x : Strategy K) (y : Option (Strategy K))
    (minSize : Int) (maxSize : Option Int) : Strategy (List (Point K)) :=
  toConvexStrategy env x y minSize maxSize ||| toVertexSequences env x y minSize maxSize

/-! ## Segments -/

/-- `to_sub_sequence_strategy` (`base.py:1254-1259`). -/
def toSubSequenceStrategy {α : Type} (minSize : Int) (values : List α) : Strategy (List α) :=
  (prod (permutations values) (integers minSize values.length)).map fun p => cut p.1 p.2

/-- `to_vertical_multisegment` (`base.py:844-850`). -/
def verticalMultisegment (x : K) (ys : List K) : List (Segment K) :=
  (pairwise (sortCoords ys)).map fun p => ⟨⟨x, p.1⟩, ⟨x, p.2⟩⟩

/-- `to_horizontal_multisegment` (`base.py:852-858`). -/
def horizontalMultisegment (xs : List K) (y : K) : List (Segment K) :=
  (pairwise (sortCoords xs)).map fun p => ⟨⟨p.1, y⟩, ⟨p.2, y⟩⟩

/-- `to_non_crossing_non_overlapping_segment_sequence_strategy` (`base.py:823-909`). -/
def toSegmentSequenceStrategy (env : Env K) (x : Strategy K) (y : Option (Strategy K))
    (minSize : Int) (maxSize : Option Int) : Strategy (List (Segment K)) :=
  let y := yOr x y
  let nextMin := minSize + 1
  let nextMax := maxSize.map (· + 1)
  let vertical := (prod x (uniqueLists y nextMin nextMax)).map
    fun p => verticalMultisegment p.1 p.2
  let horizontal := (prod (uniqueLists x nextMin nextMax) y).map
    fun p => horizontalMultisegment p.1 p.2
  let contour := ((toVertexSequenceStrategy env x (some y) (max minSize 3) maxSize).map
    contourEdges).bind (toSubSequenceStrategy minSize)
  let free := (lists (toSegmentStrategy x (some y)) minSize maxSize).filter
    fun ss => !env.segmentsCrossOrOverlap ss
  match maxSize with
  | none => ((vertical ||| horizontal) ||| contour) ||| free
  | some m =>
    if m < 2 then
      if m ≠ 0 then (toSegmentStrategy x (some y)).map fun s => [s] else just []
    else if 3 ≤ m then ((vertical ||| horizontal) ||| contour) ||| free
    else (vertical ||| horizontal) ||| free

/-- `to_multisegment_strategy` (`base.py:805-820`); a multisegment is its list of segments. -/
def toMultisegmentStrategy (env : Env K) (x : Strategy K) (y : Option (Strategy K))
    (minSize : Int) (maxSize : Option Int) : Strategy (List (Segment K)) :=
  toSegmentSequenceStrategy env x y minSize maxSize

/-! ## Multicontours -/

/-- Adding one to the entries in cyclic order (`indices = cycle(range(size))`, `base.py:548-551`,
`base.py:1117-1122`): `next(indices)` on an empty cycle is `StopIteration`. -/
def distribute : Nat → Nat → List Int → Except Exc (List Int)
  | 0, _, l => pure l
  | n + 1, i, l =>
    if l = [] then throw .stopIteration
    else distribute n ((i + 1) % l.length) (l.modify i (· + 1))

/-- `range(lo, hi + 1)`. -/
def rangeIncl (lo hi : Int) : List Int :=
  (List.range (hi + 1 - lo).toNat).map fun i : Nat => lo + (i : Int)

/-- `_to_sizes` (`base.py:545-558`). -/
def toSizes (minElement limit : Int) (size : Int) : Strategy (List Int) := do
  let maxSizes ← ofExcept (distribute (limit - size * minElement).toNat 0
    (List.replicate size.toNat minElement))
  (sequence (maxSizes.map fun m => sampledFrom (rangeIncl minElement m))).bind permutations

/-- `to_size_strategy` (`base.py:532-543`). -/
def toSizeStrategy (minSize : Int) (maxSize : Option Int) (minContourSize : Int) (limit : Int) :
    Strategy (List Int) :=
  (integers minSize (minOpt (limit / minContourSize) maxSize)).bind
    (toSizes minContourSize limit)

/-- `to_multicontour_strategy` (`base.py:512-584`). -/
def toMulticontourStrategy (env : Env K) (x : Strategy K) (y : Option (Strategy K))
    (minSize : Int) (maxSize : Option Int) (minContourSize : Int)
    (maxContourSize : Option Int) : Strategy (List (Contour K)) :=
  ((toGeneralPositionStrategy x y (minSize * minContourSize)
      (optMul maxSize maxContourSize)).bind fun points =>
    (prod (toSizeStrategy minSize maxSize minContourSize points.length) choosers).mapE
      fun p => toMulticontour env points p.1 p.2).filter
    (multicontourHasValidSizes minSize maxSize minContourSize maxContourSize)

/-! ## Polygons -/

/-- The size arguments of polygon strategies. -/
structure PolygonSizes where
  minSize : Int
  maxSize : Option Int
  minHoleCount : Int
  maxHoleCount : Option Int
  minHoleSize : Int
  maxHoleSize : Option Int

/-- `_to_hole_sizes` (`base.py:1108-1133`): the strategies are permuted before drawing. -/
def toHoleSizesAux (minHole maxInner : Int) (holeCount : Int) : Strategy (List Int) :=
  if holeCount = 0 then just []
  else do
    let maxCounts ← ofExcept (distribute (maxInner - holeCount * minHole).toNat 0
      (List.replicate holeCount.toNat minHole))
    let ranges ← permutations (maxCounts.map fun m => rangeIncl minHole m)
    sequence (ranges.map sampledFrom)

/-- `to_hole_sizes` (`base.py:1082-1106`). -/
def toHoleSizes (z : PolygonSizes) (points : List (Point K)) : Strategy (List Int) :=
  let maxInner : Int := points.length - (toMaxConvexHull points).length
  if maxInner ≥ z.minHoleSize then
    (integers z.minHoleCount (minOpt (maxInner / z.minHoleSize) z.maxHoleCount)).bind
      (toHoleSizesAux z.minHoleSize maxInner)
  else just []

/-- `point_sequence_to_polygon_strategy` (`base.py:1063-1080`). -/
def pointsToPolygonStrategy (env : Env K) (z : PolygonSizes) (points : List (Point K)) :
    Strategy (Polygon K) :=
  let maxBorderPoints : Int := points.length - z.minHoleSize * z.minHoleCount
  let minBorder := max z.minSize (env.convexHull points).length
  (prod (integers minBorder (minOpt maxBorderPoints z.maxSize))
    (prod (toHoleSizes z points) choosers)).mapE
    fun p => toPolygon env points p.1 p.2.1 p.2.2

/-- `has_valid_sizes` (`base.py:1135-1144`). -/
def polygonHasValidSizes (z : PolygonSizes) (p : Polygon K) : Bool :=
  hasValidSize z.minSize z.maxSize p.border.vertices.length &&
    multicontourHasValidSizes z.minHoleCount z.maxHoleCount z.minHoleSize z.maxHoleSize p.holes

/-- `has_valid_inner_point_count` (`base.py:1148-1160`). -/
def hasValidInnerPointCount (env : Env K) (z : PolygonSizes) (points : List (Point K)) : Bool :=
  (match z.maxSize with
    | none => true
    | some m => decide (((env.convexHull points).length : Int) ≤ m)) &&
  decide ((points.length : Int) - (toMaxConvexHull points).length ≥
    z.minHoleSize * z.minHoleCount)

/-- `max_point_count` (`base.py:1163-1169`). -/
def PolygonSizes.maxPointCount (z : PolygonSizes) : Option Int :=
  match z.maxSize, z.maxHoleCount, z.maxHoleSize with
  | some a, some b, some c => some (a + c * b)
  | _, _, _ => none

/-- `to_polygon_strategy` (`base.py:1050-1181`). -/
def toPolygonStrategy (env : Env K) (x : Strategy K) (y : Option (Strategy K))
    (z : PolygonSizes) : Strategy (Polygon K) :=
  (((toGeneralPositionStrategy x y (z.minSize + z.minHoleSize * z.minHoleCount)
      z.maxPointCount).filter (hasValidInnerPointCount env z)).bind
    (pointsToPolygonStrategy env z)).filter (polygonHasValidSizes z)

/-! ## Multipolygons -/

/-- `values[start:stop]` for non-negative bounds. -/
def slice {α : Type} (l : List α) (start stop : Int) : List α :=
  (l.drop start.toNat).take (stop - start).toNat

/-- `has_vertical_leftmost_segment` (`vertical = true`) or `has_horizontal_lowermost_segment` of
a list of segments; `ValueError` of `max()` on an empty list. -/
def hasExtremeSegment (vertical : Bool) (segments : List (Segment K)) : Except Exc Bool :=
  touchPredicate vertical segments

/-- The polygon strategy on a slab: the slab coordinates are abscissas in `xs_to_polygons` and
ordinates in `ys_to_polygons`; `other` is the strategy of the other axis. -/
def slabPolygon (env : Env K) (alongX : Bool) (coords : List K) (other : Strategy K)
    (z : PolygonSizes) : Strategy (Polygon K) :=
  if alongX then toPolygonStrategy env (sampledFrom coords) (some other) z
  else toPolygonStrategy env other (some (sampledFrom coords)) z

/-- The loop of `xs_to_polygons`/`ys_to_polygons` (`base.py:645-688`, `base.py:707-750`);
`left` is `size - 1 - index`. -/
def slabLoop (env : Env K) (alongX : Bool) (coords : List K) (other : Strategy K)
    (z : PolygonSizes) (minPoints : Int) : Nat → Int → Strategy (List (Polygon K))
  | 0, start => (slabPolygon env alongX (coords.drop start.toNat) other z).map fun p => [p]
  | left + 1, start => do
    let count ← integers minPoints ((coords.length - start) / ((left : Int) + 2))
    let prime ← ofExcept (toPriorPrime count)
    let polygon ← slabPolygon env alongX (slice coords start (start + prime)) other z
    let extreme ← ofExcept (hasExtremeSegment alongX (contourEdges polygon.border.vertices))
    let rest ← slabLoop env alongX coords other z minPoints left (start + count - b2i (!extreme))
    pure (polygon :: rest)

/-- `xs_to_polygons` (`alongX = true`, `base.py:626-688`) and `ys_to_polygons`
(`base.py:690-750`). -/
def coordsToPolygons (env : Env K) (alongX : Bool) (other : Strategy K) (z : PolygonSizes)
    (minPoints : Int) (minSize : Int) (maxSize : Option Int) (coords : List K) :
    Strategy (List (Polygon K)) := do
  let size ← integers minSize (minOpt ((coords.length : Int) / minPoints) maxSize)
  slabLoop env alongX (sortCoords coords) other z minPoints (size - 1).toNat 0

/-- `max_total_point_count` (`base.py:753-765`). -/
def multipolygonMaxTotal (maxSize : Option Int) (z : PolygonSizes) (minTotal : Int) :
    Option Int :=
  match maxSize, z.maxPointCount with
  | some m, some c => some (max (m * c) minTotal)
  | _, _ => none

/-- `to_multipolygon_strategy` (`base.py:605-802`).  A multipolygon is its list of polygons. -/
def toMultipolygonStrategy (env : Env K) (x : Strategy K) (y : Option (Strategy K))
    (minSize : Int) (maxSize : Option Int) (z : PolygonSizes) : Except Exc
    (Strategy (List (Polygon K))) := do
  let y := yOr x y
  let minPoints ← toNextPrime (z.minSize + z.minHoleCount * z.minHoleSize)
  let minTotal := minSize * minPoints
  let maxTotal := multipolygonMaxTotal maxSize z minTotal
  let slabs :=
    (uniqueLists x minTotal maxTotal).bind (coordsToPolygons env true y z minPoints minSize maxSize)
      ||| (uniqueLists y minTotal maxTotal).bind
        (coordsToPolygons env false x z minPoints minSize maxSize)
  if z.minHoleCount = 0 then
    pure ((toMulticontourStrategy env x (some y) minSize maxSize z.minSize z.maxSize).map
      (fun cs => cs.map fun c => (⟨c, []⟩ : Polygon K)) ||| slabs)
  else pure slabs

/-! ## Mixes -/

/-- `ground` `Mix` with `Empty` components made explicit. -/
inductive Linear (K : Type) where
  | empty
  | segment (s : Segment K)
  | multisegment (l : List (Segment K))

/-- Shaped component of a mix. -/
inductive Shaped (K : Type) where
  | empty
  | polygon (p : Polygon K)
  | multipolygon (l : List (Polygon K))

/-- Discrete component of a mix. -/
inductive Discrete (K : Type) where
  | empty
  | multipoint (l : List (Point K))

/-- `ground` `Mix`. -/
structure Mix (K : Type) where
  discrete : Discrete K
  linear : Linear K
  shaped : Shaped K

/-- `unpack_points` (`base.py:395-398`). -/
def unpackPoints : List (Point K) → Discrete K
  | [] => .empty
  | l => .multipoint l

/-- `unpack_segments` (`base.py:400-407`). -/
def unpackSegments : List (Segment K) → Linear K
  | [] => .empty
  | [s] => .segment s
  | l => .multisegment l

/-- `unpack_polygons` (`base.py:409-416`). -/
def unpackPolygons : List (Polygon K) → Shaped K
  | [] => .empty
  | [p] => .polygon p
  | l => .multipolygon l

/-- The size arguments of `to_mix_strategy`. -/
structure MixSizes where
  minPoints : Int
  maxPoints : Option Int
  minSegments : Int
  maxSegments : Option Int
  minPolygons : Int
  maxPolygons : Option Int
  polygon : PolygonSizes

/-- `partition` (`base.py:492-499`); every part is positive, so that `value` rounds suffice. -/
def partitionLoop : Nat → Int → Strategy (List Int)
  | 0, _ => just []
  | fuel + 1, value =>
    if value = 0 then just []
    else do
      let part ← integers 1 value
      let rest ← partitionLoop fuel (value - part)
      pure (part :: rest)

/-- `partition` (`base.py:492-499`) with its assertion. -/
def partitionStrategy (value : Int) : Strategy (List Int) :=
  if 0 ≤ value then partitionLoop value.toNat value else fail .assertion

/-- `range(start, stop, 2)`. -/
def rangeStep2 (start stop : Int) : List Int :=
  (List.range ((stop - start + 1) / 2).toNat).map fun i : Nat => start + 2 * (i : Int)

/-- Drawing a value `count` times (`base.py:445-453`). -/
def replicateDraw {α : Type} (s : Strategy α) : Nat → Strategy (List α)
  | 0 => just []
  | n + 1 => do
    let a ← s
    let rest ← replicateDraw s n
    pure (a :: rest)

/-- `to_point_counts` (`base.py:418-490`): the counts of points, segment endpoints and polygon
vertices. -/
def toPointCounts (z : MixSizes) (minPolygonPoints : Int) (total : Int) :
    Strategy (List Int × List Int × List Int) := do
  let maxPolygonTotal := total - z.minPoints - 2 * z.minSegments
  let polygonUpper := maxPolygonTotal / minPolygonPoints
  let polygonCount ← integers z.minPolygons (minOpt polygonUpper z.maxPolygons)
  let maxPolygonPoints ← (if polygonCount ≠ 0 then
      ofExcept (toPriorPrime (maxPolygonTotal / polygonCount)) else just 0)
  let polygonCounts ← (if polygonCount ≠ 0 then
      replicateDraw (integers minPolygonPoints maxPolygonPoints) polygonCount.toNat
    else just [])
  let totalPolygon := polygonCounts.sum
  let segmentUpper := total - totalPolygon - z.minPoints
  let maxSegment := minOpt segmentUpper (z.maxSegments.map (2 * ·))
  let segmentPoints ← sampledFrom (rangeStep2 (2 * z.minSegments) (maxSegment + 1))
  let pointUpper := total - segmentPoints - totalPolygon
  let pointCount := minOpt pointUpper z.maxPoints
  let segmentCount := segmentPoints / 2
  let pointParts ← partitionStrategy pointCount
  let segmentParts ← partitionStrategy segmentCount
  pure (pointParts, segmentParts.map (2 * ·), polygonCounts)

/-- The three local functions `draw_points`, `draw_segments`, `draw_polygon`. -/
inductive Drawer where
  | points
  | segments
  | polygon
deriving DecidableEq, Repr

/-- The mutable lists of the composite functions. -/
structure MixState (K : Type) where
  points : List (Point K)
  segments : List (Segment K)
  polygons : List (Polygon K)

/-- `draw_points` (`base.py:204-215,305-316`). -/
def drawPoints (alongX : Bool) (coords : List K) (other : Strategy K) (count : Int)
    (s : MixState K) : Strategy (MixState K) := do
  let slab := sampledFrom (coords.take count.toNat)
  let ps ← (if alongX then toUniquePointSequenceStrategy slab (some other) count (some count)
    else toUniquePointSequenceStrategy other (some slab) count (some count))
  pure { s with points := s.points ++ ps }

/-- `draw_segments` (`base.py:217-229,318-330`). -/
def drawSegments (env : Env K) (alongX : Bool) (coords : List K) (other : Strategy K)
    (count : Int) (s : MixState K) : Strategy (MixState K) := do
  let size := count / 2
  let slab := sampledFrom (coords.take count.toNat)
  let ss ← (if alongX then toSegmentSequenceStrategy env slab (some other) size (some size)
    else toSegmentSequenceStrategy env other (some slab) size (some size))
  pure { s with segments := s.segments ++ ss }

/-- `draw_polygon` (`base.py:231-249,332-347`): only `xs_to_mix` shortens the slab to a prime
number of coordinates. -/
def drawPolygon (env : Env K) (alongX : Bool) (coords : List K) (other : Strategy K)
    (z : PolygonSizes) (count : Int) (s : MixState K) : Strategy (MixState K) := do
  let n ← (if alongX then ofExcept (toPriorPrime count) else just count)
  let p ← slabPolygon env alongX (coords.take n.toNat) other z
  pure { s with polygons := s.polygons ++ [p] }

/-- Dispatch of `drawer(count)`. -/
def runDrawer (env : Env K) (alongX : Bool) (coords : List K) (other : Strategy K)
    (z : PolygonSizes) : Drawer → Int → MixState K → Strategy (MixState K)
  | .points, count, s => drawPoints alongX coords other count s
  | .segments, count, s => drawSegments env alongX coords other count s
  | .polygon, count, s => drawPolygon env alongX coords other z count s

/-- The loop variable `can_touch_next_geometry` (`base.py:265-289,363-387`).  `next` is the
following drawer; `drawers_with_point_counts[index + 1] is not draw_points` compares a tuple with
a function and is always true. -/
def canTouchNext (alongX : Bool) (drawer : Drawer) (next : Option Drawer) (s : MixState K) :
    Except Exc Bool :=
  match next with
  | none => pure false
  | some .points => pure false
  | some _ =>
    match drawer with
    | .points => pure false
    | .segments => do
      let e ← hasExtremeSegment alongX s.segments
      pure (!e)
    | .polygon =>
      match s.polygons.getLast? with
      | none => throw .indexError
      | some p => do
        let e ← hasExtremeSegment alongX (contourEdges p.border.vertices)
        pure (!e)

/-- The loop of `xs_to_mix`/`ys_to_mix` (`base.py:263-290,361-388`). -/
def mixLoop (env : Env K) (alongX : Bool) (other : Strategy K) (z : PolygonSizes) :
    List (Drawer × Int) → List K → MixState K → Strategy (MixState K)
  | [], _, s => just s
  | (drawer, count) :: rest, coords, s => do
    let s ← runDrawer env alongX coords other z drawer count s
    let touch ← ofExcept (canTouchNext alongX drawer (rest.head?.map Prod.fst) s)
    mixLoop env alongX other z rest (coords.drop (count - b2i touch).toNat) s

/-- `xs_to_mix` (`alongX = true`, `base.py:196-295`) and `ys_to_mix` (`base.py:297-393`). -/
def coordsToMix (env : Env K) (alongX : Bool) (other : Strategy K) (z : MixSizes)
    (minPolygonPoints : Int) (coords : List K) : Strategy (Mix K) := do
  let counts ← toPointCounts z minPolygonPoints coords.length
  let drawers ← permutations
    (counts.1.map (fun c => (Drawer.points, c)) ++
      counts.2.1.map (fun c => (Drawer.segments, c)) ++
      counts.2.2.map (fun c => (Drawer.polygon, c)))
  let s ← mixLoop env alongX other z.polygon drawers (sortCoords coords) ⟨[], [], []⟩
  pure ⟨unpackPoints s.points, unpackSegments s.segments, unpackPolygons s.polygons⟩

/-- `to_mix_strategy` (`base.py:158-509`). -/
def toMixStrategy (env : Env K) (x : Strategy K) (y : Option (Strategy K)) (z : MixSizes) :
    Except Exc (Strategy (Mix K)) := do
  let y := yOr x y
  let minPolygonPoints ← toNextPrime
    (z.polygon.minSize + z.polygon.minHoleCount * z.polygon.minHoleSize)
  let minTotal := z.minPoints + 2 * z.minSegments + z.minPolygons * minPolygonPoints
  pure ((uniqueLists x minTotal none).bind (coordsToMix env true y z minPolygonPoints) |||
    (uniqueLists y minTotal none).bind (coordsToMix env false x z minPolygonPoints))

end
end HG
