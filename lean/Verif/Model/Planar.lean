import Verif.Model.Base

/-!
# Public API (`/repo/hypothesis_geometry/planar.py`)

A constructor either raises or returns the issued warnings and a strategy.  Default argument
values are `_constants.py` numbers: contours 3 (concave 4), multipoints 1, multisegments,
multicontours and multipolygons 2.
-/

namespace HG

open Strategy

/-- A `HypothesisWarning` about a lower bound, with the name of the argument. -/
structure SizeWarning where
  argument : String
deriving DecidableEq, Repr

/-- What is returned by a strategy constructor. -/
abbrev Made (α : Type) := List SizeWarning × Strategy α

/-- `_validate_sizes` (`planar.py:2181-2216`). -/
def validateSizes (minSize : Int) (maxSize : Option Int) (minExpected : Int)
    (minName : String := "min_size") : Except Exc (List SizeWarning) := do
  match maxSize with
  | none => pure ()
  | some m =>
    if m < minExpected then throw .valueError
    else if minSize > m then throw .valueError
    else if minSize < 0 then throw .valueError
    else pure ()
  if minSize < minExpected then pure [⟨minName⟩] else pure []

section
variable {K : Type} [LinearOrder K] [Zero K] [Add K] [Sub K] [Predicates K]

/-- `points` (`planar.py:72-142`). -/
def points (x : Strategy K) (y : Option (Strategy K)) : Except Exc (Made (Point K)) :=
  pure ([], toPointStrategy x y)

/-- `multipoints` (`planar.py:145-244`). -/
def multipoints (x : Strategy K) (y : Option (Strategy K)) (minSize : Int := 1)
    (maxSize : Option Int := none) : Except Exc (Made (List (Point K))) := do
  let w ← validateSizes minSize maxSize 1
  pure (w, toMultipointStrategy x y (max minSize 1) maxSize)

/-- `segments` (`planar.py:247-327`). -/
def segments (x : Strategy K) (y : Option (Strategy K)) : Except Exc (Made (Segment K)) :=
  pure ([], toSegmentStrategy x y)

/-- `multisegments` (`planar.py:330-437`). -/
def multisegments (env : Env K) (x : Strategy K) (y : Option (Strategy K)) (minSize : Int := 2)
    (maxSize : Option Int := none) : Except Exc (Made (List (Segment K))) := do
  let w ← validateSizes minSize maxSize 2
  pure (w, toMultisegmentStrategy env x y (max minSize 2) maxSize)

/-- `contours` (`planar.py:440-539`). -/
def contours (env : Env K) (x : Strategy K) (y : Option (Strategy K)) (minSize : Int := 3)
    (maxSize : Option Int := none) : Except Exc (Made (Contour K)) := do
  let w ← validateSizes minSize maxSize 3
  pure (w, (toVertexSequenceStrategy env x y (max minSize 3) maxSize).map Contour.mk)

/-- `convex_contours` (`planar.py:542-645`). -/
def convexContours (env : Env K) (x : Strategy K) (y : Option (Strategy K)) (minSize : Int := 3)
    (maxSize : Option Int := none) : Except Exc (Made (Contour K)) := do
  let w ← validateSizes minSize maxSize 3
  pure (w, (toConvexStrategy env x y (max minSize 3) maxSize).map Contour.mk)

/-- `concave_contours` (`planar.py:648-749`). -/
def concaveContours (env : Env K) (x : Strategy K) (y : Option (Strategy K)) (minSize : Int := 4)
    (maxSize : Option Int := none) : Except Exc (Made (Contour K)) := do
  let w ← validateSizes minSize maxSize 4
  pure (w, (toConcaveStrategy env x y (max minSize 4) maxSize).map Contour.mk)

/-- `triangular_contours` (`planar.py:752-835`). -/
def triangularContours (x : Strategy K) (y : Option (Strategy K)) : Except Exc (Made (Contour K)) :=
  pure ([], (toTriangularStrategy x y).map Contour.mk)

/-- `rectangular_contours` (`planar.py:838-921`). -/
def rectangularContours (x : Strategy K) (y : Option (Strategy K)) : Except Exc (Made (Contour K)) :=
  pure ([], (toRectangularStrategy x y).map Contour.mk)

/-- `boxes` (`planar.py:924-1005`). -/
def boxes (x : Strategy K) (y : Option (Strategy K)) : Except Exc (Made (Box K)) :=
  pure ([], toBoxStrategy x y)

/-- `star_contours` (`planar.py:1008-1110`). -/
def starContours (env : Env K) (x : Strategy K) (y : Option (Strategy K)) (minSize : Int := 3)
    (maxSize : Option Int := none) : Except Exc (Made (Contour K)) := do
  let w ← validateSizes minSize maxSize 3
  pure (w, (toStarStrategy env x y (max minSize 3) maxSize).map Contour.mk)

/-- `multicontours` (`planar.py:1113-1256`). -/
def multicontours (env : Env K) (x : Strategy K) (y : Option (Strategy K)) (minSize : Int := 2)
    (maxSize : Option Int := none) (minContourSize : Int := 3)
    (maxContourSize : Option Int := none) : Except Exc (Made (List (Contour K))) := do
  let w ← validateSizes minSize maxSize 2
  let w' ← validateSizes minContourSize maxContourSize 3 "min_contour_size"
  pure (w ++ w', toMulticontourStrategy env x y (max minSize 2) maxSize (max minContourSize 3)
    maxContourSize)

/-- `polygons` (`planar.py:1259-1438`). -/
def polygons (env : Env K) (x : Strategy K) (y : Option (Strategy K)) (minSize : Int := 3)
    (maxSize : Option Int := none) (minHolesSize : Int := 0) (maxHolesSize : Option Int := none)
    (minHoleSize : Int := 3) (maxHoleSize : Option Int := none) : Except Exc (Made (Polygon K)) := do
  let w ← validateSizes minSize maxSize 3
  let w' ← validateSizes minHolesSize maxHolesSize 0 "min_holes_size"
  let w'' ← validateSizes minHoleSize maxHoleSize 3 "min_hole_size"
  pure (w ++ w' ++ w'', toPolygonStrategy env x y
    { minSize := max minSize 3, maxSize, minHoleCount := max minHolesSize 0
      maxHoleCount := maxHolesSize, minHoleSize := max minHoleSize 3, maxHoleSize })

/-- `multipolygons` (`planar.py:1441-1658`).  `min_holes_size` is passed on as it is
(`planar.py:1653`). -/
def multipolygons (env : Env K) (x : Strategy K) (y : Option (Strategy K)) (minSize : Int := 2)
    (maxSize : Option Int := none) (minBorderSize : Int := 3)
    (maxBorderSize : Option Int := none) (minHolesSize : Int := 0)
    (maxHolesSize : Option Int := none) (minHoleSize : Int := 3)
    (maxHoleSize : Option Int := none) : Except Exc (Made (List (Polygon K))) := do
  let w ← validateSizes minSize maxSize 2
  let w' ← validateSizes minBorderSize maxBorderSize 3 "min_border_size"
  let w'' ← validateSizes minHolesSize maxHolesSize 0 "min_holes_size"
  let w''' ← validateSizes minHoleSize maxHoleSize 3 "min_hole_size"
  let s ← toMultipolygonStrategy env x y (max minSize 2) maxSize
    { minSize := max minBorderSize 3, maxSize := maxBorderSize, minHoleCount := minHolesSize
      maxHoleCount := maxHolesSize, minHoleSize := max minHoleSize 3, maxHoleSize }
  pure (w ++ w' ++ w'' ++ w''', s)

/-- The arguments of `mixes`. -/
structure MixArgs where
  minPointsSize : Int := 0
  maxPointsSize : Option Int := none
  minSegmentsSize : Int := 0
  maxSegmentsSize : Option Int := none
  minPolygonsSize : Int := 0
  maxPolygonsSize : Option Int := none
  minPolygonBorderSize : Int := 3
  maxPolygonBorderSize : Option Int := none
  minPolygonHolesSize : Int := 0
  maxPolygonHolesSize : Option Int := none
  minPolygonHoleSize : Int := 3
  maxPolygonHoleSize : Option Int := none

/-- `max_size is None or bool(max_size)` (`planar.py:2055-2057`). -/
def mayBeNonEmpty : Option Int → Bool
  | none => true
  | some m => decide (m ≠ 0)

/-- The arguments of one of the `_to_mixes` calls with the given minimal counts
(`planar.py:2062-2177`). -/
def MixArgs.sizes (a : MixArgs) (minPoints minSegments minPolygons : Int) : MixSizes :=
  { minPoints, maxPoints := a.maxPointsSize, minSegments, maxSegments := a.maxSegmentsSize
    minPolygons, maxPolygons := a.maxPolygonsSize
    polygon :=
      { minSize := max a.minPolygonBorderSize 3, maxSize := a.maxPolygonBorderSize
        minHoleCount := max a.minPolygonHolesSize 0, maxHoleCount := a.maxPolygonHolesSize
        minHoleSize := max a.minPolygonHoleSize 3, maxHoleSize := a.maxPolygonHoleSize } }

/-- The nested conditional expression of `mixes` (`planar.py:2068-2178`): the lists of size
arguments of the `_to_mixes` calls that are united. -/
def MixArgs.branches (a : MixArgs) : List MixSizes :=
  let p := max a.minPointsSize 0
  let s := max a.minSegmentsSize 0
  let g := max a.minPolygonsSize 0
  let hasDiscrete := mayBeNonEmpty a.maxPointsSize
  let hasLinear := mayBeNonEmpty a.maxSegmentsSize
  let hasShaped := mayBeNonEmpty a.maxPolygonsSize
  if hasDiscrete then
    if hasLinear then
      if hasShaped then
        [a.sizes (max p 1) (max s 1) g, a.sizes (max p 1) s (max g 1),
          a.sizes p (max s 1) (max g 1)]
      else [a.sizes (max p 1) (max s 1) g]
    else [a.sizes (max p 1) s (max g 1)]
  else [a.sizes p (max s 1) (max g 1)]

/-- Union of the strategies of all branches (never empty). -/
def unionMixes (env : Env K) (x : Strategy K) (y : Option (Strategy K)) : List MixSizes →
    Except Exc (Strategy (Mix K))
  | [] => pure ⟨fun _ => False, fun _ => False⟩
  | [z] => toMixStrategy env x y z
  | z :: zs => do
    let s ← toMixStrategy env x y z
    let rest ← unionMixes env x y zs
    pure (s ||| rest)

/-- `mixes` (`planar.py:1661-2178`). -/
def mixes (env : Env K) (x : Strategy K) (y : Option (Strategy K)) (a : MixArgs := {}) :
    Except Exc (Made (Mix K)) := do
  let w1 ← validateSizes a.minPointsSize a.maxPointsSize 0 "min_points_size"
  let w2 ← validateSizes a.minSegmentsSize a.maxSegmentsSize 0 "min_segments_size"
  let w3 ← validateSizes a.minPolygonsSize a.maxPolygonsSize 0 "min_polygons_size"
  let w4 ← validateSizes a.minPolygonBorderSize a.maxPolygonBorderSize 3
    "min_polygon_border_size"
  let w5 ← validateSizes a.minPolygonHolesSize a.maxPolygonHolesSize 0 "min_polygon_holes_size"
  let w6 ← validateSizes a.minPolygonHoleSize a.maxPolygonHoleSize 3 "min_polygon_hole_size"
  if b2i (mayBeNonEmpty a.maxPointsSize) + b2i (mayBeNonEmpty a.maxSegmentsSize) +
      b2i (mayBeNonEmpty a.maxPolygonsSize) < 2 then throw .valueError
  else
    let s ← unionMixes env x y a.branches
    pure (w1 ++ w2 ++ w3 ++ w4 ++ w5 ++ w6, s)

end
end HG
