import Verif.Model.Basic

/-!
# Contracts (`/repo/hypothesis_geometry/_core/contracts.py`)
-/

namespace HG

section
variable {K : Type} [LinearOrder K] [Zero K] [Add K] [Sub K] [Predicates K]

/-- Python list indexing `values[index]` for an index that may be negative; `none` is
`IndexError`. -/
def pyGet {α : Type} (l : List α) (i : Int) : Option α :=
  if 0 ≤ i then l[i.toNat]? else if 0 ≤ i + l.length then l[(i + l.length).toNat]? else none

/-- `del values[index]` for an index that may be negative (`none` is `IndexError`). -/
def pyDel {α : Type} (l : List α) (i : Int) : Option (List α) :=
  if 0 ≤ i then (if i.toNat < l.length then some (l.eraseIdx i.toNat) else none)
  else if 0 ≤ i + l.length then some (l.eraseIdx (i + l.length).toNat) else none

/-- `has_valid_size` (`contracts.py:17-21`), on the length of the collection. -/
def hasValidSize (minSize : Int) (maxSize : Option Int) (size : Nat) : Bool :=
  decide (minSize ≤ size) && (match maxSize with | none => true | some m => decide ((size : Int) ≤ m))

/-- `segment_to_min_y` (`contracts.py:79-80`). -/
def segMinY (s : Segment K) : K := min s.start.y s.stop.y

/-- `segment_to_max_x` (`contracts.py:75-76`); in spite of its name it returns the minimum. -/
def segMaxX (s : Segment K) : K := min s.start.x s.stop.x

/-- `is_segment_horizontal` (`contracts.py:46-47`). -/
def isSegmentHorizontal (s : Segment K) : Bool := decide (s.start.y = s.stop.y)

/-- `is_segment_vertical` (`contracts.py:50-51`). -/
def isSegmentVertical (s : Segment K) : Bool := decide (s.start.x = s.stop.x)

/-- Python `max(values, key=key)` on a non-empty list: the first maximal element. -/
def pyMaxBy {α : Type} (key : α → K) (a : α) : List α → α
  | [] => a
  | b :: l => pyMaxBy key (if key a < key b then b else a) l

/-- `has_horizontal_lowermost_segment` (`contracts.py:24-32`); `none` is the `ValueError` of
`max()` on an empty sequence. -/
def hasHorizontalLowermostSegment : List (Segment K) → Option Bool
  | [] => none
  | s :: l =>
    let lowermost := pyMaxBy segMinY s l
    let minY := segMinY lowermost
    some (isSegmentHorizontal lowermost ||
      (s :: l).any (fun t => decide (segMinY t = minY) && isSegmentHorizontal t))

/-- `has_vertical_leftmost_segment` (`contracts.py:35-43`). -/
def hasVerticalLeftmostSegment : List (Segment K) → Option Bool
  | [] => none
  | s :: l =>
    let leftmost := pyMaxBy segMaxX s l
    let maxX := segMaxX leftmost
    some (isSegmentVertical leftmost ||
      (s :: l).any (fun t => decide (segMaxX t = maxX) && isSegmentVertical t))

/-- `multicontour_has_valid_sizes` (`contracts.py:54-72`). -/
def multicontourHasValidSizes (minSize : Int) (maxSize : Option Int) (minContourSize : Int)
    (maxContourSize : Option Int) (contours : List (Contour K)) : Bool :=
  hasValidSize minSize maxSize contours.length &&
    contours.all (fun c => hasValidSize minContourSize maxContourSize c.vertices.length)

/-- `angle_contains_point` (`contracts.py:83-111`).  `angle_orientation or COUNTERCLOCKWISE` uses
that `Orientation.COLLINEAR` is the falsy member `0` of an `IntEnum`. -/
def angleContainsPoint (vertex firstRay secondRay point : Point K) : Bool :=
  let angle := orient vertex firstRay secondRay
  let firstHalf := orient vertex firstRay point
  let secondHalf := orient secondRay vertex point
  if firstHalf = .collinear then decide (secondHalf = angle)
  else if secondHalf = .collinear then decide (firstHalf = angle)
  else decide (firstHalf = secondHalf) &&
    decide (secondHalf = (if angle = .collinear then .counterclockwise else angle))

/-- `to_contour_orientations` (`contracts.py:137-147`): the orientation at every vertex,
`orienteer(vertices[i], vertices[i - 1], vertices[(i + 1) % len(vertices)])`. -/
def contourOrientations (vs : List (Point K)) : List Orientation :=
  (List.range vs.length).map fun i : Nat =>
    orient (vs.getD i default) (vs.getD ((i + vs.length - 1) % vs.length) default)
      (vs.getD ((i + 1) % vs.length) default)

/-- `are_vertices_non_convex` (`contracts.py:114-123`); `none` is the `StopIteration` of `next` on
an empty vertex sequence. -/
def areVerticesNonConvex (vs : List (Point K)) : Option Bool :=
  match contourOrientations vs with
  | [] => none
  | o :: os => some (os.any (fun o' => decide (o' ≠ o)))

/-- `are_vertices_strict` (`contracts.py:126-134`). -/
def areVerticesStrict (vs : List (Point K)) : Bool :=
  (contourOrientations vs).all (fun o => decide (o ≠ .collinear))

end
end HG
