import Mathlib.Algebra.Order.Ring.Defs
import Mathlib.Data.List.Sort

/-!
# Basic geometric vocabulary

The model is written for coordinates in any linearly ordered type `K` with operations `0`, `+`,
`-` and the two predicates of `Predicates`, about which nothing is assumed.  So it covers the finite
floating point numbers, whose operations round and whose predicates may be computed in any way.
Exact arithmetic (`int`, `fractions.Fraction`) is the instance `exactPredicates` over an arbitrary
linearly ordered commutative ring; theorems that need it say so by `[CommRing K]`.
The geometry classes are those of the `ground` dependency, which are plain
records (`context.point_cls`, `context.segment_cls`, ...).
-/

namespace HG

/-- `ground` `Point`: a record of two coordinates (`context.point_cls`, used e.g. in
`/repo/hypothesis_geometry/_core/base.py:919-927`). -/
structure Point (K : Type) where
  x : K
  y : K
deriving DecidableEq, Repr

/-- `ground` `Segment` (`context.segment_cls`, `base.py:1225-1229`). -/
structure Segment (K : Type) where
  start : Point K
  stop : Point K
deriving DecidableEq, Repr

/-- `ground` `Box` (`context.box_cls`, `base.py:61-76`); argument order
`min_x, max_x, min_y, max_y`. -/
structure Box (K : Type) where
  minX : K
  maxX : K
  minY : K
  maxY : K
deriving DecidableEq, Repr

/-- `ground` `Contour` is determined by its list of vertices. -/
structure Contour (K : Type) where
  vertices : List (Point K)
deriving DecidableEq, Repr

/-- `ground` `Polygon`: a border and holes (`context.polygon_cls`,
`factories.py:216`). -/
structure Polygon (K : Type) where
  border : Contour K
  holes : List (Contour K)
deriving DecidableEq, Repr

/-- `ground.enums.Orientation` (CLOCKWISE = -1, COLLINEAR = 0, COUNTERCLOCKWISE = 1). -/
inductive Orientation where
  | clockwise
  | collinear
  | counterclockwise
deriving DecidableEq, Repr, Inhabited

/-- Exceptions that can leave the modelled code. -/
inductive Exc where
  /-- `ValueError` raised by the library itself -/
  | valueError
  /-- a failed `assert` statement -/
  | assertion
  /-- `KeyError` of `set.remove` / `dict.pop` -/
  | keyError
  /-- `IndexError` / empty `max()` and the like -/
  | indexError
  /-- `StopIteration` of `next(cycle([]))` -/
  | stopIteration
  /-- `hypothesis.errors.InvalidArgument` (empty integer range, empty `sampled_from`,
      inverted sizes) -/
  | invalidArgument
  /-- a collection of distinct elements was requested from a strategy that has too few values -/
  | unsatisfiable
  /-- the loop budget of the model ran out (stands for non-termination) -/
  | outOfFuel
deriving DecidableEq, Repr, Inhabited

/-- The predicates of the `ground` context that depend on arithmetic. -/
class Predicates (K : Type) where
  /-- `Context.angle_orientation(vertex, first_ray_point, second_ray_point)` -/
  angleOrientation : Point K → Point K → Point K → Orientation
  /-- `Context.locate_point_in_point_point_point_circle(...) is Location.INTERIOR` -/
  insideCircle : Point K → Point K → Point K → Point K → Bool

section
variable {K : Type} [Zero K]

/-- Default value used only where the Python code would raise. -/
instance : Inhabited (Point K) := ⟨⟨0, 0⟩⟩

end

section
variable {K : Type} [CommRing K] [LinearOrder K]

/-- Twice the signed area of the triangle `a b c`. -/
def cross (a b c : Point K) : K :=
  (b.x - a.x) * (c.y - a.y) - (b.y - a.y) * (c.x - a.x)

/-- Sign of a scalar as an orientation. -/
def signOrientation (d : K) : Orientation :=
  if d < 0 then .clockwise else if d = 0 then .collinear else .counterclockwise

/-- In-circle determinant: positive iff `p` is strictly inside the circle through `a`, `b`, `c`
when these are in counterclockwise order. -/
def inCircleDet (p a b c : Point K) : K :=
  let ax := a.x - p.x; let ay := a.y - p.y
  let bx := b.x - p.x; let by' := b.y - p.y
  let cx := c.x - p.x; let cy := c.y - p.y
  (ax * ax + ay * ay) * (bx * cy - by' * cx)
    - (bx * bx + by' * by') * (ax * cy - ay * cx)
    + (cx * cx + cy * cy) * (ax * by' - ay * bx)

/-- The predicates in exact arithmetic: the sign of the cross product of the two rays, and the sign
of the in-circle determinant.  Trusted reading of the dependency. -/
instance exactPredicates : Predicates K where
  angleOrientation a b c := signOrientation (cross a b c)
  insideCircle p a b c := decide (0 < inCircleDet p a b c)

end

section
variable {K : Type} [LinearOrder K] [Predicates K]

/-- `Context.angle_orientation(vertex, first_ray_point, second_ray_point)` of the `ground`
dependency (used e.g. in `factories.py:197`, `subdivisional.py:144-146`). -/
def orient (a b c : Point K) : Orientation := Predicates.angleOrientation a b c

/-- `Context.locate_point_in_point_point_point_circle(...) is Location.INTERIOR` of the `ground`
dependency (`triangular.py:87-93`). -/
def inCircle (p a b c : Point K) : Bool := Predicates.insideCircle p a b c

/-- Lexicographic order of points: `ground` points compare by `(x, y)`
(used by `sorted(points)`, `triangular.py:28`, `factories.py:373`). -/
def Point.leB (p q : Point K) : Bool := decide (p.x < q.x ∨ (p.x = q.x ∧ p.y ≤ q.y))

/-- Strict lexicographic order of points. -/
def Point.ltB (p q : Point K) : Bool := decide (p.x < q.x ∨ (p.x = q.x ∧ p.y < q.y))

/-- Stable sort by a Boolean "less or equal" test; models Python's `sorted`. -/
def pySort {α : Type} (le : α → α → Bool) (l : List α) : List α :=
  l.insertionSort (fun a b => le a b = true)

end

section
variable {K : Type} [CommRing K] [LinearOrder K]

theorem orient_def (a b c : Point K) : orient a b c = signOrientation (cross a b c) := rfl

theorem inCircle_def (p a b c : Point K) : inCircle p a b c = decide (0 < inCircleDet p a b c) :=
  rfl

end

end HG
