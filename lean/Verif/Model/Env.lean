import Verif.Model.QuadEdge
import Mathlib.Data.Rat.Defs

/-!
# External dependencies

Third-party functions that are not re-implemented are parameters.  Their assumed behaviour is
stated in `Spec/EnvOk.lean` and is only assumed by the theorems that mention it.
-/

namespace HG

/-- The dependencies of the library. -/
structure Env (K : Type) where
  /-- budget of the `while` loops of the triangulation; exhausting it stands for
  non-termination -/
  fuel : Nat
  /-- `decision.partition.coin_change(n, {2, 3})` (`triangular.py:32`) -/
  coinChange : Nat → List Nat
  /-- `Context.points_convex_hull` of `ground` (`factories.py:332`, `base.py:1068`) -/
  convexHull : List (Point K) → List (Point K)
  /-- `bentley_ottmann.planar.segments_cross_or_overlap` (`contracts.py:14`, `utils.py:112`) -/
  segmentsCrossOrOverlap : List (Segment K) → Bool
  /-- `locus.segmental.Tree(segments).nearest_segment` (`factories.py:127-129`) -/
  nearestSegment : List (Segment K) → Segment K → Segment K
  /-- `Context.multipoint_centroid` of `ground` (`factories.py:232`) -/
  multipointCentroid : List (Point K) → Point K
  /-- `Context.region_centroid` of `ground` (`factories.py:253`) -/
  regionCentroid : List (Point K) → Point K
  /-- `math.atan2(y, x)` (`factories.py:226,304`); a finite float is a rational number -/
  atan2 : K → K → ℚ
  /-- iteration order of a Python `set` with the given elements (`factories.py:91`) -/
  setOrder : List (Point K) → List (Point K)
  /-- iteration order of Python `set`s of edges (`factories.py:504,520,549`) -/
  edgeOrder : EdgeOrder := {}

end HG
