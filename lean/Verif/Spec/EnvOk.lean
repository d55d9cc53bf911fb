import Verif.Model.Env
import Verif.Spec.Geometry

/-!
# Assumed behaviour of the dependencies

Each contract is assumed only by the theorems that mention it.  `Props/Convex.lean` shows that the
contracts on hulls and angles can be met: the concrete environment of `Spec/Sample.lean` meets them
for all inputs.
-/

namespace HG
namespace Spec

section
variable {K : Type} [CommRing K] [LinearOrder K]

/-- `h` is the convex hull of `pts`: some of the points, strictly convex and counterclockwise, with
every point on the left of (or on) every edge, and at least two vertices when there are two
different points. -/
structure HullOk (h pts : List (Point K)) : Prop where
  sub : ∀ p ∈ h, p ∈ pts
  convex : StrictlyConvex h
  left : ∀ i < h.length, ∀ q ∈ pts, 0 ≤ area2 (cyc h i) (cyc h (i + 1)) q
  two : ∀ p ∈ pts, ∀ q ∈ pts, p ≠ q → 2 ≤ h.length

/-- Quadrants in the order of angles from `-π` (excluded) to `π` (included). -/
def quadrant (x y : K) : Nat :=
  if y < 0 then (if x < 0 then 0 else 1) else (if x < 0 then 3 else 2)

/-- The angle function respects quadrants. -/
def QuadrantOk (atan2 : K → K → ℚ) : Prop :=
  ∀ x y x' y' : K, quadrant x y < quadrant x' y' → atan2 y x < atan2 y' x'

end
end Spec
end HG
