import Verif.Spec.Geometry

/-!
# Convex hulls and how two shapes may meet

Vocabulary for statements about several contours, polygons and segments.
-/

namespace HG
namespace Spec

section
variable {K : Type} [Zero K]

/-- The `i`-th edge of a closed contour. -/
def edge (l : List (Point K)) (i : Nat) : Segment K := ⟨cyc l i, cyc l (i + 1)⟩

end

section
variable {K : Type} [CommRing K] [LinearOrder K]

/-- `p` lies in the convex hull of the points `l`: in every closed half-plane that contains
them. -/
def InHull (l : List (Point K)) (p : Point K) : Prop :=
  ∀ a b c : K, (∀ q ∈ l, a * q.x + b * q.y ≤ c) → a * p.x + b * p.y ≤ c

/-- The convex hulls of two point lists have at most one common point, which belongs to both
lists. -/
structure HullsTouch (l m : List (Point K)) : Prop where
  vertex : ∀ p, InHull l p → InHull m p → p ∈ l ∧ p ∈ m
  unique : ∀ p q, InHull l p → InHull m p → InHull l q → InHull m q → p = q

/-- A simple contour: at least three vertices, and two different edges have no common point, or
they are neighbours and have only the vertex between them in common. -/
def SimpleContour (l : List (Point K)) : Prop :=
  3 ≤ l.length ∧ ∀ i j, i < j → j < l.length → ∀ p, OnSeg (edge l i) p → OnSeg (edge l j) p →
    (j = i + 1 ∧ p = cyc l j) ∨ (i = 0 ∧ j + 1 = l.length ∧ p = cyc l 0)

/-- Two segments cross properly: the endpoints of each are strictly on different sides of the
other.  (Their common point may fail to have coordinates in the coordinate domain, as for the
integers.) -/
def ProperCross (s t : Segment K) : Prop :=
  area2 s.start s.stop t.start * area2 s.start s.stop t.stop < 0 ∧
    area2 t.start t.stop s.start * area2 t.start t.stop s.stop < 0

/-- No two edges of a contour cross properly. -/
def NoProperCross (l : List (Point K)) : Prop :=
  ∀ i j, i < j → j < l.length → ¬ ProperCross (edge l i) (edge l j)

/-- Two segments meet: they cross properly or an endpoint of one lies on the other. -/
def Meets (s t : Segment K) : Prop :=
  ProperCross s t ∨ OnSeg s t.start ∨ OnSeg s t.stop ∨ OnSeg t s.start ∨ OnSeg t s.stop

/-- What a search for the nearest segment is expected to return: one of the given segments, and
one that meets the query if there is such. -/
def FindsNearest (nearest : List (Segment K) → Segment K → Segment K) : Prop :=
  ∀ l s, l ≠ [] → nearest l s ∈ l ∧ ((∃ t ∈ l, Meets s t) → Meets s (nearest l s))

/-- Signed crossing of the segment from `a` to `b` with the ray that goes down from `p`. -/
def rayCrossing (p a b : Point K) : ℤ :=
  if a.x ≤ p.x ∧ p.x < b.x ∧ 0 < area2 a b p then 1
  else if b.x ≤ p.x ∧ p.x < a.x ∧ area2 a b p < 0 then -1 else 0

/-- The winding number of a closed contour around a point: how often the contour goes around it
counterclockwise. -/
def winding (l : List (Point K)) (p : Point K) : ℤ :=
  (List.zipWith (rayCrossing p) l (l.rotate 1)).sum

/-- Twice the signed area enclosed by a closed contour (the shoelace sum): positive for a simple
contour that goes around its interior counterclockwise. -/
def shoelace (l : List (Point K)) : K :=
  (List.zipWith (fun p q => p.x * q.y - q.x * p.y) l (l.rotate 1)).sum

end
end Spec
end HG
