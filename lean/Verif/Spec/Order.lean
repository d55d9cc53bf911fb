import Verif.Spec.Hulls

/-!
# Order of shapes

Vocabulary for statements about the order of shapes that needs no arithmetic.
-/

namespace HG

open Spec

section
variable {K : Type} [LinearOrder K] [Zero K]

/-- The coordinate along an axis (`true` is the abscissa). -/
def axis (alongX : Bool) (p : Point K) : K := if alongX then p.x else p.y

/-- Segment `s` lies before `t` along the axis; a segment across the axis lies strictly before. -/
structure SegBefore (a : Bool) (s t : Segment K) : Prop where
  le : axis a s.start ≤ axis a t.start ∧ axis a s.start ≤ axis a t.stop ∧
    axis a s.stop ≤ axis a t.start ∧ axis a s.stop ≤ axis a t.stop
  strict : axis a s.start = axis a s.stop →
    axis a s.start < axis a t.start ∧ axis a s.start < axis a t.stop

/-- All vertices of a polygon. -/
def Spec.polygonVertices (p : Polygon K) : List (Point K) :=
  p.border.vertices ++ p.holes.flatMap Contour.vertices

/-- Polygon `p` lies before `q` along the axis: no vertex of `p` (of its holes included) is after a
vertex of `q`, and a border edge of `p` across the axis lies strictly before the border of `q`. -/
structure PolygonsOrdered (a : Bool) (p q : Polygon K) : Prop where
  vertices : ∀ v ∈ polygonVertices p, ∀ w ∈ polygonVertices q, axis a v ≤ axis a w
  edges : ∀ i j, SegBefore a (edge p.border.vertices i) (edge q.border.vertices j)

/-- A point lies strictly before, or strictly after, all the points of a list along the axis. -/
def PointBeside (a : Bool) (p : Point K) (l : List (Point K)) : Prop :=
  (∀ v ∈ l, axis a p < axis a v) ∨ ∀ v ∈ l, axis a v < axis a p

/-- A segment lies before, or after, the border of a polygon along the axis. -/
def SegmentBesidePolygon (a : Bool) (t : Segment K) (g : Polygon K) : Prop :=
  (∀ i, SegBefore a t (edge g.border.vertices i)) ∨ ∀ i, SegBefore a (edge g.border.vertices i) t

/-- The strict order belonging to a sorting key. -/
def keyOrder (horizontal : Bool) (p q : Point K) : Prop :=
  if horizontal then LexLt p q else LexLtV p q

/-- Two point lists on different sides of a point in a lexicographic order. -/
def Separated (l m : List (Point K)) : Prop :=
  l = [] ∨ m = [] ∨ ∃ (k : Bool) (q : Point K),
    (∀ v ∈ l, v = q ∨ keyOrder k v q) ∧ ∀ v ∈ m, v = q ∨ keyOrder k q v

end
end HG
