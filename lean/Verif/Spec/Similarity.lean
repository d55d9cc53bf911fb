import Verif.Model.Planar
import Mathlib.Algebra.Ring.Hom.Defs

/-!
# Changes of coordinates

`x ↦ c · ι x + t` on both axes, with the same positive factor `c`: a change of the (exact) number
type, a scaling and a shift.
-/

namespace HG
namespace Spec

section
variable {K L : Type} [CommRing K] [LinearOrder K] [CommRing L] [LinearOrder L]

/-- A change of coordinates. -/
structure Similarity (K L : Type) [CommRing K] [LinearOrder K] [CommRing L] [LinearOrder L] where
  /-- change of the number type, e.g. `int` to `Fraction` -/
  ι : K →+* L
  mono : StrictMono ι
  /-- scale -/
  c : L
  pos : 0 < c
  /-- shift of abscissas -/
  tx : L
  /-- shift of ordinates -/
  ty : L

namespace Similarity

variable (S : Similarity K L)

/-- image of an abscissa -/
def x (a : K) : L := S.c * S.ι a + S.tx

/-- image of an ordinate -/
def y (a : K) : L := S.c * S.ι a + S.ty

/-- image of a difference of coordinates -/
def d (a : K) : L := S.c * S.ι a

/-- image of a point -/
def point (p : Point K) : Point L := ⟨S.x p.x, S.y p.y⟩

/-- image of a segment -/
def segment (s : Segment K) : Segment L := ⟨S.point s.start, S.point s.stop⟩

/-- image of a contour -/
def contour (c : Contour K) : Contour L := ⟨c.vertices.map S.point⟩

/-- image of a polygon -/
def polygon (p : Polygon K) : Polygon L := ⟨S.contour p.border, p.holes.map S.contour⟩

/-- image of a box -/
def box (b : Box K) : Box L := ⟨S.x b.minX, S.x b.maxX, S.y b.minY, S.y b.maxY⟩

/-- image of a mix -/
def mix (m : Mix K) : Mix L where
  discrete := match m.discrete with
    | .empty => .empty
    | .multipoint l => .multipoint (l.map S.point)
  linear := match m.linear with
    | .empty => .empty
    | .segment s => .segment (S.segment s)
    | .multisegment l => .multisegment (l.map S.segment)
  shaped := match m.shaped with
    | .empty => .empty
    | .polygon p => .polygon (S.polygon p)
    | .multipolygon l => .multipolygon (l.map S.polygon)

end Similarity

/-- Third-party functions that compute the same in both systems of coordinates.  Nothing is said
about the iteration order of sets of points except that it is an order of their elements. -/
structure SameTools (S : Similarity K L) (env : Env K) (env' : Env L) : Prop where
  fuel : env'.fuel = env.fuel
  coins : env'.coinChange = env.coinChange
  edges : env'.edgeOrder = env.edgeOrder
  hull : ∀ l, env'.convexHull (l.map S.point) = (env.convexHull l).map S.point
  cross : ∀ l, env'.segmentsCrossOrOverlap (l.map S.segment) = env.segmentsCrossOrOverlap l
  nearest : ∀ l s, l ≠ [] →
    env'.nearestSegment (l.map S.segment) (S.segment s) = S.segment (env.nearestSegment l s)
  mean : ∀ l, 2 < l.length →
    env'.multipointCentroid (l.map S.point) = S.point (env.multipointCentroid l)
  centroid : ∀ l, 2 < l.length →
    env'.regionCentroid (l.map S.point) = S.point (env.regionCentroid l)
  angle : ∀ y x, env'.atan2 (S.d y) (S.d x) = env.atan2 y x
  sets : ∀ l, (env.setOrder l).Perm l
  sets' : ∀ l, (env'.setOrder l).Perm l

/-- What a constructor returns for the image of its coordinates: the same exception or the same
warnings, with the images of the values. -/
def Image {α β : Type} (f : α → β) (r : Except Exc (Made α)) :
    Except Exc (Made β) := r.map fun m => (m.1, m.2.map f)

end
end Spec
end HG
