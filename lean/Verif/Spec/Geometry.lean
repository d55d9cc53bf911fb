import Verif.Model.Basic
import Mathlib.Algebra.Order.Ring.Rat
import Mathlib.Algebra.Order.Ring.Int

/-!
# Specification vocabulary

Small, independent definitions used to state properties.
-/

namespace HG
namespace Spec

section
variable {K : Type} [Zero K]

/-- Cyclic successor of the `i`-th element. -/
def cyc (l : List (Point K)) (i : Nat) : Point K := l.getD (i % l.length) ⟨0, 0⟩

end

section
variable {K : Type} [CommRing K] [LinearOrder K]

/-- Twice the signed area of a triangle, as a determinant of differences. -/
def area2 (a b c : Point K) : K :=
  (b.x - a.x) * (c.y - a.y) - (b.y - a.y) * (c.x - a.x)

/-- Strict left turn. -/
def LeftTurn (a b c : Point K) : Prop := 0 < area2 a b c

/-- Three points on a line. -/
def Collinear (a b c : Point K) : Prop := area2 a b c = 0

/-- Lexicographic order `(x, y)`. -/
def LexLt (p q : Point K) : Prop := p.x < q.x ∨ (p.x = q.x ∧ p.y < q.y)

/-- Lexicographic order `(y, x)`. -/
def LexLtV (p q : Point K) : Prop := p.y < q.y ∨ (p.y = q.y ∧ p.x < q.x)

/-- No three cyclically consecutive vertices are collinear. -/
def StrictContour (l : List (Point K)) : Prop :=
  ∀ i < l.length, ¬ Collinear (cyc l i) (cyc l (i + 1)) (cyc l (i + 2))

/-- A strictly convex counterclockwise vertex sequence: any three vertices taken in order make a
left turn. -/
def StrictlyConvex (l : List (Point K)) : Prop := l.Pairwise (· ≠ ·) ∧
  ∀ i j k, i < j → j < k → k < l.length →
    LeftTurn (l.getD i ⟨0, 0⟩) (l.getD j ⟨0, 0⟩) (l.getD k ⟨0, 0⟩)

/-- `p` lies on the closed segment `s`. -/
def OnSeg (s : Segment K) (p : Point K) : Prop :=
  Collinear s.start s.stop p ∧ min s.start.x s.stop.x ≤ p.x ∧ p.x ≤ max s.start.x s.stop.x ∧
    min s.start.y s.stop.y ≤ p.y ∧ p.y ≤ max s.start.y s.stop.y

/-- `p` is an endpoint of `s`. -/
def IsEnd (s : Segment K) (p : Point K) : Prop := p = s.start ∨ p = s.stop

/-- Two segments neither cross nor overlap: they have at most one common point, and a common
point is an endpoint of one of them. -/
def NoCross (s t : Segment K) : Prop :=
  (∀ p, OnSeg s p → OnSeg t p → IsEnd s p ∨ IsEnd t p) ∧
    ∀ p q, OnSeg s p → OnSeg t p → OnSeg s q → OnSeg t q → p = q

/-- A size lies between a lower and an optional upper bound. -/
def SizeIn (lo : Int) (hi : Option Int) (n : Nat) : Prop :=
  lo ≤ n ∧ ∀ m, hi = some m → (n : Int) ≤ m

end
end Spec
end HG
