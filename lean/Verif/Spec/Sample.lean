import Verif.Model.Planar
import Verif.Lemmas.Strategy
import Mathlib.Algebra.Order.Ring.Int
import Mathlib.Tactic.NormNum
import Mathlib.Algebra.Order.Group.Unbundled.Abs

/-!
# A concrete environment over the integers

Executable stand-ins for the dependencies, used only to show that hypotheses of theorems can be
met.
-/

namespace HG
namespace Sample

open Strategy

/-- Change for `n` with coins 2 and 3. -/
def coins (n : Nat) : List Nat :=
  if n % 2 = 0 then List.replicate (n / 2) 2
  else if n < 3 then [] else List.replicate ((n - 3) / 2) 2 ++ [3]

/-- Chain of a monotone scan, reversed; pops non-left turns. -/
def chainPop (p : Point ℤ) : List (Point ℤ) → List (Point ℤ)
  | b :: a :: l => if 0 < cross a b p then b :: a :: l else chainPop p (a :: l)
  | l => l

/-- One chain. -/
def chain (ps : List (Point ℤ)) : List (Point ℤ) :=
  (ps.foldl (fun acc p => p :: chainPop p acc) []).reverse

/-- Convex hull by the monotone chain algorithm. -/
def hull (ps : List (Point ℤ)) : List (Point ℤ) :=
  let s := (pySort Point.leB ps).dedup
  (chain s).dropLast ++ (chain s.reverse).dropLast

/-- Some two segments of a list cross or overlap. -/
def crossOrOverlap : List (Segment ℤ) → Bool
  | [] => false
  | s :: l => l.any (segmentPairCrossOrOverlap s) || crossOrOverlap l

/-- The point lies on the segment. -/
def onSegment (s : Segment ℤ) (p : Point ℤ) : Bool :=
  decide (cross s.start s.stop p = 0) &&
    decide (min s.start.x s.stop.x ≤ p.x ∧ p.x ≤ max s.start.x s.stop.x ∧
      min s.start.y s.stop.y ≤ p.y ∧ p.y ≤ max s.start.y s.stop.y)

/-- The segments have a common point. -/
def meet (s t : Segment ℤ) : Bool :=
  segmentsProperCross s t || onSegment s t.start || onSegment s t.stop || onSegment t s.start ||
    onSegment t s.stop

/-- A nearest segment when one meets the given segment, else the first one. -/
def nearest (l : List (Segment ℤ)) (s : Segment ℤ) : Segment ℤ :=
  (l.find? (meet s)).getD (l.headD s)

/-- A rational function increasing with the polar angle on `(-π, π]`. -/
def pseudoAngle (y x : ℤ) : ℚ :=
  if 0 ≤ y then 1 - (x : ℚ) / (|x| + |y| : ℤ) else (x : ℚ) / (|x| + |y| : ℤ) - 1

/-- Rounded mean of points. -/
def mean (ps : List (Point ℤ)) : Point ℤ :=
  ⟨(ps.map Point.x).sum / ps.length, (ps.map Point.y).sum / ps.length⟩

/-- The environment. -/
def env : Env ℤ where
  fuel := 60
  coinChange := coins
  convexHull := hull
  segmentsCrossOrOverlap := crossOrOverlap
  nearestSegment := nearest
  multipointCentroid := mean
  regionCentroid := mean
  atan2 := pseudoAngle
  setOrder := fun l => l

/-- Coordinates `0, ..., n - 1`. -/
def coords (n : Nat) : List ℤ := (List.range n).map Int.ofNat

/-- The points `(i, i² mod n)`. -/
def parab (n : Nat) : List (Point ℤ) := (coords n).map fun i => ⟨i, (i * i) % n⟩

/-- A concrete draw of points in general position. -/
theorem generalPosition (n : Nat) (lo : Int) (hi : Option Int) (p : Int)
    (h1 : toNextPrime lo = .ok p) (h2 : p ≤ n) (h3 : leOpt n (maxOpt p hi))
    (h4 : toPriorPrime n = .ok (n : Int)) (h5 : 1 < n)
    (h6 : sortCoords (coords n) = coords n)
    (h7 : indicesToPoints false n (coords n) (coords n) 1 = .ok (parab n)) :
    (toGeneralPositionStrategy (sampledFrom (coords n)) none lo hi).val (parab n) := by
  have hl : (coords n).length = n := by simp [coords]
  have hn : (coords n).Nodup := by
    unfold coords
    exact List.Nodup.map (fun a b h => by simpa using h) List.nodup_range
  simp only [toGeneralPositionStrategy, val_bind, val_ofExcept, val_prod, val_uniqueLists]
  refine ⟨p, h1, (coords n, coords n), ⟨⟨fun a ha => ha, hn, by rw [hl]; exact h2,
    by rw [hl]; exact h3⟩, ⟨fun a ha => ha, hn, by rw [hl]; exact h2, by rw [hl]; exact h3⟩⟩, ?_⟩
  simp only [coordinatePairToPoints, h6, hl, min_self, val_bind, val_ofExcept]
  refine ⟨n, h4, Or.inl ?_⟩
  simp only [val_mapE, val_bind', val_integersFrom, val_integers]
  exact ⟨1, ⟨0, le_refl _, by simp, by simp; omega⟩, h7⟩

/-- Seven points in general position. -/
theorem generalPosition7 (lo : Int) (hi : Option Int) (h1 : toNextPrime lo = .ok 7)
    (h3 : leOpt (7 : Nat) (maxOpt 7 hi)) :
    (toGeneralPositionStrategy (sampledFrom (coords 7)) none lo hi).val (parab 7) :=
  generalPosition 7 lo hi 7 h1 (by norm_num) h3 (by decide +kernel) (by norm_num)
    (by decide +kernel) (by decide +kernel)

end Sample
end HG
