import Verif.Model.QuadEdge

/-!
# Delaunay triangulation (`/repo/hypothesis_geometry/_core/triangular.py`)

`while` loops take a fuel argument; running out of it is the exception `Exc.outOfFuel` and stands
for non-termination.
-/

namespace HG

/-- The three-slot object `Triangulation` (`triangular.py:46-59`), without the context. -/
structure Tri where
  leftSide : Ref
  rightSide : Ref
deriving DecidableEq, Repr, Inhabited

section
variable {K : Type} [LinearOrder K] [Zero K] [Add K] [Sub K] [Predicates K]

/-- `Triangulation.delete` (`triangular.py:74-84`). -/
def Tri.delete (m : Mesh K) (t : Tri) (e : Ref) : Except Exc (Mesh K × Tri) := do
  let t ← (if e = t.rightSide ∨ e.opp = t.rightSide then
      if t.rightSide = (m.rfe t.rightSide).opp then throw .assertion
      else pure { t with rightSide := (m.rfe t.rightSide).opp }
    else pure t)
  let t ← (if e = t.leftSide ∨ e.opp = t.leftSide then
      if t.leftSide = m.lfs t.leftSide then throw .assertion
      else pure { t with leftSide := m.lfs t.leftSide }
    else pure t)
  return (m.delete e, t)

/-- The `while` loop of `_to_left_candidate` (`triangular.py:135-146`). -/
def leftCandidateLoop (base : Ref) : Nat → Mesh K → Ref → Except Exc (Mesh K × Ref)
  | 0, _, _ => throw .outOfFuel
  | fuel + 1, m, result =>
    if inCircle (m.stop (m.lfs result)) (m.stop base) (m.start base) (m.stop result) = true ∧
        m.orientationOf base (m.stop (m.lfs result)) = .clockwise then
      leftCandidateLoop base fuel (m.delete result) (m.lfs result)
    else pure (m, result)

/-- `Triangulation._to_left_candidate` (`triangular.py:129-147`). -/
def toLeftCandidate (fuel : Nat) (m : Mesh K) (base : Ref) :
    Except Exc (Mesh K × Option Ref) :=
  let result := m.lfs base.opp
  if m.orientationOf base (m.stop result) ≠ .clockwise then pure (m, none)
  else do
    let (m', r) ← leftCandidateLoop base fuel m result
    pure (m', some r)

/-- The `while` loop of `_to_right_candidate` (`triangular.py:155-166`). -/
def rightCandidateLoop (base : Ref) : Nat → Mesh K → Ref → Except Exc (Mesh K × Ref)
  | 0, _, _ => throw .outOfFuel
  | fuel + 1, m, result =>
    if inCircle (m.stop (m.rfs result)) (m.stop base) (m.start base) (m.stop result) = true ∧
        m.orientationOf base (m.stop (m.rfs result)) = .clockwise then
      rightCandidateLoop base fuel (m.delete result) (m.rfs result)
    else pure (m, result)

/-- `Triangulation._to_right_candidate` (`triangular.py:149-167`). -/
def toRightCandidate (fuel : Nat) (m : Mesh K) (base : Ref) :
    Except Exc (Mesh K × Option Ref) :=
  let result := m.rfs base
  if m.orientationOf base (m.stop result) ≠ .clockwise then pure (m, none)
  else do
    let (m', r) ← rightCandidateLoop base fuel m result
    pure (m', some r)

/-- `Triangulation._connect` (`triangular.py:95-118`). -/
def connectLoop (innerFuel : Nat) : Nat → Mesh K → Ref → Except Exc (Mesh K)
  | 0, _, _ => throw .outOfFuel
  | fuel + 1, m, base => do
    let (m, left) ← toLeftCandidate innerFuel m base
    let (m, right) ← toRightCandidate innerFuel m base
    match left, right with
    | none, none => pure m
    | none, some r =>
      let (m, base') := m.connect r base.opp
      connectLoop innerFuel fuel m base'
    | some l, none =>
      let (m, base') := m.connect base.opp l.opp
      connectLoop innerFuel fuel m base'
    | some l, some r =>
      if inCircle (m.stop r) (m.stop l) (m.stop base) (m.start base) = true then
        let (m, base') := m.connect r base.opp
        connectLoop innerFuel fuel m base'
      else
        let (m, base') := m.connect base.opp l.opp
        connectLoop innerFuel fuel m base'

/-- The `while` loop of `_find_base_edge` (`triangular.py:170-182`): moves `self.right_side` and
`other.left_side`. -/
def findBaseLoop (m : Mesh K) : Nat → Ref → Ref → Except Exc (Ref × Ref)
  | 0, _, _ => throw .outOfFuel
  | fuel + 1, r, l =>
    if m.orientationOf r (m.start l) = .counterclockwise then
      findBaseLoop m fuel (m.lfe r) l
    else if m.orientationOf l (m.start r) = .clockwise then
      findBaseLoop m fuel r (m.rfe l)
    else pure (r, l)

/-- `Triangulation._merge` with `_find_base_edge` (`triangular.py:169-192`); `s` is `self`, `o` is
`other`. -/
def mergeTri (fuel : Nat) (m : Mesh K) (s o : Tri) : Except Exc (Mesh K × Tri) := do
  let (r, l) ← findBaseLoop m fuel s.rightSide o.leftSide
  let (m1, base) := m.connect l.opp r
  let left := if m1.start r = m1.start s.leftSide then base.opp else s.leftSide
  let right := if m1.start l = m1.start o.rightSide then base else o.rightSide
  let m2 ← connectLoop fuel fuel m1 base
  pure (m2, ⟨left, right⟩)

/-- `_triangulate_two_points` (`triangular.py:195-202`). -/
def triangulateTwo (m : Mesh K) (a b : Point K) : Mesh K × Tri :=
  let (m, e) := m.fromEndpoints a b
  (m, ⟨e, e.opp⟩)

/-- `_triangulate_three_points` (`triangular.py:205-224`). -/
def triangulateThree (m : Mesh K) (a b c : Point K) : Mesh K × Tri :=
  let (m, e1) := m.fromEndpoints a b
  let (m, e2) := m.fromEndpoints b c
  let m := m.splice e1.opp e2
  match m.orientationOf e1 c with
  | .counterclockwise =>
    let (m, _) := m.connect e2 e1
    (m, ⟨e1, e2.opp⟩)
  | .clockwise =>
    let (m, e3) := m.connect e2 e1
    (m, ⟨e3.opp, e3⟩)
  | .collinear => (m, ⟨e1, e2.opp⟩)

/-- `Triangulation._initialize_triangulation` with `_base_cases` (`triangular.py:120-127,227`);
a size other than 2 or 3 is the `KeyError` of the dictionary lookup. -/
def initTri (m : Mesh K) : List (Point K) → Except Exc (Mesh K × Tri)
  | [a, b] => pure (triangulateTwo m a b)
  | [a, b, c] => pure (triangulateThree m a b c)
  | _ => throw .keyError

/-- The list comprehension of `delaunay` (`triangular.py:29-34`): cuts the sorted points into
consecutive chunks of the given sizes (`pairwise(accumulate(chain((0,), sizes)))`). -/
def initParts (m : Mesh K) : List (Point K) → List Nat → Except Exc (Mesh K × List Tri)
  | _, [] => pure (m, [])
  | pts, n :: ns => do
    let (m, t) ← initTri m (pts.take n)
    let (m, ts) ← initParts m (pts.drop n) ns
    pure (m, t :: ts)

/-- One round of pairwise merging (`triangular.py:36-43`). -/
def mergeRound (fuel : Nat) (m : Mesh K) : List Tri → Except Exc (Mesh K × List Tri)
  | a :: b :: rest => do
    let (m, t) ← mergeTri fuel m a b
    let (m, ts) ← mergeRound fuel m rest
    pure (m, t :: ts)
  | ts => pure (m, ts)

/-- `for _ in repeat(None, rounds)` (`triangular.py:35-43`). -/
def mergeRounds (fuel : Nat) (m : Mesh K) : Nat → List Tri → Except Exc (Mesh K × List Tri)
  | 0, ts => pure (m, ts)
  | n + 1, ts => do
    let (m, ts) ← mergeRound fuel m ts
    mergeRounds fuel m n ts

/-- `ceil_log2` (`utils.py:18-19`): `number.bit_length() - (not (number & (number - 1)))`
for natural `number` (`0` gives `-1` in Python; the model truncates it to `0`, the result list is
empty in that case and indexing it fails anyway). -/
def ceilLog2 (n : Nat) : Nat :=
  (if n = 0 then 0 else Nat.log2 n + 1) - (if n &&& (n - 1) = 0 then 1 else 0)

/-- `Triangulation.delaunay` (`triangular.py:20-44`); `parts` is the value of
`coin_change(len(points), {2, 3})` of the `decision` dependency. -/
def delaunay (fuel : Nat) (parts : List Nat) (points : List (Point K)) :
    Except Exc (Mesh K × Tri) := do
  let sorted := pySort Point.leB points
  let (m, ts) ← initParts (Mesh.empty (points.headD default)) sorted parts
  let (m, ts) ← mergeRounds fuel m (ceilLog2 ts.length) ts
  match ts with
  | [] => throw .indexError
  | t :: _ => pure (m, t)

/-- The generator `_to_boundary_edges` (`triangular.py:241-251`). -/
def boundaryLoop (m : Mesh K) (start : Ref) : Nat → Ref → Except Exc (List Ref)
  | 0, _ => throw .outOfFuel
  | fuel + 1, cursor =>
    if m.rfe cursor = start then pure [cursor]
    else do
      let rest ← boundaryLoop m start fuel (m.rfe cursor)
      pure (cursor :: rest)

/-- `to_boundary_edges` (`triangular.py:235-238`). -/
def boundaryEdges (fuel : Nat) (m : Mesh K) (t : Tri) : Except Exc (List Ref) :=
  boundaryLoop m t.leftSide fuel t.leftSide

end
end HG
