import Verif.Model.Triangular
import Verif.Model.Contracts

/-!
# Factories (`/repo/hypothesis_geometry/_core/factories.py`)
-/

namespace HG

section
variable {K : Type} [LinearOrder K] [Zero K] [Add K] [Sub K] [Predicates K]

/-! ## `compress_contour` -/

/-- `vertices[index]`; the default value stands for an `IndexError`, which does not occur. -/
def pyAt (l : List (Point K)) (i : Int) : Point K := (pyGet l i).getD default

/-- `del vertices[index]`; does nothing where Python would raise `IndexError`, which does not
occur. -/
def pyDelAt (l : List (Point K)) (i : Int) : List (Point K) := (pyDel l i).getD l

/-- The inner loop of the first pass of `compress_contour` (`factories.py:351-357`); `k` is
`-index`.  The budget is the number of vertices: every round deletes one. -/
def compressInner1 (k : Nat) : Nat → List (Point K) → List (Point K)
  | 0, vs => vs
  | fuel + 1, vs =>
    if max 2 k < vs.length ∧
        orient (pyAt vs (-(k : Int) + 1)) (pyAt vs (-(k : Int) + 2)) (pyAt vs (-(k : Int)))
          = .collinear then
      compressInner1 k fuel (pyDelAt vs (-(k : Int) + 1))
    else vs

/-- The first pass of `compress_contour` (`factories.py:349-358`), `index = -k, ..., -1`. -/
def compressPass1 : Nat → List (Point K) → List (Point K)
  | 0, vs => vs
  | k + 1, vs => compressPass1 k (compressInner1 (k + 1) vs.length vs)

/-- The inner loop of the second pass of `compress_contour` (`factories.py:360-366`). -/
def compressInner2 (i : Nat) : Nat → List (Point K) → List (Point K)
  | 0, vs => vs
  | fuel + 1, vs =>
    if max 2 i < vs.length ∧
        orient (pyAt vs ((i : Int) - 1)) (pyAt vs ((i : Int) - 2)) (pyAt vs (i : Int))
          = .collinear then
      compressInner2 i fuel (pyDelAt vs ((i : Int) - 1))
    else vs

/-- The second pass of `compress_contour` (`factories.py:359-367`). -/
def compressPass2 : Nat → Nat → List (Point K) → List (Point K)
  | 0, _, vs => vs
  | fuel + 1, i, vs =>
    if i < vs.length then compressPass2 fuel (i + 1) (compressInner2 i vs.length vs) else vs

/-- `compress_contour` (`factories.py:343-367`), returning the mutated list.  For an empty list
the starting index is `1` and no loop runs. -/
def compressContour (vs : List (Point K)) : List (Point K) :=
  compressPass2 vs.length 0 (compressPass1 (vs.length - 1) vs)

/-! ## Keyed ordered sets of edges (`dendroid.red_black.set_(key=_edge_key)`) -/

/-- The key type of `_edge_key` (`factories.py:563-579`). -/
abbrev EdgeKey (K : Type) := Nat × Point K × Point K

/-- Strict lexicographic order of keys. -/
def keyLt (a b : EdgeKey K) : Bool :=
  decide (a.1 < b.1) || (decide (a.1 = b.1) &&
    (Point.ltB a.2.1 b.2.1 || (decide (a.2.1 = b.2.1) && Point.ltB a.2.2 b.2.2)))

/-- A `red_black` set with stored keys: ascending list of `(key, value)`. -/
abbrev KeyedSet (K : Type) := List (EdgeKey K × Ref)

/-- `set.add` of the keyed set: no effect when an equal key is present. -/
def KeyedSet.add (k : EdgeKey K) (e : Ref) : KeyedSet K → KeyedSet K
  | [] => [(k, e)]
  | (k', e') :: l =>
    if keyLt k k' then (k, e) :: (k', e') :: l
    else if k = k' then (k', e') :: l
    else (k', e') :: KeyedSet.add k e l

/-- `set.popmax`: the value with the greatest key and the remaining set (`none` is the
`ValueError` on an empty set). -/
def KeyedSet.popmax (s : KeyedSet K) : Option (Ref × KeyedSet K) :=
  match s.getLast? with
  | none => none
  | some (_, e) => some (e, s.dropLast)

/-! ## Tests on edges -/

/-- `bool` as an integer. -/
def b2i (b : Bool) : Int := if b then 1 else 0

/-- `edge.orientation_of(point) is Orientation.COLLINEAR`. -/
def isCol (m : Mesh K) (e : Ref) (p : Point K) : Bool :=
  decide (m.orientationOf e p = .collinear)

/-- `edge.orientation_of(point) is Orientation.COUNTERCLOCKWISE`. -/
def isCcw (m : Mesh K) (e : Ref) (p : Point K) : Bool :=
  decide (m.orientationOf e p = .counterclockwise)

/-- `_is_convex_quadrilateral_diagonal` (`factories.py:651-662`). -/
def isConvexQuadDiagonal (m : Mesh K) (e : Ref) : Bool :=
  isCcw m (m.rfs e) (m.stop e)
    && isCcw m (m.rfe e).opp (m.stop (m.lfs e))
    && isCcw m (m.lfe e) (m.start e)
    && isCcw m (m.lfs e).opp (m.stop (m.rfs e))

/-- The loop of `_edge_key` (`factories.py:566-578`), returning the weight. -/
def edgeWeightLoop (m : Mesh K) (edge : Ref) : Nat → Ref → Nat → Except Exc Nat
  | 0, _, _ => throw .outOfFuel
  | fuel + 1, cursor, weight => do
    let diagonal := isConvexQuadDiagonal m (m.lfe cursor)
    if diagonal = true ∧ m.lfe cursor = m.rfe cursor then throw .assertion
    let weight := weight + (if diagonal then 1 else 0)
    let cursor := m.lfs cursor
    if cursor = edge then pure weight else edgeWeightLoop m edge fuel cursor weight

/-- `_edge_key` (`factories.py:563-579`). -/
def edgeKey (fuel : Nat) (m : Mesh K) (e : Ref) : Except Exc (EdgeKey K) := do
  let w ← edgeWeightLoop m e fuel e 0
  pure (w, m.start e, m.stop e)

/-- `_mouth_to_increment` (`factories.py:605-624`). -/
def mouthToIncrement (m : Mesh K) (e : Ref) : Int :=
  1 - b2i (isCol m (m.lfs e) (m.stop (m.rfs e)))
    - b2i (isCol m (m.lfe e) (m.stop (m.rfe e)))
    + b2i (isCol m e (m.stop (m.rfs e)))
    + b2i (isCol m e (m.stop (m.rfe e)))

/-- `_ear_to_increment` (`factories.py:627-648`). -/
def earToIncrement (m : Mesh K) (e : Ref) : Int :=
  b2i (isCol m (m.rfe e) (m.stop (m.rfe (m.rfe e))))
    + b2i (isCol m e (m.stop (m.rfs e)))
    - b2i (isCol m (m.rfs e) (m.stop (m.rfe e)))
    - b2i (isCol m (m.rfe (m.rfe e)) (m.start e))
    - 1

/-- `_is_ear` (`factories.py:665-673`). -/
def isEar (m : Mesh K) (e : Ref) : Bool :=
  isCcw m e (m.stop (m.rfe e)) &&
    isConvexQuadDiagonal m (if m.lfe e = m.rfe e then m.lfs e else m.lfe e)

/-- `_is_mouth` (`factories.py:676-680`) with its assertion. -/
def isMouth (m : Mesh K) (e : Ref) (boundaryPoints : List (Point K)) : Except Exc Bool :=
  if m.start e ∈ boundaryPoints then pure (decide (m.stop (m.lfs e) ∉ boundaryPoints))
  else throw .assertion

/-- Five buckets of edges, indexed by the increment shifted by the greatest decrement
(`factories.py:683-714`). -/
abbrev Buckets (K : Type) := List (KeyedSet K)

/-- `buckets[index].add(edge)`. -/
def Buckets.add (fuel : Nat) (m : Mesh K) (b : Buckets K) (i : Int) (e : Ref) :
    Except Exc (Buckets K) := do
  if i < 0 ∨ b.length ≤ i.toNat then throw .indexError
  let k ← edgeKey fuel m e
  pure (b.modify i.toNat (KeyedSet.add k e))

/-- `_to_mouths_increments` (`factories.py:704-714`), `MAX_MOUTH_DECREMENT = 1`. -/
def toMouthsIncrements (fuel : Nat) (m : Mesh K) (edges : List Ref) : Except Exc (Buckets K) :=
  edges.foldlM (fun b e => Buckets.add fuel m b (mouthToIncrement m e + 1) e)
    (List.replicate 5 [])

/-- `_to_ears_increments` (`factories.py:687-697`), `MAX_EAR_DECREMENT = 3`. -/
def toEarsIncrements (fuel : Nat) (m : Mesh K) (edges : List Ref) : Except Exc (Buckets K) :=
  edges.foldlM (fun b e => Buckets.add fuel m b (earToIncrement m e + 3) e)
    (List.replicate 5 [])

/-- The list comprehension with `max(..., default=None)` (`factories.py:449-458,522-531`): the
greatest increment `0 ≤ i ≤ left` whose bucket (at `i + shift`) is non-empty. -/
def targetIncrement (b : Buckets K) (shift : Nat) (left : Int) : Option Nat :=
  ((List.range (b.length - shift)).filter fun i =>
    !(b.getD (i + shift) []).isEmpty && decide ((i : Int) ≤ left)).getLast?

/-- `set.remove` of a Python set of edges. -/
def removeEdge (e : Ref) (s : List Ref) : Except Exc (List Ref) :=
  if e ∈ s then pure (s.filter (· ≠ e)) else throw .keyError

/-- `set.add` of a Python set. -/
def insertSet {α : Type} [DecidableEq α] (a : α) (s : List α) : List α :=
  if a ∈ s then s else s ++ [a]

/-! ## The chi-algorithm -/

/-- State of the first loop of `_to_vertex_sequence`. -/
structure MouthState (K : Type) where
  mesh : Mesh K
  tri : Tri
  boundaryPoints : List (Point K)
  candidates : List Ref
  buckets : Buckets K
  left : Int

/-- The `for` loop over the bucket of increment `-1` (`factories.py:461-478`): `none` means the
`else: break`. Returns the flipped candidate and its increment. -/
def mouthLoopNeg (fuel : Nat) : Nat → MouthState K →
    Except Exc (MouthState K × Option (Ref × Int))
  | 0, s => pure (s, none)
  | n + 1, s =>
    match KeyedSet.popmax (s.buckets.getD 0 []) with
    | none => throw .valueError
    | some (candidate, rest) => do
      let s := { s with buckets := s.buckets.set 0 rest }
      let actual := mouthToIncrement s.mesh candidate
      if actual ≠ -1 then throw .assertion
      if ← isMouth s.mesh candidate s.boundaryPoints then
        let diagonal := s.mesh.lfe candidate
        if s.mesh.stop (s.mesh.rfs diagonal) ∉ s.boundaryPoints ∧
            isConvexQuadDiagonal s.mesh diagonal = true then
          let m := s.mesh.flip diagonal
          pure ({ s with mesh := m }, some (candidate, mouthToIncrement m candidate))
        else
          let c ← removeEdge candidate s.candidates
          mouthLoopNeg fuel n { s with candidates := c }
      else mouthLoopNeg fuel n s

/-- The `for` loop over the bucket of a non-negative increment (`factories.py:483-505`): `none`
means the `else` branch (all candidates were exhausted). -/
def mouthLoopPos (fuel : Nat) (target : Nat) : Nat → MouthState K →
    Except Exc (MouthState K × Option (Ref × Int))
  | 0, s => pure (s, none)
  | n + 1, s =>
    match KeyedSet.popmax (s.buckets.getD (target + 1) []) with
    | none => throw .valueError
    | some (candidate, rest) => do
      let s := { s with buckets := s.buckets.set (target + 1) rest }
      let mouth ← isMouth s.mesh candidate s.boundaryPoints
      let diagonal := s.mesh.lfe candidate
      if mouth = false ∧ ¬ (s.mesh.stop (s.mesh.rfs diagonal) ∉ s.boundaryPoints ∧
            isConvexQuadDiagonal s.mesh diagonal = true) then
        let c ← removeEdge candidate s.candidates
        mouthLoopPos fuel target n { s with candidates := c }
      else
        let s := if mouth then s else { s with mesh := s.mesh.flip diagonal }
        let actual := mouthToIncrement s.mesh candidate
        if actual = target then pure (s, some (candidate, actual))
        else
          let b ← Buckets.add fuel s.mesh s.buckets (actual + 1) candidate
          mouthLoopPos fuel target n { s with buckets := b }

/-- The common tail of an iteration of the first loop (`factories.py:506-516`): the mouth
`candidate` is removed from the triangulation. -/
def mouthDelete (fuel : Nat) (s : MouthState K) (candidate : Ref) (actual target : Int) :
    Except Exc (MouthState K) := do
  if actual ≠ target then throw .assertion
  if ← isMouth s.mesh candidate s.boundaryPoints then pure () else throw .assertion
  let boundaryPoints := insertSet (s.mesh.stop (s.mesh.lfs candidate)) s.boundaryPoints
  let neighbours := s.mesh.edgeNeighbours candidate
  let candidates ← removeEdge candidate s.candidates
  let (m, t) ← Tri.delete s.mesh s.tri candidate
  let (candidates, buckets) ← neighbours.foldlM (fun (c, b) e => do
      let b ← Buckets.add fuel m b (mouthToIncrement m e + 1) e
      pure (insertSet e c, b)) (candidates, s.buckets)
  pure { mesh := m, tri := t, boundaryPoints, candidates, buckets, left := s.left - actual }

/-- The first `while` loop of `_to_vertex_sequence` (`factories.py:448-516`). -/
def mouthLoop (o : EdgeOrder) (inner : Nat) : Nat → MouthState K → Except Exc (MouthState K)
  | 0, _ => throw .outOfFuel
  | fuel + 1, s =>
    if s.left > 0 then
      match targetIncrement s.buckets 1 s.left with
      | none => do
        let (s, r) ← mouthLoopNeg inner (s.buckets.getD 0 []).length s
        match r with
        | none => pure s
        | some (candidate, actual) => do
          let s ← mouthDelete inner s candidate actual 1
          mouthLoop o inner fuel s
      | some target => do
        let (s, r) ← mouthLoopPos inner target (s.buckets.getD (target + 1) []).length s
        match r with
        | none => do
          let b ← toMouthsIncrements inner s.mesh (o.order s.candidates)
          mouthLoop o inner fuel { s with buckets := b }
        | some (candidate, actual) => do
          let s ← mouthDelete inner s candidate actual target
          mouthLoop o inner fuel s
    else pure s

/-- State of the second loop of `_to_vertex_sequence`. -/
structure EarState (K : Type) where
  mesh : Mesh K
  tri : Tri
  candidates : List Ref
  buckets : Buckets K
  left : Int

/-- The `for` loop over a bucket of ears (`factories.py:535-550`). -/
def earLoopInner (fuel : Nat) (target : Nat) : Nat → EarState K →
    Except Exc (EarState K × Option (Ref × Int))
  | 0, s => pure (s, none)
  | n + 1, s =>
    match KeyedSet.popmax (s.buckets.getD (target + 3) []) with
    | none => throw .valueError
    | some (candidate, rest) => do
      let s := { s with buckets := s.buckets.set (target + 3) rest }
      if isEar s.mesh candidate = false then
        let c ← removeEdge candidate s.candidates
        earLoopInner fuel target n { s with candidates := c }
      else
        let actual := earToIncrement s.mesh candidate
        if actual = target then pure (s, some (candidate, actual))
        else
          let b ← Buckets.add fuel s.mesh s.buckets (actual + 3) candidate
          earLoopInner fuel target n { s with buckets := b }

/-- `while candidate.left_from_end is not candidate.right_from_end: flip`
(`factories.py:551-552`). -/
def earFlipLoop (candidate : Ref) : Nat → Mesh K → Except Exc (Mesh K)
  | 0, _ => throw .outOfFuel
  | fuel + 1, m =>
    if m.lfe candidate = m.rfe candidate then pure m
    else earFlipLoop candidate fuel (m.flip (m.lfe candidate))

/-- The second `while` loop of `_to_vertex_sequence` (`factories.py:521-559`). -/
def earLoop (o : EdgeOrder) (inner : Nat) : Nat → EarState K → Except Exc (EarState K)
  | 0, _ => throw .outOfFuel
  | fuel + 1, s =>
    if s.left > 0 then
      match targetIncrement s.buckets 3 s.left with
      | none => pure s
      | some target => do
        let (s, r) ← earLoopInner inner target (s.buckets.getD (target + 3) []).length s
        match r with
        | none => do
          let b ← toEarsIncrements inner s.mesh (o.order s.candidates)
          earLoop o inner fuel { s with buckets := b }
        | some (candidate, actual) => do
          let m ← earFlipLoop candidate inner s.mesh
          let c ← removeEdge candidate s.candidates
          let earBase := m.lfs candidate
          let (m, t) ← Tri.delete m s.tri candidate
          let m := m.flip (m.rfe candidate)
          earLoop o inner fuel
            { mesh := m, tri := t, candidates := insertSet earBase c,
              buckets := s.buckets, left := s.left - actual }
    else pure s

/-- `_triangulation_to_border_vertices` (`factories.py:717-722`). -/
def triToBorderVertices (fuel : Nat) (m : Mesh K) (t : Tri) : Except Exc (List (Point K)) := do
  let es ← boundaryEdges fuel m t
  pure (compressContour (es.map m.start))

/-- `_to_vertex_sequence` (`factories.py:432-560`). -/
def toVertexSequence' (fuel : Nat) (o : EdgeOrder) (m : Mesh K) (t : Tri) (boundary : List Ref)
    (size : Int) : Except Exc (List (Point K)) := do
  let boundaryPoints := (boundary.map m.start).dedup
  let boundaryVertices := compressContour (boundary.map m.start)
  if boundaryVertices.length < 3 then pure boundaryVertices
  else
    let buckets ← toMouthsIncrements fuel m boundary
    let s ← mouthLoop o fuel fuel
      { mesh := m, tri := t, boundaryPoints, candidates := boundary, buckets,
        left := size - boundaryVertices.length }
    let earsCandidates ← (if s.left > 0 then boundaryEdges fuel s.mesh s.tri else pure [])
    let earsBuckets ← toEarsIncrements fuel s.mesh (o.order earsCandidates)
    let s ← earLoop o fuel fuel
      { mesh := s.mesh, tri := s.tri, candidates := earsCandidates, buckets := earsBuckets,
        left := s.left }
    triToBorderVertices fuel s.mesh s.tri

/-- `to_vertex_sequence` (`factories.py:408-429`); `coinChange` is
`coin_change(·, {2, 3})` of the `decision` dependency. -/
def toVertexSequence (fuel : Nat) (coinChange : Nat → List Nat) (o : EdgeOrder)
    (points : List (Point K)) (size : Int) : Except Exc (List (Point K)) := do
  let (m, t) ← delaunay fuel (coinChange points.length) points
  let es ← boundaryEdges fuel m t
  toVertexSequence' fuel o m t es size

end
end HG
