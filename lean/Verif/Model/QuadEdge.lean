import Verif.Model.Basic

/-!
# The quad-edge data structure (`/repo/hypothesis_geometry/_core/subdivisional.py`)

The Python objects form a mutable heap.  Every `QuadEdge.from_endpoints` call allocates four
nodes linked in a ring by `_rotated`; that field is written nowhere else, so a node is modelled by
a reference `⟨q, r⟩` (`q`-th quad-edge, `r`-th node of its ring) and `rotated` is the successor in
the ring.  The mutable fields `_left_from_start` and `_start` are maps on references.
-/

namespace HG

/-- Reference to a `QuadEdge` node (`subdivisional.py:13`).  `r = 0` is the edge itself, `r = 2`
its opposite, `r = 1, 3` are the dual nodes. -/
structure Ref where
  q : Nat
  r : Fin 4
deriving DecidableEq, Repr, Inhabited

/-- `QuadEdge.rotated` (`subdivisional.py:92-99`). -/
def Ref.rot (e : Ref) : Ref := ⟨e.q, e.r + 1⟩

/-- `QuadEdge.opposite` (`subdivisional.py:71-76`): `self.rotated.rotated`. -/
def Ref.opp (e : Ref) : Ref := e.rot.rot

/-- The iteration order of Python sets of edges (hash order, `factories.py:504,520,549`): any
permutation.  The argument lists the elements in the order of their insertion. -/
structure EdgeOrder where
  order : List Ref → List Ref := fun l => l
  perm : ∀ l, (order l).Perm l := by exact fun l => List.Perm.refl l

theorem EdgeOrder.mem (o : EdgeOrder) {e : Ref} {l : List Ref} : e ∈ o.order l ↔ e ∈ l :=
  (o.perm l).mem_iff

/-- The heap of quad-edges.  `size` is the number of allocated quad-edges, `next` is the field
`_left_from_start`, `org` the field `_start` (the default value on dual nodes stands for `None`
and is never read by the algorithms). -/
structure Mesh (K : Type) where
  size : Nat
  next : Ref → Ref
  org : Ref → Point K

/-- Pointer update. -/
def updRef {β : Type} (f : Ref → β) (a : Ref) (v : β) : Ref → β :=
  fun e => if e = a then v else f e

namespace Mesh

variable {K : Type} [LinearOrder K] [Zero K] [Add K] [Sub K] [Predicates K]

/-- The heap before any allocation; `d` stands for the `None` of dual nodes and for nodes that are
not allocated, it is never read. -/
def empty (d : Point K := ⟨0, 0⟩) : Mesh K := ⟨0, fun e => e, fun _ => d⟩

/-- `QuadEdge.left_from_start` (`subdivisional.py:62-69`). -/
def lfs (m : Mesh K) (e : Ref) : Ref := m.next e

/-- `QuadEdge.left_from_end` (`subdivisional.py:55-60`). -/
def lfe (m : Mesh K) (e : Ref) : Ref := (m.next e.rot.opp).rot

/-- `QuadEdge.right_from_end` (`subdivisional.py:78-83`). -/
def rfe (m : Mesh K) (e : Ref) : Ref := m.next e.opp

/-- `QuadEdge.right_from_start` (`subdivisional.py:85-90`). -/
def rfs (m : Mesh K) (e : Ref) : Ref := (m.next e.rot).rot

/-- `QuadEdge.start` (`subdivisional.py:101-108`). -/
def start (m : Mesh K) (e : Ref) : Point K := m.org e

/-- `QuadEdge.end` (`subdivisional.py:48-53`). -/
def stop (m : Mesh K) (e : Ref) : Point K := m.org e.opp

/-- `QuadEdge.orientation_of` (`subdivisional.py:144-146`). -/
def orientationOf (m : Mesh K) (e : Ref) (p : Point K) : Orientation :=
  orient (m.start e) (m.stop e) p

/-- `QuadEdge.from_endpoints` (`subdivisional.py:23-46`). -/
def fromEndpoints (m : Mesh K) (s t : Point K) : Mesh K × Ref :=
  let q := m.size
  let e : Ref := ⟨q, 0⟩
  ({ size := q + 1
     next := fun a =>
       if a.q = q then
         (if a.r = 0 then ⟨q, 0⟩ else if a.r = 1 then ⟨q, 3⟩
          else if a.r = 2 then ⟨q, 2⟩ else ⟨q, 1⟩)
       else m.next a
     org := fun a =>
       if a = ⟨q, 0⟩ then s else if a = ⟨q, 2⟩ then t else m.org a }, e)

/-- `QuadEdge.splice` (`subdivisional.py:148-159`). -/
def splice (m : Mesh K) (a b : Ref) : Mesh K :=
  let alpha := (m.next a).rot
  let beta := (m.next b).rot
  let n1 := updRef (updRef m.next a (m.next b)) b (m.next a)
  let n2 := updRef (updRef n1 alpha (n1 beta)) beta (n1 alpha)
  { m with next := n2 }

/-- `QuadEdge.connect` (`subdivisional.py:130-137`). -/
def connect (m : Mesh K) (a b : Ref) : Mesh K × Ref :=
  let (m1, e) := m.fromEndpoints (m.stop a) (m.start b)
  let m2 := m1.splice e (m1.lfe a)
  let m3 := m2.splice e.opp b
  (m3, e)

/-- `QuadEdge.delete` (`subdivisional.py:139-142`). -/
def delete (m : Mesh K) (e : Ref) : Mesh K :=
  let m1 := m.splice e (m.rfs e)
  m1.splice e.opp (m1.rfs e.opp)

/-- `QuadEdge.flip` (`subdivisional.py:161-171`). -/
def flip (m : Mesh K) (e : Ref) : Mesh K :=
  let side := m.rfs e
  let oppositeSide := m.rfs e.opp
  let m1 := m.splice e side
  let m2 := m1.splice e.opp oppositeSide
  let m3 := m2.splice e (m2.lfe side)
  let m4 := m3.splice e.opp (m3.lfe oppositeSide)
  let m5 := { m4 with org := updRef m4.org e (m4.stop side) }
  { m5 with org := updRef m5.org e.opp (m5.stop oppositeSide) }

/-- `to_edge_neighbours` (`subdivisional.py:174-182`). -/
def edgeNeighbours (m : Mesh K) (e : Ref) : List Ref :=
  let c := m.lfs e
  if m.orientationOf e (m.stop c) = .counterclockwise then [c, m.rfe c] else []

end Mesh
end HG
