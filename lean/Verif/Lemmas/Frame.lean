import Verif.Model.Factories2
import Mathlib.Data.List.Dedup

/-!
# Change of coordinates

A `Frame` is a change of coordinates that keeps the order of abscissas, the order of ordinates and
the geometric predicates.  Everything the constructions compute commutes with it.
-/

set_option linter.unusedSectionVars false

namespace HG

/-- A map of coordinates (one for each axis) compatible with the predicates and, up to shifts, with
sums and differences (through `g`, the map of differences). -/
structure Frame (K L : Type) [LinearOrder K] [Zero K] [Add K] [Sub K] [Predicates K]
    [LinearOrder L] [Zero L] [Add L] [Sub L] [Predicates L] where
  fx : K → L
  fy : K → L
  g : K → L
  monoX : StrictMono fx
  monoY : StrictMono fy
  monoG : StrictMono g
  orient_eq : ∀ a b c : Point K,
    orient (⟨fx a.x, fy a.y⟩ : Point L) ⟨fx b.x, fy b.y⟩ ⟨fx c.x, fy c.y⟩ = orient a b c
  inCircle_eq : ∀ a b c d : Point K,
    inCircle (⟨fx a.x, fy a.y⟩ : Point L) ⟨fx b.x, fy b.y⟩ ⟨fx c.x, fy c.y⟩ ⟨fx d.x, fy d.y⟩ =
      inCircle a b c d
  subX : ∀ a b, fx a - fx b = g (a - b)
  subY : ∀ a b, fy a - fy b = g (a - b)
  zeroG : g 0 = 0
  addG : ∀ a b, g a + g b = g (a + b)
  shiftX : ∀ p m c, g p + (fx m - g c) = fx (p + (m - c))
  shiftY : ∀ p m c, g p + (fy m - g c) = fy (p + (m - c))

section
variable {K L : Type} [LinearOrder K] [Zero K] [Add K] [Sub K] [Predicates K]
  [LinearOrder L] [Zero L] [Add L] [Sub L] [Predicates L]

namespace Frame

variable (T : Frame K L)

def pt (p : Point K) : Point L := ⟨T.fx p.x, T.fy p.y⟩

def seg (s : Segment K) : Segment L := ⟨T.pt s.start, T.pt s.stop⟩

def con (c : Contour K) : Contour L := ⟨c.vertices.map T.pt⟩

def poly (p : Polygon K) : Polygon L := ⟨T.con p.border, p.holes.map T.con⟩

def box (b : Box K) : Box L := ⟨T.fx b.minX, T.fx b.maxX, T.fy b.minY, T.fy b.maxY⟩

def mesh (m : Mesh K) : Mesh L := ⟨m.size, m.next, fun e => T.pt (m.org e)⟩

theorem pt_inj : Function.Injective T.pt := by
  intro p q h
  have h1 := congrArg Point.x h
  have h2 := congrArg Point.y h
  rcases p with ⟨px, py⟩; rcases q with ⟨qx, qy⟩
  have e1 : px = qx := T.monoX.injective h1
  have e2 : py = qy := T.monoY.injective h2
  rw [e1, e2]

@[simp] theorem pt_eq {p q : Point K} : T.pt p = T.pt q ↔ p = q := T.pt_inj.eq_iff

theorem seg_inj : Function.Injective T.seg := by
  rintro ⟨a, b⟩ ⟨c, d⟩ h
  simp only [seg, Segment.mk.injEq, pt_eq] at h
  rw [h.1, h.2]

@[simp] theorem mem_pt {p : Point K} {l : List (Point K)} : T.pt p ∈ l.map T.pt ↔ p ∈ l :=
  List.mem_map_of_injective T.pt_inj

@[simp] theorem orient_pt (a b c : Point K) : orient (T.pt a) (T.pt b) (T.pt c) = orient a b c :=
  T.orient_eq a b c

@[simp] theorem inCircle_pt (a b c d : Point K) :
    inCircle (T.pt a) (T.pt b) (T.pt c) (T.pt d) = inCircle a b c d := T.inCircle_eq a b c d

@[simp] theorem leB_pt (p q : Point K) : Point.leB (T.pt p) (T.pt q) = Point.leB p q := by
  unfold Point.leB pt
  simp only [T.monoX.lt_iff_lt, T.monoX.injective.eq_iff, T.monoY.le_iff_le]

@[simp] theorem ltB_pt (p q : Point K) : Point.ltB (T.pt p) (T.pt q) = Point.ltB p q := by
  unfold Point.ltB pt
  simp only [T.monoX.lt_iff_lt, T.monoX.injective.eq_iff, T.monoY.lt_iff_lt]

@[simp] theorem leVB_pt (p q : Point K) : Point.leVB (T.pt p) (T.pt q) = Point.leVB p q := by
  unfold Point.leVB pt
  simp only [T.monoX.le_iff_le, T.monoY.injective.eq_iff, T.monoY.lt_iff_lt]

end Frame

/-! ## Sorting and results -/

theorem pySort_map' {α β : Type} {le : α → α → Bool} {le' : β → β → Bool} {f : α → β}
    (h : ∀ a b, le' (f a) (f b) = le a b) (l : List α) :
    pySort le' (l.map f) = (pySort le l).map f := by
  have ins : ∀ (a : α) (l : List α),
      (l.map f).orderedInsert (fun a b => le' a b = true) (f a) =
        (l.orderedInsert (fun a b => le a b = true) a).map f := by
    intro a l
    induction l with
    | nil => rfl
    | cons b l ih =>
      simp only [List.map_cons, List.orderedInsert, h]
      split
      · simp
      · simp [ih]
  unfold pySort
  induction l with
  | nil => rfl
  | cons a l ih => simp only [List.map_cons, List.insertionSort_cons, ih, ins]

theorem exc_nat {α α' β β' : Type} {x : Except Exc α} {f : α → α'} {h : β → β'}
    {k : α → Except Exc β} {k' : α' → Except Exc β'} (H : ∀ a, k' (f a) = (k a).map h) :
    (x.map f >>= k') = (x >>= k).map h := by
  cases x with
  | error e => rfl
  | ok a => exact H a

theorem exc_nat' {α β β' : Type} {x : Except Exc α} {h : β → β'}
    {k : α → Except Exc β} {k' : α → Except Exc β'} (H : ∀ a, k' a = (k a).map h) :
    (x >>= k') = (x >>= k).map h := by
  cases x with
  | error e => rfl
  | ok a => exact H a

/-- As `exc_nat`, with the equation of the first step separate. -/
theorem exc_nat2 {α α' β β' : Type} {x : Except Exc α} {x' : Except Exc α'} {f : α → α'} {h : β → β'}
    {k : α → Except Exc β} {k' : α' → Except Exc β'} (hx : x' = x.map f)
    (H : ∀ a, k' (f a) = (k a).map h) : (x' >>= k') = (x >>= k).map h := by
  rw [hx]; exact exc_nat H

theorem exc_pure_map {α β : Type} {a : α} {f : α → β} :
    (pure (f a) : Except Exc β) = (pure a : Except Exc α).map f := rfl

theorem exc_throw_map {α β : Type} {e : Exc} {f : α → β} :
    (throw e : Except Exc β) = (throw e : Except Exc α).map f := rfl

theorem foldlM_nat {α β β' : Type} {φ : β → β'} {k : β → α → Except Exc β}
    {k' : β' → α → Except Exc β'} (l : List α) (H : ∀ b a, k' (φ b) a = (k b a).map φ) (b : β) :
    l.foldlM k' (φ b) = (l.foldlM k b).map φ := by
  induction l generalizing b with
  | nil => rfl
  | cons a l ih =>
    simp only [List.foldlM_cons, H]
    exact exc_nat fun b => ih b

/-! ## The triangulation -/

namespace Frame

variable (T : Frame K L)

theorem mesh_org (m : Mesh K) (e : Ref) : (T.mesh m).org e = T.pt (m.org e) := rfl
theorem mesh_lfs (m : Mesh K) (e : Ref) : (T.mesh m).lfs e = m.lfs e := rfl
theorem mesh_rfs (m : Mesh K) (e : Ref) : (T.mesh m).rfs e = m.rfs e := rfl
theorem mesh_lfe (m : Mesh K) (e : Ref) : (T.mesh m).lfe e = m.lfe e := rfl
theorem mesh_rfe (m : Mesh K) (e : Ref) : (T.mesh m).rfe e = m.rfe e := rfl
theorem mesh_start (m : Mesh K) (e : Ref) : (T.mesh m).start e = T.pt (m.start e) := rfl
theorem mesh_stop (m : Mesh K) (e : Ref) : (T.mesh m).stop e = T.pt (m.stop e) := rfl
theorem mesh_splice (m : Mesh K) (a b : Ref) : (T.mesh m).splice a b = T.mesh (m.splice a b) := rfl
theorem mesh_delete (m : Mesh K) (e : Ref) : (T.mesh m).delete e = T.mesh (m.delete e) := rfl

theorem mesh_ori (m : Mesh K) (e : Ref) (p : Point K) :
    (T.mesh m).orientationOf e (T.pt p) = m.orientationOf e p := T.orient_pt _ _ _

theorem mesh_new (m : Mesh K) (a b : Point K) :
    (T.mesh m).fromEndpoints (T.pt a) (T.pt b) =
      (T.mesh (m.fromEndpoints a b).1, (m.fromEndpoints a b).2) := by
  unfold Mesh.fromEndpoints mesh
  simp only [Prod.mk.injEq, Mesh.mk.injEq, and_true, true_and]
  funext e
  repeat' split
  all_goals rfl

theorem mesh_connect (m : Mesh K) (a b : Ref) :
    (T.mesh m).connect a b = (T.mesh (m.connect a b).1, (m.connect a b).2) := by
  unfold Mesh.connect
  rw [mesh_stop, mesh_start, mesh_new]
  rfl

theorem mesh_flip (m : Mesh K) (e : Ref) : (T.mesh m).flip e = T.mesh (m.flip e) := by
  have up : ∀ (f : Ref → Point K) (a : Ref) (v : Point K),
      updRef (fun e => T.pt (f e)) a (T.pt v) = fun e => T.pt (updRef f a v e) := by
    intro f a v
    funext x
    unfold updRef
    split <;> rfl
  unfold Mesh.flip
  simp only [mesh_rfs, mesh_splice, mesh_lfe]
  simp only [mesh, Mesh.stop, up]

theorem mesh_nbr (m : Mesh K) (e : Ref) : (T.mesh m).edgeNeighbours e = m.edgeNeighbours e := by
  simp only [Mesh.edgeNeighbours, mesh_lfs, mesh_rfe, mesh_stop, mesh_ori]

/-- Map of a mesh with something else. -/
def mp {α : Type} (r : Mesh K × α) : Mesh L × α := (T.mesh r.1, r.2)

theorem leftCandidateLoop_eq (base : Ref) (fuel : Nat) (m : Mesh K) (r : Ref) :
    leftCandidateLoop base fuel (T.mesh m) r = (leftCandidateLoop base fuel m r).map T.mp := by
  induction fuel generalizing m r with
  | zero => rfl
  | succ fuel ih =>
    simp only [leftCandidateLoop, mesh_lfs, mesh_stop, mesh_start, mesh_ori, inCircle_pt, mesh_delete, ih]
    split <;> rfl

theorem rightCandidateLoop_eq (base : Ref) (fuel : Nat) (m : Mesh K) (r : Ref) :
    rightCandidateLoop base fuel (T.mesh m) r = (rightCandidateLoop base fuel m r).map T.mp := by
  induction fuel generalizing m r with
  | zero => rfl
  | succ fuel ih =>
    simp only [rightCandidateLoop, mesh_rfs, mesh_stop, mesh_start, mesh_ori, inCircle_pt, mesh_delete, ih]
    split <;> rfl

theorem toLeftCandidate_eq (fuel : Nat) (m : Mesh K) (base : Ref) :
    toLeftCandidate fuel (T.mesh m) base = (toLeftCandidate fuel m base).map T.mp := by
  simp only [toLeftCandidate, mesh_lfs, mesh_stop, mesh_ori, leftCandidateLoop_eq]
  split
  · rfl
  · exact exc_nat fun _ => rfl

theorem toRightCandidate_eq (fuel : Nat) (m : Mesh K) (base : Ref) :
    toRightCandidate fuel (T.mesh m) base = (toRightCandidate fuel m base).map T.mp := by
  simp only [toRightCandidate, mesh_rfs, mesh_stop, mesh_ori, rightCandidateLoop_eq]
  split
  · rfl
  · exact exc_nat fun _ => rfl

theorem connectLoop_eq (inner fuel : Nat) (m : Mesh K) (base : Ref) :
    connectLoop inner fuel (T.mesh m) base = (connectLoop inner fuel m base).map T.mesh := by
  induction fuel generalizing m base with
  | zero => rfl
  | succ fuel ih =>
    simp only [connectLoop, toLeftCandidate_eq]
    refine exc_nat fun ⟨m1, l⟩ => ?_
    dsimp only [mp]
    rw [toRightCandidate_eq]
    refine exc_nat fun ⟨m2, r⟩ => ?_
    dsimp only [mp]
    rcases l with _ | l <;> rcases r with _ | r <;> dsimp only
    · rfl
    · rw [mesh_connect]; exact ih _ _
    · rw [mesh_connect]; exact ih _ _
    · simp only [mesh_stop, mesh_start, inCircle_pt, mesh_connect]
      split <;> exact ih _ _

theorem findBaseLoop_eq (m : Mesh K) (fuel : Nat) (r l : Ref) :
    findBaseLoop (T.mesh m) fuel r l = findBaseLoop m fuel r l := by
  induction fuel generalizing r l with
  | zero => rfl
  | succ fuel ih => simp only [findBaseLoop, mesh_lfe, mesh_rfe, mesh_start, mesh_ori, ih]

theorem mergeTri_eq (fuel : Nat) (m : Mesh K) (s o : Tri) :
    mergeTri fuel (T.mesh m) s o = (mergeTri fuel m s o).map T.mp := by
  unfold mergeTri
  rw [findBaseLoop_eq]
  refine exc_nat' fun ⟨r, l⟩ => ?_
  simp only [mesh_connect, mesh_start, pt_eq, connectLoop_eq]
  exact exc_nat fun _ => rfl

theorem initTri_eq (m : Mesh K) (pts : List (Point K)) :
    initTri (T.mesh m) (pts.map T.pt) = (initTri m pts).map T.mp := by
  rcases pts with _ | ⟨a, _ | ⟨b, _ | ⟨c, _ | ⟨d, l⟩⟩⟩⟩
  · rfl
  · rfl
  · show pure (triangulateTwo _ _ _) = _
    unfold triangulateTwo
    rw [mesh_new]; rfl
  · show pure (triangulateThree _ _ _ _) = Except.map T.mp (pure (triangulateThree m a b c) : Except Exc _)
    unfold triangulateThree
    simp only [mesh_new, mesh_splice, mesh_ori, mesh_connect]
    split <;> rfl
  · rfl

theorem initParts_eq (m : Mesh K) (pts : List (Point K)) (ns : List Nat) :
    initParts (T.mesh m) (pts.map T.pt) ns = (initParts m pts ns).map T.mp := by
  induction ns generalizing m pts with
  | nil => rfl
  | cons n ns ih =>
    simp only [initParts, ← List.map_take, ← List.map_drop, initTri_eq]
    refine exc_nat fun ⟨m1, t⟩ => ?_
    dsimp only [mp]
    rw [ih]
    exact exc_nat fun _ => rfl

theorem mergeRound_eq (fuel : Nat) (m : Mesh K) (ts : List Tri) :
    mergeRound fuel (T.mesh m) ts = (mergeRound fuel m ts).map T.mp := by
  induction h : ts.length using Nat.strong_induction_on generalizing m ts with
  | _ n ih =>
    subst h
    rcases ts with _ | ⟨a, _ | ⟨b, rest⟩⟩
    · rfl
    · rfl
    · simp only [mergeRound, mergeTri_eq]
      refine exc_nat fun ⟨m1, t⟩ => ?_
      dsimp only [mp]
      rw [ih rest.length (by simp only [List.length_cons]; omega) m1 rest rfl]
      exact exc_nat fun _ => rfl

theorem mergeRounds_eq (fuel : Nat) (m : Mesh K) (k : Nat) (ts : List Tri) :
    mergeRounds fuel (T.mesh m) k ts = (mergeRounds fuel m k ts).map T.mp := by
  induction k generalizing m ts with
  | zero => rfl
  | succ k ih =>
    simp only [mergeRounds, mergeRound_eq]
    exact exc_nat fun _ => ih _ _

theorem sort_pt (l : List (Point K)) :
    pySort Point.leB (l.map T.pt) = (pySort Point.leB l).map T.pt := pySort_map' T.leB_pt l

theorem delaunay_eq (fuel : Nat) (parts : List Nat) (pts : List (Point K)) :
    delaunay fuel parts (pts.map T.pt) = (delaunay fuel parts pts).map T.mp := by
  rcases pts with _ | ⟨p, pts⟩
  · rcases parts with _ | ⟨n, parts⟩
    · rfl
    · simp only [delaunay, List.map_nil, pySort, List.insertionSort_nil, initParts, List.take_nil]
      rfl
  · simp only [delaunay, sort_pt]
    have h0 : Mesh.empty (((p :: pts).map T.pt).headD default) =
        T.mesh (Mesh.empty ((p :: pts).headD default)) := rfl
    rw [h0, initParts_eq]
    refine exc_nat fun ⟨m, ts⟩ => ?_
    dsimp only [mp]
    rw [mergeRounds_eq]
    refine exc_nat fun ⟨m, ts⟩ => ?_
    rcases ts with _ | ⟨t, ts⟩ <;> rfl

theorem boundaryLoop_eq (m : Mesh K) (s : Ref) (fuel : Nat) (c : Ref) :
    boundaryLoop (T.mesh m) s fuel c = boundaryLoop m s fuel c := by
  induction fuel generalizing c with
  | zero => rfl
  | succ n ih => simp only [boundaryLoop, mesh_rfe, ih]

theorem boundaryEdges_eq (fuel : Nat) (m : Mesh K) (t : Tri) :
    boundaryEdges fuel (T.mesh m) t = boundaryEdges fuel m t := by
  unfold boundaryEdges
  rw [boundaryLoop_eq]

end Frame

end

end HG
