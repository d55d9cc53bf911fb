import Verif.Delaunay.Driver

/-!
# The triangulation commutes with embeddings of the coordinates
-/

set_option linter.unusedSectionVars false

namespace HG

variable {K F : Type} [CommRing K] [LinearOrder K] [IsStrictOrderedRing K]
  [CommRing F] [LinearOrder F] [IsStrictOrderedRing F]

def Point.map (f : K →+* F) (p : Point K) : Point F := ⟨f p.x, f p.y⟩

def Mesh.map (f : K →+* F) (m : Mesh K) : Mesh F := ⟨m.size, m.next, fun e => (m.org e).map f⟩

section
variable {f : K →+* F} (hf : StrictMono f)

theorem cross_map (f : K →+* F) (a b c : Point K) :
    cross (a.map f) (b.map f) (c.map f) = f (cross a b c) := by
  simp [cross, Point.map]

theorem det_map (f : K →+* F) (p a b c : Point K) :
    inCircleDet (p.map f) (a.map f) (b.map f) (c.map f) = f (inCircleDet p a b c) := by
  simp [inCircleDet, Point.map]

include hf

theorem map_pos_iff {z : K} : 0 < f z ↔ 0 < z := by
  rw [← map_zero f]; exact hf.lt_iff_lt

theorem map_neg_iff {z : K} : f z < 0 ↔ z < 0 := by
  rw [← map_zero f]; exact hf.lt_iff_lt

theorem map_nonneg_iff {z : K} : 0 ≤ f z ↔ 0 ≤ z := by
  rw [← map_zero f]; exact hf.le_iff_le

theorem map_nonpos_iff {z : K} : f z ≤ 0 ↔ z ≤ 0 := by
  rw [← map_zero f]; exact hf.le_iff_le

theorem map_zero_iff' {z : K} : f z = 0 ↔ z = 0 := by
  rw [← map_zero f]; exact hf.injective.eq_iff

theorem Point.map_inj {p q : Point K} : p.map f = q.map f ↔ p = q := by
  constructor
  · intro h
    have h1 := congrArg Point.x h
    have h2 := congrArg Point.y h
    rcases p with ⟨px, py⟩; rcases q with ⟨qx, qy⟩
    have e1 : px = qx := hf.injective h1
    have e2 : py = qy := hf.injective h2
    rw [e1, e2]
  · rintro rfl; rfl

theorem orient_map (a b c : Point K) : orient (a.map f) (b.map f) (c.map f) = orient a b c := by
  simp only [orient_def]; unfold signOrientation
  rw [cross_map]
  simp only [map_neg_iff hf, map_zero_iff' hf]

theorem inCircle_map (p a b c : Point K) :
    inCircle (p.map f) (a.map f) (b.map f) (c.map f) = inCircle p a b c := by
  simp only [inCircle_def]
  rw [det_map]
  simp only [map_pos_iff hf]

theorem leB_map (p q : Point K) : Point.leB (p.map f) (q.map f) = Point.leB p q := by
  unfold Point.leB Point.map
  simp only [hf.lt_iff_lt, hf.le_iff_le, hf.injective.eq_iff]

theorem orderedInsert_map (a : Point K) (l : List (Point K)) :
    (l.map (Point.map f)).orderedInsert (fun a b => Point.leB a b = true) (a.map f)
      = (l.orderedInsert (fun a b => Point.leB a b = true) a).map (Point.map f) := by
  induction l with
  | nil => rfl
  | cons b l ih =>
    simp only [List.map_cons, List.orderedInsert, leB_map hf]
    split
    · simp
    · simp [ih]

theorem pySort_map (l : List (Point K)) :
    pySort Point.leB (l.map (Point.map f)) = (pySort Point.leB l).map (Point.map f) := by
  unfold pySort
  induction l with
  | nil => rfl
  | cons a l ih => simp only [List.map_cons, List.insertionSort_cons, ih, orderedInsert_map hf]

omit hf in
theorem splice_map (m : Mesh K) (a b : Ref) : (m.map f).splice a b = (m.splice a b).map f := rfl

omit hf in
theorem delete_map (m : Mesh K) (e : Ref) : (m.map f).delete e = (m.delete e).map f := rfl

omit hf in
theorem fromEndpoints_map (m : Mesh K) (a b : Point K) :
    (m.map f).fromEndpoints (a.map f) (b.map f) = ((m.fromEndpoints a b).1.map f, (m.fromEndpoints a b).2) := by
  unfold Mesh.fromEndpoints Mesh.map
  simp only [Prod.mk.injEq, Mesh.mk.injEq, and_true, true_and]
  funext e
  repeat' split
  all_goals rfl

omit hf in
theorem connect_map (m : Mesh K) (a b : Ref) :
    (m.map f).connect a b = ((m.connect a b).1.map f, (m.connect a b).2) := by
  unfold Mesh.connect
  have h1 : (m.map f).stop a = (m.stop a).map f := rfl
  have h2 : (m.map f).start b = (m.start b).map f := rfl
  rw [h1, h2, fromEndpoints_map]
  rfl

theorem orientationOf_map (m : Mesh K) (e : Ref) (p : Point K) :
    (m.map f).orientationOf e (p.map f) = m.orientationOf e p := orient_map hf _ _ _

omit hf in
theorem lfs_map (m : Mesh K) (e : Ref) : (m.map f).lfs e = m.lfs e := rfl
omit hf in
theorem rfs_map (m : Mesh K) (e : Ref) : (m.map f).rfs e = m.rfs e := rfl
omit hf in
theorem lfe_map (m : Mesh K) (e : Ref) : (m.map f).lfe e = m.lfe e := rfl
omit hf in
theorem rfe_map (m : Mesh K) (e : Ref) : (m.map f).rfe e = m.rfe e := rfl
omit hf in
theorem stop_map (m : Mesh K) (e : Ref) : (m.map f).stop e = (m.stop e).map f := rfl
omit hf in
theorem start_map (m : Mesh K) (e : Ref) : (m.map f).start e = (m.start e).map f := rfl

/-- Mapping a result. -/
def exMap {α : Type} (f : K →+* F) (x : Except Exc (Mesh K × α)) : Except Exc (Mesh F × α) :=
  x.map fun r => (r.1.map f, r.2)

omit hf in
theorem exMap_bind {α β : Type} (x : Except Exc (Mesh K × α)) (g : Mesh K × α → Except Exc (Mesh K × β))
    (g' : Mesh F × α → Except Exc (Mesh F × β)) (h : ∀ m a, g' (m.map f, a) = exMap f (g (m, a))) :
    (exMap f x >>= g') = exMap f (x >>= g) := by
  rcases x with e | ⟨m, a⟩
  · rfl
  · exact h m a

theorem leftCandidateLoop_map (base : Ref) (fuel : Nat) (m : Mesh K) (r : Ref) :
    leftCandidateLoop base fuel (m.map f) r = exMap f (leftCandidateLoop base fuel m r) := by
  induction fuel generalizing m r with
  | zero => rfl
  | succ fuel ih =>
    simp only [leftCandidateLoop, lfs_map, stop_map, start_map, orientationOf_map hf, inCircle_map hf,
      delete_map, ih]
    split <;> rfl

theorem rightCandidateLoop_map (base : Ref) (fuel : Nat) (m : Mesh K) (r : Ref) :
    rightCandidateLoop base fuel (m.map f) r = exMap f (rightCandidateLoop base fuel m r) := by
  induction fuel generalizing m r with
  | zero => rfl
  | succ fuel ih =>
    simp only [rightCandidateLoop, rfs_map, stop_map, start_map, orientationOf_map hf, inCircle_map hf,
      delete_map, ih]
    split <;> rfl

theorem toLeftCandidate_map (fuel : Nat) (m : Mesh K) (base : Ref) :
    toLeftCandidate fuel (m.map f) base = exMap f (toLeftCandidate fuel m base) := by
  simp only [toLeftCandidate, lfs_map, stop_map, orientationOf_map hf, leftCandidateLoop_map hf]
  split
  · rfl
  · exact exMap_bind _ _ _ fun _ _ => rfl

theorem toRightCandidate_map (fuel : Nat) (m : Mesh K) (base : Ref) :
    toRightCandidate fuel (m.map f) base = exMap f (toRightCandidate fuel m base) := by
  simp only [toRightCandidate, rfs_map, stop_map, orientationOf_map hf, rightCandidateLoop_map hf]
  split
  · rfl
  · exact exMap_bind _ _ _ fun _ _ => rfl

/-- Mapping a mesh. -/
def exMap1 (f : K →+* F) (x : Except Exc (Mesh K)) : Except Exc (Mesh F) := x.map (Mesh.map f)

omit hf in
theorem exMap_bind1 {α : Type} (x : Except Exc (Mesh K × α)) (g : Mesh K × α → Except Exc (Mesh K))
    (g' : Mesh F × α → Except Exc (Mesh F)) (h : ∀ m a, g' (m.map f, a) = exMap1 f (g (m, a))) :
    (exMap f x >>= g') = exMap1 f (x >>= g) := by
  rcases x with e | ⟨m, a⟩
  · rfl
  · exact h m a

omit hf in
theorem exMap1_bind {β : Type} (x : Except Exc (Mesh K)) (g : Mesh K → Except Exc (Mesh K × β))
    (g' : Mesh F → Except Exc (Mesh F × β)) (h : ∀ m, g' (m.map f) = exMap f (g m)) :
    (exMap1 f x >>= g') = exMap f (x >>= g) := by
  rcases x with e | m
  · rfl
  · exact h m

theorem connectLoop_map (inner fuel : Nat) (m : Mesh K) (base : Ref) :
    connectLoop inner fuel (m.map f) base = exMap1 f (connectLoop inner fuel m base) := by
  induction fuel generalizing m base with
  | zero => rfl
  | succ fuel ih =>
    simp only [connectLoop, toLeftCandidate_map hf]
    refine exMap_bind1 _ _ _ fun m1 l => ?_
    dsimp only
    rw [toRightCandidate_map hf]
    refine exMap_bind1 _ _ _ fun m2 r => ?_
    rcases l with _ | l <;> rcases r with _ | r <;> dsimp only
    · rfl
    · rw [connect_map]; exact ih _ _
    · rw [connect_map]; exact ih _ _
    · simp only [stop_map, start_map, inCircle_map hf, connect_map]
      split <;> exact ih _ _

theorem findBaseLoop_map (m : Mesh K) (fuel : Nat) (r l : Ref) :
    findBaseLoop (m.map f) fuel r l = findBaseLoop m fuel r l := by
  induction fuel generalizing r l with
  | zero => rfl
  | succ fuel ih =>
    simp only [findBaseLoop, lfe_map, rfe_map, start_map, orientationOf_map hf, ih]

theorem mergeTri_map (fuel : Nat) (m : Mesh K) (s o : Tri) :
    mergeTri fuel (m.map f) s o = exMap f (mergeTri fuel m s o) := by
  unfold mergeTri
  rw [findBaseLoop_map hf]
  rcases findBaseLoop m fuel s.rightSide o.leftSide with e | ⟨r, l⟩
  · rfl
  · simp only [Bind.bind, Except.bind, connect_map, start_map, Point.map_inj hf, connectLoop_map hf]
    rcases connectLoop fuel fuel (m.connect l.opp r).1 (m.connect l.opp r).2 with e | m1 <;> rfl

theorem triangulateThree_map (m : Mesh K) (a b c : Point K) :
    triangulateThree (m.map f) (a.map f) (b.map f) (c.map f)
      = ((triangulateThree m a b c).1.map f, (triangulateThree m a b c).2) := by
  unfold triangulateThree
  simp only [fromEndpoints_map, splice_map, orientationOf_map hf, connect_map]
  split <;> rfl

theorem initTri_map (m : Mesh K) (pts : List (Point K)) :
    initTri (m.map f) (pts.map (Point.map f)) = exMap f (initTri m pts) := by
  rcases pts with _ | ⟨a, _ | ⟨b, _ | ⟨c, _ | ⟨d, l⟩⟩⟩⟩
  · rfl
  · rfl
  · show pure (triangulateTwo _ _ _) = _
    unfold triangulateTwo
    rw [fromEndpoints_map]; rfl
  · show pure (triangulateThree _ _ _ _) = _
    rw [triangulateThree_map hf]; rfl
  · rfl

theorem initParts_map (m : Mesh K) (pts : List (Point K)) (ns : List Nat) :
    initParts (m.map f) (pts.map (Point.map f)) ns = exMap f (initParts m pts ns) := by
  induction ns generalizing m pts with
  | nil => rfl
  | cons n ns ih =>
    simp only [initParts, ← List.map_take, ← List.map_drop, initTri_map hf]
    refine exMap_bind _ _ _ fun m1 t => ?_
    dsimp only
    rw [ih]
    exact exMap_bind _ _ _ fun _ _ => rfl

theorem mergeRound_map (fuel : Nat) (m : Mesh K) (ts : List Tri) :
    mergeRound fuel (m.map f) ts = exMap f (mergeRound fuel m ts) := by
  induction ts using List.twoStepInduction generalizing m with
  | nil => rfl
  | singleton t => rfl
  | cons_cons a b rest ih _ =>
    simp only [mergeRound, mergeTri_map hf]
    refine exMap_bind _ _ _ fun m1 t => ?_
    dsimp only
    rw [ih]
    exact exMap_bind _ _ _ fun _ _ => rfl

theorem mergeRounds_map (fuel : Nat) (m : Mesh K) (k : Nat) (ts : List Tri) :
    mergeRounds fuel (m.map f) k ts = exMap f (mergeRounds fuel m k ts) := by
  induction k generalizing m ts with
  | zero => rfl
  | succ k ih =>
    simp only [mergeRounds, mergeRound_map hf]
    exact exMap_bind _ _ _ fun _ _ => ih _ _

theorem delaunay_map (fuel : Nat) (parts : List Nat) (pts : List (Point K)) :
    delaunay fuel parts (pts.map (Point.map f)) = exMap f (delaunay fuel parts pts) := by
  simp only [delaunay, pySort_map hf]
  have h0 : Mesh.empty ((pts.map (Point.map f)).headD default) =
      (Mesh.empty (pts.headD default)).map f := by
    rcases pts with _ | ⟨p, l⟩ <;> simp [Mesh.empty, Mesh.map, Point.map, default]
  rw [h0, initParts_map hf]
  refine exMap_bind _ _ _ fun m ts => ?_
  dsimp only
  rw [mergeRounds_map hf]
  refine exMap_bind _ _ _ fun m ts => ?_
  rcases ts with _ | ⟨t, ts⟩ <;> rfl

end

end HG
