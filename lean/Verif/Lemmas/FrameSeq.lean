import Verif.Lemmas.Frame

/-!
# Change of coordinates: vertex sequences, multicontours, polygons
-/

set_option linter.unusedSectionVars false

namespace HG

section
variable {K L : Type} [LinearOrder K] [Zero K] [Add K] [Sub K] [Predicates K]
  [LinearOrder L] [Zero L] [Add L] [Sub L] [Predicates L]

theorem pyGet_map {α β : Type} (f : α → β) (l : List α) (i : Int) :
    pyGet (l.map f) i = (pyGet l i).map f := by
  unfold pyGet
  simp only [List.length_map, List.getElem?_map]
  repeat' split
  all_goals rfl

theorem pyGet_some {α : Type} {l : List α} {i : Int} (h1 : -(l.length : Int) ≤ i) (h2 : i < l.length) :
    ∃ a, pyGet l i = some a := by
  unfold pyGet
  split
  · exact ⟨_, List.getElem?_eq_getElem (by omega)⟩
  · rw [if_pos (by omega)]
    exact ⟨_, List.getElem?_eq_getElem (by omega)⟩

theorem map_eraseIdx' {α β : Type} (f : α → β) (l : List α) (i : Nat) :
    (l.map f).eraseIdx i = (l.eraseIdx i).map f := by
  induction l generalizing i with
  | nil => rfl
  | cons a l ih => cases i <;> simp [ih]

theorem pyDel_map {α β : Type} (f : α → β) (l : List α) (i : Int) :
    pyDel (l.map f) i = (pyDel l i).map (List.map f) := by
  unfold pyDel
  simp only [List.length_map]
  repeat' split
  all_goals simp [map_eraseIdx']

namespace Frame

variable (T : Frame K L)

theorem pyAt_pt {l : List (Point K)} {i : Int} (h1 : -(l.length : Int) ≤ i) (h2 : i < l.length) :
    pyAt (l.map T.pt) i = T.pt (pyAt l i) := by
  obtain ⟨a, ha⟩ := pyGet_some h1 h2
  unfold pyAt
  rw [pyGet_map, ha]
  rfl

theorem pyDelAt_pt (l : List (Point K)) (i : Int) : pyDelAt (l.map T.pt) i = (pyDelAt l i).map T.pt := by
  unfold pyDelAt
  rw [pyDel_map]
  cases pyDel l i <;> rfl

/-! ## `compress_contour` -/

theorem compressInner1_pt {k : Nat} (hk : 0 < k) (n : Nat) (l : List (Point K)) :
    compressInner1 k n (l.map T.pt) = (compressInner1 k n l).map T.pt := by
  induction n generalizing l with
  | zero => rfl
  | succ n ih =>
    unfold compressInner1
    by_cases h : max 2 k < l.length
    · rw [T.pyAt_pt (by omega) (by omega), T.pyAt_pt (by omega) (by omega),
        T.pyAt_pt (by omega) (by omega), orient_pt, List.length_map, pyDelAt_pt, ih]
      split <;> rfl
    · rw [if_neg (by rw [List.length_map]; exact fun hh => h hh.1), if_neg fun hh => h hh.1]

theorem compressPass1_pt (k : Nat) (l : List (Point K)) :
    compressPass1 k (l.map T.pt) = (compressPass1 k l).map T.pt := by
  induction k generalizing l with
  | zero => rfl
  | succ k ih =>
    unfold compressPass1
    rw [List.length_map, T.compressInner1_pt (Nat.succ_pos k), ih]

theorem compressInner2_pt (i n : Nat) (l : List (Point K)) :
    compressInner2 i n (l.map T.pt) = (compressInner2 i n l).map T.pt := by
  induction n generalizing l with
  | zero => rfl
  | succ n ih =>
    unfold compressInner2
    by_cases h : max 2 i < l.length
    · rw [T.pyAt_pt (by omega) (by omega), T.pyAt_pt (by omega) (by omega),
        T.pyAt_pt (by omega) (by omega), orient_pt, List.length_map, pyDelAt_pt, ih]
      split <;> rfl
    · rw [if_neg (by rw [List.length_map]; exact fun hh => h hh.1), if_neg fun hh => h hh.1]

theorem compressPass2_pt (n i : Nat) (l : List (Point K)) :
    compressPass2 n i (l.map T.pt) = (compressPass2 n i l).map T.pt := by
  induction n generalizing i l with
  | zero => rfl
  | succ n ih =>
    unfold compressPass2
    rw [List.length_map, compressInner2_pt, ih]
    split <;> rfl

theorem compress_pt (l : List (Point K)) :
    compressContour (l.map T.pt) = (compressContour l).map T.pt := by
  unfold compressContour
  rw [List.length_map, compressPass1_pt, compressPass2_pt]

/-! ## Keyed sets -/

def key (k : EdgeKey K) : EdgeKey L := (k.1, T.pt k.2.1, T.pt k.2.2)

theorem key_eq {a b : EdgeKey K} : T.key a = T.key b ↔ a = b := by
  unfold key
  rw [Prod.ext_iff, Prod.ext_iff, Prod.ext_iff, Prod.ext_iff]
  simp only [pt_eq]

theorem keyLt_key (a b : EdgeKey K) : keyLt (T.key a) (T.key b) = keyLt a b := by
  unfold keyLt key
  simp only [ltB_pt, pt_eq]

def ks (s : KeyedSet K) : KeyedSet L := s.map fun p => (T.key p.1, p.2)

theorem ks_add (k : EdgeKey K) (e : Ref) (s : KeyedSet K) :
    KeyedSet.add (T.key k) e (T.ks s) = T.ks (KeyedSet.add k e s) := by
  induction s with
  | nil => rfl
  | cons a s ih =>
    obtain ⟨k', e'⟩ := a
    show KeyedSet.add (T.key k) e ((T.key k', e') :: T.ks s) = _
    simp only [KeyedSet.add, keyLt_key, key_eq, ih]
    split
    · rfl
    · split <;> rfl

theorem ks_pop (s : KeyedSet K) :
    (T.ks s).popmax = s.popmax.map fun r => (r.1, T.ks r.2) := by
  unfold KeyedSet.popmax ks
  rw [List.getLast?_map]
  cases s.getLast? with
  | none => rfl
  | some p => simp [List.map_dropLast]

def bks (b : Buckets K) : Buckets L := b.map T.ks

theorem bks_length (b : Buckets K) : (T.bks b).length = b.length := List.length_map _

theorem bks_getD (b : Buckets K) (i : Nat) : (T.bks b).getD i [] = T.ks (b.getD i []) := by
  unfold bks
  rw [List.getD_eq_getElem?_getD, List.getD_eq_getElem?_getD, List.getElem?_map]
  cases b[i]? <;> rfl

theorem bks_set (b : Buckets K) (i : Nat) (s : KeyedSet K) :
    (T.bks b).set i (T.ks s) = T.bks (b.set i s) := by
  unfold bks
  rw [List.map_set]

theorem bks_empty : List.replicate 5 ([] : KeyedSet L) = T.bks (List.replicate 5 ([] : KeyedSet K)) := rfl

/-! ## Tests on edges -/

theorem isCol_eq (m : Mesh K) (e : Ref) (p : Point K) : isCol (T.mesh m) e (T.pt p) = isCol m e p := by
  unfold isCol; rw [mesh_ori]

theorem isCcw_eq (m : Mesh K) (e : Ref) (p : Point K) : isCcw (T.mesh m) e (T.pt p) = isCcw m e p := by
  unfold isCcw; rw [mesh_ori]

theorem diag_eq (m : Mesh K) (e : Ref) :
    isConvexQuadDiagonal (T.mesh m) e = isConvexQuadDiagonal m e := by
  simp only [isConvexQuadDiagonal, mesh_rfs, mesh_lfs, mesh_lfe, mesh_rfe, mesh_start, mesh_stop, isCcw_eq]

theorem weight_eq (m : Mesh K) (e : Ref) (n : Nat) (c : Ref) (w : Nat) :
    edgeWeightLoop (T.mesh m) e n c w = edgeWeightLoop m e n c w := by
  induction n generalizing c w with
  | zero => rfl
  | succ n ih => simp only [edgeWeightLoop, diag_eq, mesh_lfe, mesh_rfe, mesh_lfs, ih]

theorem edgeKey_eq (n : Nat) (m : Mesh K) (e : Ref) :
    edgeKey n (T.mesh m) e = (edgeKey n m e).map T.key := by
  unfold edgeKey
  rw [weight_eq]
  exact exc_nat' fun _ => rfl

theorem mouthInc_eq (m : Mesh K) (e : Ref) : mouthToIncrement (T.mesh m) e = mouthToIncrement m e := by
  simp only [mouthToIncrement, mesh_rfs, mesh_lfs, mesh_lfe, mesh_rfe, mesh_stop, isCol_eq]

theorem earInc_eq (m : Mesh K) (e : Ref) : earToIncrement (T.mesh m) e = earToIncrement m e := by
  simp only [earToIncrement, mesh_rfs, mesh_rfe, mesh_stop, mesh_start, isCol_eq]

theorem isEar_eq (m : Mesh K) (e : Ref) : isEar (T.mesh m) e = isEar m e := by
  simp only [isEar, mesh_rfe, mesh_lfe, mesh_lfs, mesh_stop, isCcw_eq, diag_eq]
  rfl

theorem isMouth_eq (m : Mesh K) (e : Ref) (l : List (Point K)) :
    isMouth (T.mesh m) e (l.map T.pt) = isMouth m e l := by
  simp only [isMouth, mesh_start, mesh_lfs, mesh_stop, mem_pt]

theorem bks_add (n : Nat) (m : Mesh K) (b : Buckets K) (i : Int) (e : Ref) :
    Buckets.add n (T.mesh m) (T.bks b) i e = (Buckets.add n m b i e).map T.bks := by
  unfold Buckets.add
  rw [bks_length]
  split
  · rfl
  · simp only [edgeKey_eq]
    refine exc_nat fun k => ?_
    show Except.ok _ = Except.ok _
    congr 1
    unfold bks
    apply List.ext_getElem?
    intro j
    simp only [List.getElem?_modify, List.getElem?_map]
    cases b[j]? with
    | none => simp
    | some s =>
      by_cases h : i.toNat = j
      · simp [h, ks_add]
      · simp [h]

theorem mouths_eq (n : Nat) (m : Mesh K) (l : List Ref) :
    toMouthsIncrements n (T.mesh m) l = (toMouthsIncrements n m l).map T.bks := by
  unfold toMouthsIncrements
  rw [T.bks_empty]
  exact foldlM_nat l (fun b a => by rw [mouthInc_eq, bks_add]) _

theorem ears_eq (n : Nat) (m : Mesh K) (l : List Ref) :
    toEarsIncrements n (T.mesh m) l = (toEarsIncrements n m l).map T.bks := by
  unfold toEarsIncrements
  rw [T.bks_empty]
  exact foldlM_nat l (fun b a => by rw [earInc_eq, bks_add]) _

theorem target_eq (b : Buckets K) (k : Nat) (i : Int) :
    targetIncrement (T.bks b) k i = targetIncrement b k i := by
  unfold targetIncrement
  simp only [bks_length, bks_getD]
  have : ∀ s : KeyedSet K, (T.ks s).isEmpty = s.isEmpty := fun s => by cases s <;> rfl
  simp only [this]

theorem ks_length (s : KeyedSet K) : (T.ks s).length = s.length := List.length_map _

theorem insert_pt (p : Point K) (l : List (Point K)) :
    insertSet (T.pt p) (l.map T.pt) = (insertSet p l).map T.pt := by
  unfold insertSet
  simp only [mem_pt]
  split <;> simp

theorem delete_eq (m : Mesh K) (t : Tri) (e : Ref) :
    Tri.delete (T.mesh m) t e = (Tri.delete m t e).map T.mp := by
  unfold Tri.delete
  simp only [mesh_rfe, mesh_lfs, mesh_delete]
  refine exc_nat' fun t => ?_
  exact exc_nat' fun t => rfl

/-! ## Loops -/

def mouthState (s : MouthState K) : MouthState L :=
  { mesh := T.mesh s.mesh, tri := s.tri, boundaryPoints := s.boundaryPoints.map T.pt
    candidates := s.candidates, buckets := T.bks s.buckets, left := s.left }

def st {S S' α : Type} (f : S → S') (r : S × α) : S' × α := (f r.1, r.2)

theorem neg_eq (inner n : Nat) (s : MouthState K) :
    mouthLoopNeg inner n (T.mouthState s) = (mouthLoopNeg inner n s).map (st T.mouthState) := by
  induction n generalizing s with
  | zero => rfl
  | succ n ih =>
    unfold mouthLoopNeg
    simp only [mouthState, bks_getD, ks_pop]
    cases hp : (s.buckets.getD 0 []).popmax with
    | none => rfl
    | some r =>
      obtain ⟨c, rest⟩ := r
      simp only [Option.map_some, bks_set, mouthInc_eq, isMouth_eq]
      split
      · rfl
      · refine exc_nat' fun b => ?_
        cases b
        · exact ih { s with buckets := s.buckets.set 0 rest }
        · simp only [if_true, mesh_lfe, mesh_rfs, mesh_stop, mem_pt, diag_eq, mesh_flip, mouthInc_eq]
          split
          · rfl
          · exact exc_nat' fun cs => ih { s with buckets := s.buckets.set 0 rest, candidates := cs }

theorem pos_eq (inner target n : Nat) (s : MouthState K) :
    mouthLoopPos inner target n (T.mouthState s) =
      (mouthLoopPos inner target n s).map (st T.mouthState) := by
  induction n generalizing s with
  | zero => rfl
  | succ n ih =>
    unfold mouthLoopPos
    simp only [mouthState, bks_getD, ks_pop]
    cases hp : (s.buckets.getD (target + 1) []).popmax with
    | none => rfl
    | some r =>
      obtain ⟨c, rest⟩ := r
      simp only [Option.map_some, bks_set, isMouth_eq]
      refine exc_nat' fun b => ?_
      simp only [mesh_lfe, mesh_rfs, mesh_stop, mem_pt, diag_eq, mesh_flip]
      split
      · exact exc_nat' fun cs =>
          ih { s with buckets := s.buckets.set (target + 1) rest, candidates := cs }
      · cases b
        · simp only [Bool.false_eq_true, if_false, mouthInc_eq, bks_add]
          split
          · rfl
          · refine exc_nat fun b => ?_
            exact ih { s with buckets := b, mesh := s.mesh.flip (s.mesh.lfe c) }
        · simp only [if_true, mouthInc_eq, bks_add]
          split
          · rfl
          · refine exc_nat fun b => ?_
            exact ih { s with buckets := b }

theorem mouthDelete_eq (n : Nat) (s : MouthState K) (c : Ref) (a b : Int) :
    mouthDelete n (T.mouthState s) c a b = (mouthDelete n s c a b).map T.mouthState := by
  unfold mouthDelete
  split
  · rfl
  · simp only [mouthState, isMouth_eq]
    refine exc_nat' fun x => ?_
    cases x
    · rfl
    simp only [if_true]
    simp only [mesh_lfs, mesh_stop, insert_pt, mesh_nbr]
    refine exc_nat' fun cs => ?_
    simp only [delete_eq]
    refine exc_nat fun ⟨m, t⟩ => ?_
    dsimp only [mp]
    refine exc_nat2 (foldlM_nat (φ := fun p => (p.1, T.bks p.2)) _ ?_ (cs, s.buckets)) fun ⟨c, b⟩ => rfl
    rintro ⟨c, b⟩ e
    dsimp only
    rw [mouthInc_eq, bks_add]
    exact exc_nat fun _ => rfl

theorem mouthLoop_eq (o : EdgeOrder) (inner n : Nat) (s : MouthState K) :
    mouthLoop o inner n (T.mouthState s) = (mouthLoop o inner n s).map T.mouthState := by
  induction n generalizing s with
  | zero => rfl
  | succ n ih =>
    unfold mouthLoop
    have e1 : (T.mouthState s).left = s.left := rfl
    have e2 : (T.mouthState s).buckets = T.bks s.buckets := rfl
    rw [e1, e2, target_eq]
    split
    · split
      · simp only [bks_getD, ks_length, neg_eq]
        refine exc_nat fun ⟨s1, r⟩ => ?_
        dsimp only [st]
        split
        · rfl
        · rw [mouthDelete_eq]
          exact exc_nat fun s2 => ih s2
      · simp only [bks_getD, ks_length, pos_eq]
        refine exc_nat fun ⟨s1, r⟩ => ?_
        dsimp only [st]
        split
        · show (toMouthsIncrements inner (T.mesh s1.mesh) (o.order s1.candidates) >>= _) = _
          rw [mouths_eq]
          exact exc_nat fun b => ih { s1 with buckets := b }
        · rw [mouthDelete_eq]
          exact exc_nat fun s2 => ih s2
    · rfl

def earState (s : EarState K) : EarState L :=
  { mesh := T.mesh s.mesh, tri := s.tri, candidates := s.candidates, buckets := T.bks s.buckets
    left := s.left }

theorem earInner_eq (inner target n : Nat) (s : EarState K) :
    earLoopInner inner target n (T.earState s) =
      (earLoopInner inner target n s).map (st T.earState) := by
  induction n generalizing s with
  | zero => rfl
  | succ n ih =>
    unfold earLoopInner
    simp only [earState, bks_getD, ks_pop]
    cases hp : (s.buckets.getD (target + 3) []).popmax with
    | none => rfl
    | some r =>
      obtain ⟨c, rest⟩ := r
      simp only [Option.map_some, bks_set, isEar_eq, earInc_eq, bks_add]
      split
      · exact exc_nat' fun cs =>
          ih { s with buckets := s.buckets.set (target + 3) rest, candidates := cs }
      · split
        · rfl
        · exact exc_nat fun b => ih { s with buckets := b }

theorem earFlip_eq (c : Ref) (n : Nat) (m : Mesh K) :
    earFlipLoop c n (T.mesh m) = (earFlipLoop c n m).map T.mesh := by
  induction n generalizing m with
  | zero => rfl
  | succ n ih =>
    simp only [earFlipLoop, mesh_lfe, mesh_rfe, mesh_flip, ih]
    split <;> rfl

theorem earLoop_eq (o : EdgeOrder) (inner n : Nat) (s : EarState K) :
    earLoop o inner n (T.earState s) = (earLoop o inner n s).map T.earState := by
  induction n generalizing s with
  | zero => rfl
  | succ n ih =>
    unfold earLoop
    have e1 : (T.earState s).left = s.left := rfl
    have e2 : (T.earState s).buckets = T.bks s.buckets := rfl
    rw [e1, e2, target_eq]
    split
    · split
      · rfl
      · simp only [bks_getD, ks_length, earInner_eq]
        refine exc_nat fun ⟨s1, r⟩ => ?_
        dsimp only [st]
        split
        · show (toEarsIncrements inner (T.mesh s1.mesh) (o.order s1.candidates) >>= _) = _
          rw [ears_eq]
          exact exc_nat fun b => ih { s1 with buckets := b }
        · show (earFlipLoop _ inner (T.mesh s1.mesh) >>= _) = _
          rw [earFlip_eq]
          refine exc_nat fun m => ?_
          refine exc_nat' fun c => ?_
          simp only [delete_eq]
          refine exc_nat fun ⟨m', t⟩ => ?_
          dsimp only [mp]
          rw [mesh_rfe, mesh_flip, mesh_lfs]
          exact ih { mesh := _, tri := t, candidates := _, buckets := s1.buckets, left := _ }
    · rfl

theorem border_eq (n : Nat) (m : Mesh K) (t : Tri) :
    triToBorderVertices n (T.mesh m) t = (triToBorderVertices n m t).map (List.map T.pt) := by
  unfold triToBorderVertices
  rw [boundaryEdges_eq]
  refine exc_nat' fun es => ?_
  have : es.map (T.mesh m).start = (es.map m.start).map T.pt := by simp [mesh_start]
  rw [this, compress_pt]
  rfl

theorem toVertexSequence_eq (n : Nat) (coins : Nat → List Nat) (o : EdgeOrder)
    (pts : List (Point K)) (size : Int) :
    toVertexSequence n coins o (pts.map T.pt) size =
      (toVertexSequence n coins o pts size).map (List.map T.pt) := by
  unfold toVertexSequence
  rw [List.length_map, delaunay_eq]
  refine exc_nat fun ⟨m, t⟩ => ?_
  dsimp only [mp]
  rw [boundaryEdges_eq]
  refine exc_nat' fun es => ?_
  unfold toVertexSequence'
  have e1 : es.map (T.mesh m).start = (es.map m.start).map T.pt := by simp [mesh_start]
  simp only [e1, compress_pt, List.length_map, mouths_eq, List.dedup_map_of_injective T.pt_inj]
  split
  · rfl
  · refine exc_nat fun b => ?_
    refine exc_nat2 (T.mouthLoop_eq o n n { mesh := m, tri := t, boundaryPoints := (es.map m.start).dedup
                                            candidates := es, buckets := b
                                            left := size - (compressContour (es.map m.start)).length })
      fun s => ?_
    dsimp only [mouthState]
    simp only [boundaryEdges_eq]
    refine exc_nat' fun ec => ?_
    rw [ears_eq]
    refine exc_nat fun eb => ?_
    refine exc_nat2 (T.earLoop_eq o n n { mesh := s.mesh, tri := s.tri, candidates := ec
                                          buckets := eb, left := s.left }) fun s' => ?_
    exact T.border_eq n s'.mesh s'.tri

end Frame
end
end HG
