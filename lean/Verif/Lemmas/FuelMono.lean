import Verif.Model.Factories2

/-!
# A greater budget changes nothing but exhausted budgets
-/

set_option linter.unusedSectionVars false

namespace HG

/-- The second computation gives the result of the first one unless the budget of the first one is
exhausted. -/
def Sub {α : Type} (a b : Except Exc α) : Prop := a = .error .outOfFuel ∨ a = b

theorem Sub.refl {α : Type} (a : Except Exc α) : Sub a a := .inr rfl

theorem Sub.fuel {α : Type} (b : Except Exc α) : Sub (throw Exc.outOfFuel) b := .inl rfl

theorem Sub.bind {α β : Type} {a b : Except Exc α} {f g : α → Except Exc β} (h : Sub a b)
    (hf : ∀ x, Sub (f x) (g x)) : Sub (a >>= f) (b >>= g) := by
  rcases h with h | h
  · rw [h]; exact .inl rfl
  · subst h
    cases a with
    | error e => exact .inr rfl
    | ok x => exact hf x

theorem Sub.ite {α : Type} {c : Prop} [Decidable c] {a b a' b' : Except Exc α} (h : Sub a a')
    (h' : Sub b b') : Sub (if c then a else b) (if c then a' else b') := by
  split
  · exact h
  · exact h'

theorem Sub.foldlM {α β : Type} {f g : β → α → Except Exc β} (h : ∀ b a, Sub (f b a) (g b a))
    (l : List α) (b : β) : Sub (l.foldlM f b) (l.foldlM g b) := by
  induction l generalizing b with
  | nil => exact .refl _
  | cons a l ih =>
    rw [List.foldlM_cons, List.foldlM_cons]
    exact (h b a).bind ih

/-- If the second computation succeeds, then the first one can fail only for lack of budget. -/
theorem Sub.err {α : Type} {a b : Except Exc α} (h : Sub a b) {y : α} (hb : b = .ok y) {e : Exc}
    (ha : a = .error e) : e = .outOfFuel := by
  rcases h with h | h
  · rw [h] at ha
    simpa using ha.symm
  · rw [h, hb] at ha
    simp at ha

section
variable {K : Type} [LinearOrder K] [Zero K] [Add K] [_root_.Sub K] [Predicates K]

theorem leftCandidateLoop_sub (base : Ref) {f f' : Nat} (h : f ≤ f') (m : Mesh K) (r : Ref) :
    Sub (leftCandidateLoop base f m r) (leftCandidateLoop base f' m r) := by
  induction f generalizing f' m r with
  | zero => exact .fuel _
  | succ f ih =>
    obtain ⟨k, rfl⟩ := Nat.exists_eq_add_of_le h
    rw [Nat.add_right_comm, leftCandidateLoop, leftCandidateLoop]
    exact .ite (ih (by omega) _ _) (.refl _)

theorem rightCandidateLoop_sub (base : Ref) {f f' : Nat} (h : f ≤ f') (m : Mesh K) (r : Ref) :
    Sub (rightCandidateLoop base f m r) (rightCandidateLoop base f' m r) := by
  induction f generalizing f' m r with
  | zero => exact .fuel _
  | succ f ih =>
    obtain ⟨k, rfl⟩ := Nat.exists_eq_add_of_le h
    rw [Nat.add_right_comm, rightCandidateLoop, rightCandidateLoop]
    exact .ite (ih (by omega) _ _) (.refl _)

theorem toLeftCandidate_sub {f f' : Nat} (h : f ≤ f') (m : Mesh K) (r : Ref) :
    Sub (toLeftCandidate f m r) (toLeftCandidate f' m r) := by
  unfold toLeftCandidate
  exact .ite (.refl _) ((leftCandidateLoop_sub r h _ _).bind fun _ => .refl _)

theorem toRightCandidate_sub {f f' : Nat} (h : f ≤ f') (m : Mesh K) (r : Ref) :
    Sub (toRightCandidate f m r) (toRightCandidate f' m r) := by
  unfold toRightCandidate
  exact .ite (.refl _) ((rightCandidateLoop_sub r h _ _).bind fun _ => .refl _)

theorem connectLoop_sub {i i' f f' : Nat} (hi : i ≤ i') (h : f ≤ f') (m : Mesh K) (base : Ref) :
    Sub (connectLoop i f m base) (connectLoop i' f' m base) := by
  induction f generalizing f' m base with
  | zero => exact .fuel _
  | succ f ih =>
    obtain ⟨k, rfl⟩ := Nat.exists_eq_add_of_le h
    rw [Nat.add_right_comm, connectLoop, connectLoop]
    refine (toLeftCandidate_sub hi _ _).bind fun ⟨m, l⟩ =>
      (toRightCandidate_sub hi _ _).bind fun ⟨m, r⟩ => ?_
    have ih' := fun m base => ih (f' := f + k) (by omega) m base
    cases l <;> cases r
    · exact .refl _
    · exact ih' _ _
    · exact ih' _ _
    · exact .ite (ih' _ _) (ih' _ _)

theorem findBaseLoop_sub (m : Mesh K) {f f' : Nat} (h : f ≤ f') (r l : Ref) :
    Sub (findBaseLoop m f r l) (findBaseLoop m f' r l) := by
  induction f generalizing f' r l with
  | zero => exact .fuel _
  | succ f ih =>
    obtain ⟨k, rfl⟩ := Nat.exists_eq_add_of_le h
    rw [Nat.add_right_comm, findBaseLoop, findBaseLoop]
    exact .ite (ih (by omega) _ _) (.ite (ih (by omega) _ _) (.refl _))

theorem mergeTri_sub {f f' : Nat} (h : f ≤ f') (m : Mesh K) (s o : Tri) :
    Sub (mergeTri f m s o) (mergeTri f' m s o) := by
  unfold mergeTri
  refine (findBaseLoop_sub m h _ _).bind fun ⟨r, l⟩ => ?_
  exact (connectLoop_sub h h _ _).bind fun _ => .refl _

theorem mergeRound_sub {f f' : Nat} (h : f ≤ f') (m : Mesh K) (ts : List Tri) :
    Sub (mergeRound f m ts) (mergeRound f' m ts) := by
  match ts with
  | [] => exact .refl _
  | [a] => exact .refl _
  | a :: b :: rest =>
    rw [mergeRound, mergeRound]
    exact (mergeTri_sub h _ _ _).bind fun ⟨m, t⟩ => (mergeRound_sub h m rest).bind fun _ => .refl _

theorem mergeRounds_sub {f f' : Nat} (h : f ≤ f') (m : Mesh K) (n : Nat) (ts : List Tri) :
    Sub (mergeRounds f m n ts) (mergeRounds f' m n ts) := by
  induction n generalizing m ts with
  | zero => exact .refl _
  | succ n ih =>
    rw [mergeRounds, mergeRounds]
    exact (mergeRound_sub h _ _).bind fun ⟨m, t⟩ => ih m t

theorem delaunay_sub {f f' : Nat} (h : f ≤ f') (parts : List Nat) (pts : List (Point K)) :
    Sub (delaunay f parts pts) (delaunay f' parts pts) := by
  unfold delaunay
  exact (Sub.refl _).bind fun ⟨m, ts⟩ => (mergeRounds_sub h _ _ _).bind fun _ => .refl _

theorem boundaryLoop_sub (m : Mesh K) (s : Ref) {f f' : Nat} (h : f ≤ f') (c : Ref) :
    Sub (boundaryLoop m s f c) (boundaryLoop m s f' c) := by
  induction f generalizing f' c with
  | zero => exact .fuel _
  | succ f ih =>
    obtain ⟨k, rfl⟩ := Nat.exists_eq_add_of_le h
    rw [Nat.add_right_comm, boundaryLoop, boundaryLoop]
    exact .ite (.refl _) ((ih (by omega) _).bind fun _ => .refl _)

theorem boundaryEdges_sub (m : Mesh K) (t : Tri) {f f' : Nat} (h : f ≤ f') :
    Sub (boundaryEdges f m t) (boundaryEdges f' m t) := boundaryLoop_sub m _ h _

theorem edgeWeightLoop_sub (m : Mesh K) (e : Ref) {f f' : Nat} (h : f ≤ f') (c : Ref) (w : Nat) :
    Sub (edgeWeightLoop m e f c w) (edgeWeightLoop m e f' c w) := by
  induction f generalizing f' c w with
  | zero => exact .fuel _
  | succ f ih =>
    obtain ⟨k, rfl⟩ := Nat.exists_eq_add_of_le h
    rw [Nat.add_right_comm, edgeWeightLoop, edgeWeightLoop]
    have key := fun w => Sub.ite (c := m.lfs c = e) (Sub.refl (pure w))
      (ih (f' := f + k) (by omega) (m.lfs c) w)
    exact .ite ((Sub.refl _).bind fun _ => key _) (key _)

theorem edgeKey_sub (m : Mesh K) (e : Ref) {f f' : Nat} (h : f ≤ f') :
    Sub (edgeKey f m e) (edgeKey f' m e) := (edgeWeightLoop_sub m e h _ _).bind fun _ => .refl _

theorem bucketsAdd_sub (m : Mesh K) {f f' : Nat} (h : f ≤ f') (b : Buckets K) (i : Int) (e : Ref) :
    Sub (Buckets.add f m b i e) (Buckets.add f' m b i e) := by
  unfold Buckets.add
  have key : ∀ g : EdgeKey K → Except Exc (Buckets K),
      Sub (edgeKey f m e >>= g) (edgeKey f' m e >>= g) :=
    fun g => (edgeKey_sub m e h).bind fun _ => .refl _
  exact .ite ((Sub.refl _).bind fun _ => key _) (key _)

theorem toMouthsIncrements_sub (m : Mesh K) {f f' : Nat} (h : f ≤ f') (l : List Ref) :
    Sub (toMouthsIncrements f m l) (toMouthsIncrements f' m l) :=
  Sub.foldlM (fun _ _ => bucketsAdd_sub m h _ _ _) _ _

theorem toEarsIncrements_sub (m : Mesh K) {f f' : Nat} (h : f ≤ f') (l : List Ref) :
    Sub (toEarsIncrements f m l) (toEarsIncrements f' m l) :=
  Sub.foldlM (fun _ _ => bucketsAdd_sub m h _ _ _) _ _

theorem mouthLoopNeg_sub (f f' n : Nat) (s : MouthState K) :
    Sub (mouthLoopNeg f n s) (mouthLoopNeg f' n s) := by
  induction n generalizing s with
  | zero => exact .refl _
  | succ n ih =>
    rw [mouthLoopNeg, mouthLoopNeg]
    cases KeyedSet.popmax (s.buckets.getD 0 []) with
    | none => exact .refl _
    | some r =>
      refine .ite ((Sub.refl _).bind fun _ => (Sub.refl _).bind fun _ => ?_)
        ((Sub.refl _).bind fun _ => ?_) <;>
      exact .ite (.ite (.refl _) ((Sub.refl _).bind fun _ => ih _)) (ih _)

theorem mouthLoopPos_sub {f f' : Nat} (h : f ≤ f') (t n : Nat) (s : MouthState K) :
    Sub (mouthLoopPos f t n s) (mouthLoopPos f' t n s) := by
  induction n generalizing s with
  | zero => exact .refl _
  | succ n ih =>
    rw [mouthLoopPos, mouthLoopPos]
    cases KeyedSet.popmax (s.buckets.getD (t + 1) []) with
    | none => exact .refl _
    | some r =>
      exact (Sub.refl _).bind fun _ => .ite ((Sub.refl _).bind fun _ => ih _)
        (.ite (.refl _) ((bucketsAdd_sub _ h _ _ _).bind fun _ => ih _))

theorem mouthDelete_sub {f f' : Nat} (h : f ≤ f') (s : MouthState K) (c : Ref) (a t : Int) :
    Sub (mouthDelete f s c a t) (mouthDelete f' s c a t) := by
  unfold mouthDelete
  refine .ite ((Sub.refl _).bind fun _ => (Sub.refl _).bind fun _ => .ite ?_
    ((Sub.refl _).bind fun _ => ?_)) ((Sub.refl _).bind fun _ => .ite ?_
    ((Sub.refl _).bind fun _ => ?_)) <;>
  · refine (Sub.refl _).bind fun _ => (Sub.refl _).bind fun ⟨m, t⟩ => ?_
    refine Sub.bind ?_ fun _ => .refl _
    exact Sub.foldlM (fun _ _ => (bucketsAdd_sub m h _ _ _).bind fun _ => .refl _) _ _

theorem mouthLoop_sub {o : EdgeOrder} {i i' f f' : Nat} (hi : i ≤ i') (h : f ≤ f') (s : MouthState K) :
    Sub (mouthLoop o i f s) (mouthLoop o i' f' s) := by
  induction f generalizing f' s with
  | zero => exact .fuel _
  | succ f ih =>
    obtain ⟨k, rfl⟩ := Nat.exists_eq_add_of_le h
    rw [Nat.add_right_comm, mouthLoop, mouthLoop]
    have ih' := fun s => ih (f' := f + k) (by omega) s
    refine .ite ?_ (.refl _)
    cases targetIncrement s.buckets 1 s.left with
    | none =>
      refine (mouthLoopNeg_sub _ _ _ _).bind fun ⟨s, r⟩ => ?_
      cases r with
      | none => exact .refl _
      | some r => exact (mouthDelete_sub hi _ _ _ _).bind fun _ => ih' _
    | some t =>
      refine (mouthLoopPos_sub hi _ _ _).bind fun ⟨s, r⟩ => ?_
      cases r with
      | none => exact (toMouthsIncrements_sub _ hi _).bind fun _ => ih' _
      | some r => exact (mouthDelete_sub hi _ _ _ _).bind fun _ => ih' _

theorem earLoopInner_sub {f f' : Nat} (h : f ≤ f') (t n : Nat) (s : EarState K) :
    Sub (earLoopInner f t n s) (earLoopInner f' t n s) := by
  induction n generalizing s with
  | zero => exact .refl _
  | succ n ih =>
    rw [earLoopInner, earLoopInner]
    cases KeyedSet.popmax (s.buckets.getD (t + 3) []) with
    | none => exact .refl _
    | some r =>
      exact .ite ((Sub.refl _).bind fun _ => ih _)
        (.ite (.refl _) ((bucketsAdd_sub _ h _ _ _).bind fun _ => ih _))

theorem earFlipLoop_sub (c : Ref) {f f' : Nat} (h : f ≤ f') (m : Mesh K) :
    Sub (earFlipLoop c f m) (earFlipLoop c f' m) := by
  induction f generalizing f' m with
  | zero => exact .fuel _
  | succ f ih =>
    obtain ⟨k, rfl⟩ := Nat.exists_eq_add_of_le h
    rw [Nat.add_right_comm, earFlipLoop, earFlipLoop]
    exact .ite (.refl _) (ih (by omega) _)

theorem earLoop_sub {o : EdgeOrder} {i i' f f' : Nat} (hi : i ≤ i') (h : f ≤ f') (s : EarState K) :
    Sub (earLoop o i f s) (earLoop o i' f' s) := by
  induction f generalizing f' s with
  | zero => exact .fuel _
  | succ f ih =>
    obtain ⟨k, rfl⟩ := Nat.exists_eq_add_of_le h
    rw [Nat.add_right_comm, earLoop, earLoop]
    have ih' := fun s => ih (f' := f + k) (by omega) s
    refine .ite ?_ (.refl _)
    cases targetIncrement s.buckets 3 s.left with
    | none => exact .refl _
    | some t =>
      refine (earLoopInner_sub hi _ _ _).bind fun ⟨s, r⟩ => ?_
      cases r with
      | none => exact (toEarsIncrements_sub _ hi _).bind fun _ => ih' _
      | some r =>
        exact (earFlipLoop_sub _ hi _).bind fun _ => (Sub.refl _).bind fun _ =>
          (Sub.refl _).bind fun _ => ih' _

theorem triToBorderVertices_sub (m : Mesh K) (t : Tri) {f f' : Nat} (h : f ≤ f') :
    Sub (triToBorderVertices f m t) (triToBorderVertices f' m t) :=
  (boundaryEdges_sub m t h).bind fun _ => .refl _

theorem toVertexSequence_sub {o : EdgeOrder} {f f' : Nat} (h : f ≤ f') (coins : Nat → List Nat)
    (pts : List (Point K)) (size : Int) :
    Sub (toVertexSequence f coins o pts size) (toVertexSequence f' coins o pts size) := by
  unfold toVertexSequence
  refine (delaunay_sub h _ _).bind fun ⟨m, t⟩ => (boundaryEdges_sub m t h).bind fun es => ?_
  unfold toVertexSequence'
  refine .ite (.refl _) ?_
  exact (toMouthsIncrements_sub _ h _).bind fun _ => (mouthLoop_sub h h _).bind fun _ =>
    Sub.bind (.ite (boundaryEdges_sub _ _ h) (.refl _)) fun _ =>
      (toEarsIncrements_sub _ h _).bind fun _ => (earLoop_sub h h _).bind fun _ =>
        triToBorderVertices_sub _ _ h

/-- The same dependencies with another budget. -/
def Env.withFuel (env : Env K) (f : Nat) : Env K := { env with fuel := f }

theorem holeLoop_sub {env : Env K} {f : Nat} (h : env.fuel ≤ f) (l : List (Int × Bool))
    (s : HoleState K) (prior : Option Bool) :
    Sub (holeLoop env s prior l) (holeLoop (env.withFuel f) s prior l) := by
  induction l generalizing s prior with
  | nil => exact .refl _
  | cons a l ih =>
    obtain ⟨size, key⟩ := a
    simp only [holeLoop]
    exact (toVertexSequence_sub h _ _ _).bind fun _ =>
      .ite (.ite (.refl _) ((Sub.refl _).bind fun _ => ih _ _)) (ih _ _)

theorem borderLoop_sub {env : Env K} {f : Nat} (h : env.fuel ≤ f) (he : List (Segment K)) (n : Int)
    {k k' : Nat} (hk : k ≤ k') (s : BorderState K) :
    Sub (borderLoop env he n k s) (borderLoop (env.withFuel f) he n k' s) := by
  induction k generalizing k' s with
  | zero => exact .fuel _
  | succ k ih =>
    obtain ⟨j, rfl⟩ := Nat.exists_eq_add_of_le hk
    rw [Nat.add_right_comm, borderLoop, borderLoop]
    have ih' := fun s => ih (k' := k + j) (by omega) s
    refine .ite ?_ (.refl _)
    cases s.candidates.popmax with
    | none => exact .refl _
    | some r =>
      refine .ite (ih' _) ((Sub.refl _).bind fun ⟨m, t⟩ => ?_)
      dsimp only
      cases s.neighbours.lookup r.1 with
      | none => exact .refl _
      | some ns =>
        refine Sub.bind (Sub.foldlM (fun _ _ => ?_) _ _) fun _ => ih' _
        exact (edgeKey_sub m _ h).bind fun _ => .refl _

/-- A greater budget does not change the polygon. -/
theorem toPolygon_sub {env : Env K} {f : Nat} (h : env.fuel ≤ f) (pts : List (Point K)) (bs : Int)
    (hss : List Int) (ch : Nat → Bool) :
    Sub (toPolygon env pts bs hss ch) (toPolygon (env.withFuel f) pts bs hss ch) := by
  unfold toPolygon
  refine (delaunay_sub h _ _).bind fun ⟨m, t⟩ => (boundaryEdges_sub m t h).bind fun es => ?_
  refine (holeLoop_sub h _ _ _).bind fun hst => ?_
  refine Sub.bind (Sub.foldlM (fun _ _ => (edgeKey_sub m _ h).bind fun _ => .refl _) _ _) fun cs => ?_
  exact (borderLoop_sub h _ _ h _).bind fun s => (triToBorderVertices_sub _ _ h).bind fun _ => .refl _

end
end HG
