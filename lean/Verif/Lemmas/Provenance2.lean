import Verif.Lemmas.Provenance

/-!
# Provenance of vertices through the chi-algorithm and the polygon construction
-/

set_option linter.unusedSectionVars false

namespace HG

section
variable {K : Type} [LinearOrder K] [Zero K] [Add K] [Sub K] [Predicates K] {o : EdgeOrder}
variable {P : Point K → Prop} {m : Mesh K} {e : Ref}

/-- Every value of a keyed set is an edge. -/
def SetOk (m : Mesh K) (s : KeyedSet K) : Prop := ∀ x ∈ s, m.Edge x.2

/-- Every value of a family of keyed sets is an edge. -/
def BucketsOk (m : Mesh K) (b : Buckets K) : Prop := ∀ s ∈ b, SetOk m s

theorem SetOk.add {s : KeyedSet K} (h : SetOk m s) (k : EdgeKey K) (he : m.Edge e) :
    SetOk m (s.add k e) := by
  induction s with
  | nil => intro x hx; simp [KeyedSet.add] at hx; subst hx; exact he
  | cons a l ih =>
    unfold KeyedSet.add
    have hl : SetOk m l := fun x hx => h x (by simp [hx])
    split
    · intro x hx
      rcases List.mem_cons.1 hx with rfl | hx
      · exact he
      · exact h x hx
    · split
      · exact h
      · intro x hx
        rcases List.mem_cons.1 hx with rfl | hx
        · exact h _ (by simp)
        · exact ih hl x hx

theorem SetOk.popmax {s : KeyedSet K} (h : SetOk m s) {r : KeyedSet K}
    (hp : s.popmax = some (e, r)) : m.Edge e ∧ SetOk m r := by
  unfold KeyedSet.popmax at hp
  split at hp
  · simp at hp
  · rename_i k e' hl
    simp only [Option.some.injEq, Prod.mk.injEq] at hp
    obtain ⟨rfl, rfl⟩ := hp
    exact ⟨h _ (List.mem_of_getLast? hl), fun x hx => h x (List.mem_of_mem_dropLast hx)⟩

theorem BucketsOk.getD {b : Buckets K} (h : BucketsOk m b) (i : Nat) : SetOk m (b.getD i []) := by
  rcases Nat.lt_or_ge i b.length with hi | hi
  · rw [List.getD_eq_getElem _ _ hi]; exact h _ (List.getElem_mem hi)
  · rw [List.getD_eq_default _ _ hi]; intro x hx; simp at hx

theorem BucketsOk.set {b : Buckets K} (h : BucketsOk m b) (i : Nat) {s : KeyedSet K}
    (hs : SetOk m s) : BucketsOk m (b.set i s) := by
  intro t ht
  rcases List.mem_or_eq_of_mem_set ht with ht | rfl
  · exact h t ht
  · exact hs

theorem BucketsOk.add {b : Buckets K} (h : BucketsOk m b) {fuel : Nat} {i : Int} {m' : Mesh K}
    (he : m.Edge e) {b' : Buckets K} (hb : Buckets.add fuel m' b i e = .ok b') :
    BucketsOk m b' := by
  simp only [Buckets.add] at hb
  split at hb
  · simp only [exc_bind_ok, exc_throw_ok, false_and, exists_false] at hb
  simp only [exc_bind_ok, exc_pure_ok] at hb
  obtain ⟨k, -, hb⟩ := hb
  subst hb
  intro s hs
  rw [List.mem_iff_getElem] at hs
  obtain ⟨j, hj, rfl⟩ := hs
  rw [List.getElem_modify]
  have hj' : j < b.length := by simpa using hj
  have := h _ (List.getElem_mem hj')
  split
  · exact this.add k he
  · exact this

theorem BucketsOk.replicate : BucketsOk m (List.replicate 5 []) := by
  intro s hs; rw [List.eq_of_mem_replicate hs]; intro x hx; simp at hx

theorem foldlM_inv {α β : Type} (Q : β → Prop) (f : β → α → Except Exc β) (l : List α)
    (hf : ∀ b a b', a ∈ l → Q b → f b a = .ok b' → Q b') (b b' : β) (hb : Q b)
    (h : l.foldlM f b = .ok b') : Q b' := by
  induction l generalizing b with
  | nil =>
    simp only [List.foldlM_nil, exc_pure_ok] at h
    exact h ▸ hb
  | cons a l ih =>
    simp only [List.foldlM_cons, exc_bind_ok] at h
    obtain ⟨b1, h1, h2⟩ := h
    exact ih (fun b a b' ha => hf b a b' (by simp [ha])) b1 (hf b a b1 (by simp) hb h1) h2

theorem BucketsOk.mouths {fuel : Nat} {es : List Ref} (hes : ∀ e ∈ es, m.Edge e) {b : Buckets K}
    (h : toMouthsIncrements fuel m es = .ok b) : BucketsOk m b :=
  foldlM_inv (BucketsOk m) _ es (fun _ _ _ ha hb h => hb.add (hes _ ha) h) _ _
    BucketsOk.replicate h

theorem BucketsOk.ears {fuel : Nat} {es : List Ref} (hes : ∀ e ∈ es, m.Edge e) {b : Buckets K}
    (h : toEarsIncrements fuel m es = .ok b) : BucketsOk m b :=
  foldlM_inv (BucketsOk m) _ es (fun _ _ _ ha hb h => hb.add (hes _ ha) h) _ _
    BucketsOk.replicate h

theorem SetOk.of_size {m' : Mesh K} {s : KeyedSet K} (h : SetOk m s) (hs : m.size ≤ m'.size) :
    SetOk m' s := fun x hx => (h x hx).of_size hs
theorem BucketsOk.of_size {m' : Mesh K} {b : Buckets K} (h : BucketsOk m b)
    (hs : m.size ≤ m'.size) : BucketsOk m' b := fun x hx => (h x hx).of_size hs

/-- Invariant of the first loop of the chi-algorithm. -/
structure MouthState.Ok (P : Point K → Prop) (s : MouthState K) : Prop where
  good : Good P s.mesh
  tri : TriOk s.mesh s.tri
  candidates : ∀ e ∈ s.candidates, s.mesh.Edge e
  buckets : BucketsOk s.mesh s.buckets

/-- Invariant of the second loop of the chi-algorithm. -/
structure EarState.Ok (P : Point K → Prop) (s : EarState K) : Prop where
  good : Good P s.mesh
  tri : TriOk s.mesh s.tri
  candidates : ∀ e ∈ s.candidates, s.mesh.Edge e
  buckets : BucketsOk s.mesh s.buckets

theorem removeEdge_ok {s c : List Ref} (h : removeEdge e s = .ok c) : ∀ x ∈ c, x ∈ s := by
  unfold removeEdge at h
  split at h
  · simp only [exc_pure_ok] at h
    subst h
    intro x hx
    exact List.mem_of_mem_filter hx
  · simp only [exc_throw_ok] at h

theorem mem_insertSet {α : Type} [DecidableEq α] {a b : α} {s : List α} :
    b ∈ insertSet a s ↔ b = a ∨ b ∈ s := by
  unfold insertSet
  split
  · constructor
    · exact Or.inr
    · rintro (rfl | h)
      · assumption
      · exact h
  · simp [or_comm]

theorem MouthState.Ok.flip {s : MouthState K} (h : s.Ok P) (he : s.mesh.Edge e) :
    MouthState.Ok P { s with mesh := s.mesh.flip e } :=
  ⟨h.good.flip he, h.tri.of_size (by simp), fun e he => (h.candidates e he).of_size (by simp),
    h.buckets.of_size (by simp)⟩

theorem MouthState.Ok.neg {fuel : Nat} (n : Nat) {s s' : MouthState K} (hs : s.Ok P)
    {r : Option (Ref × Int)} (h : mouthLoopNeg fuel n s = .ok (s', r)) :
    s'.Ok P ∧ ∀ c i, r = some (c, i) → s'.mesh.Edge c := by
  induction n generalizing s with
  | zero =>
    simp only [mouthLoopNeg, exc_pure_ok, Prod.mk.injEq] at h
    obtain ⟨rfl, rfl⟩ := h
    exact ⟨hs, by simp⟩
  | succ n ih =>
    unfold mouthLoopNeg at h
    split at h
    · simp only [exc_throw_ok] at h
    · rename_i c rest hp
      obtain ⟨hc, hr⟩ := (hs.buckets.getD 0).popmax hp
      have hs1 : MouthState.Ok P { s with buckets := s.buckets.set 0 rest } :=
        ⟨hs.good, hs.tri, hs.candidates, hs.buckets.set 0 hr⟩
      dsimp only at h
      split at h
      · simp only [exc_bind_ok, exc_throw_ok, false_and, exists_false] at h
      simp only [exc_bind_ok] at h
      obtain ⟨b, -, h⟩ := h
      split at h
      · split at h
        · simp only [exc_pure_ok, Prod.mk.injEq] at h
          obtain ⟨rfl, rfl⟩ := h
          refine ⟨hs1.flip (hs.good.lfe hc), ?_⟩
          rintro c' i hci
          simp only [Option.some.injEq, Prod.mk.injEq] at hci
          obtain ⟨rfl, -⟩ := hci
          exact hc.of_size (by simp)
        · simp only [exc_bind_ok] at h
          obtain ⟨cs, hcs, h⟩ := h
          exact ih (by exact ⟨hs1.good, hs1.tri, fun e he => hs1.candidates e (removeEdge_ok hcs e he),
            hs1.buckets⟩) h
      · exact ih hs1 h

theorem MouthState.Ok.pos {fuel target : Nat} (n : Nat) {s s' : MouthState K} (hs : s.Ok P)
    {r : Option (Ref × Int)} (h : mouthLoopPos fuel target n s = .ok (s', r)) :
    s'.Ok P ∧ ∀ c i, r = some (c, i) → s'.mesh.Edge c := by
  induction n generalizing s with
  | zero =>
    simp only [mouthLoopPos, exc_pure_ok, Prod.mk.injEq] at h
    obtain ⟨rfl, rfl⟩ := h
    exact ⟨hs, by simp⟩
  | succ n ih =>
    unfold mouthLoopPos at h
    split at h
    · simp only [exc_throw_ok] at h
    · rename_i c rest hp
      obtain ⟨hc, hr⟩ := (hs.buckets.getD (target + 1)).popmax hp
      have hs1 : MouthState.Ok P { s with buckets := s.buckets.set (target + 1) rest } :=
        ⟨hs.good, hs.tri, hs.candidates, hs.buckets.set _ hr⟩
      simp only [exc_bind_ok] at h
      obtain ⟨mouth, -, h⟩ := h
      split at h
      · simp only [exc_bind_ok] at h
        obtain ⟨cs, hcs, h⟩ := h
        exact ih (by exact ⟨hs1.good, hs1.tri, fun e he => hs1.candidates e (removeEdge_ok hcs e he),
            hs1.buckets⟩) h
      · have key : ∀ s2 : MouthState K, s2.Ok P → s2.mesh.Edge c →
            (if mouthToIncrement s2.mesh c = target then
              pure (s2, some (c, mouthToIncrement s2.mesh c))
            else do
              let b ← Buckets.add fuel s2.mesh s2.buckets (mouthToIncrement s2.mesh c + 1) c
              mouthLoopPos fuel target n { s2 with buckets := b }) = .ok (s', r) →
            s'.Ok P ∧ ∀ c i, r = some (c, i) → s'.mesh.Edge c := by
          intro s2 hs2 hc2 h
          split at h
          · simp only [exc_pure_ok, Prod.mk.injEq] at h
            obtain ⟨rfl, rfl⟩ := h
            refine ⟨hs2, ?_⟩
            rintro c' i hci
            simp only [Option.some.injEq, Prod.mk.injEq] at hci
            obtain ⟨rfl, -⟩ := hci
            exact hc2
          · simp only [exc_bind_ok] at h
            obtain ⟨b, hb, h⟩ := h
            exact ih (by exact ⟨hs2.good, hs2.tri, hs2.candidates, hs2.buckets.add hc2 hb⟩) h
        cases mouth
        · exact key _ (hs1.flip (hs.good.lfe hc)) (hc.of_size (by simp)) h
        · exact key _ hs1 hc h

theorem Good.edgeNeighbours (g : Good P m) (he : m.Edge e) :
    ∀ n ∈ m.edgeNeighbours e, m.Edge n := by
  intro n hn
  unfold Mesh.edgeNeighbours at hn
  dsimp only at hn
  split at hn
  · simp only [List.mem_cons, List.not_mem_nil, or_false] at hn
    rcases hn with rfl | rfl
    · exact g.lfs he
    · exact g.rfe (g.lfs he)
  · simp at hn

theorem MouthState.Ok.delete {fuel : Nat} {s s' : MouthState K} (hs : s.Ok P) {c : Ref}
    (hc : s.mesh.Edge c) {actual target : Int}
    (h : mouthDelete fuel s c actual target = .ok s') : s'.Ok P := by
  simp only [mouthDelete] at h
  split at h
  · simp only [exc_bind_ok, exc_throw_ok, false_and, exists_false] at h
  simp only [exc_bind_ok] at h
  obtain ⟨b, -, h⟩ := h
  split at h
  swap
  · simp only [exc_bind_ok, exc_throw_ok, false_and, exists_false] at h
  simp only [exc_bind_ok] at h
  obtain ⟨cs, hcs, ⟨m', t'⟩, hd, ⟨cs', b'⟩, hf, h⟩ := h
  simp only [exc_pure_ok] at h
  subst h
  obtain ⟨g, ht, hsz⟩ := hs.good.triDelete hs.tri hc hd
  have hn := hs.good.edgeNeighbours hc
  have inv := foldlM_inv (fun x : List Ref × Buckets K =>
    (∀ e ∈ x.1, m'.Edge e) ∧ BucketsOk m' x.2) _ (s.mesh.edgeNeighbours c) (by
      rintro ⟨c1, b1⟩ n ⟨c2, b2⟩ hnn ⟨h1, h2⟩ hst
      simp only [exc_bind_ok, exc_pure_ok, Prod.mk.injEq] at hst
      obtain ⟨b3, hb3, rfl, rfl⟩ := hst
      have hn' : m'.Edge n := (hn n hnn).of_size hsz.ge
      refine ⟨fun e he => ?_, h2.add hn' hb3⟩
      rcases mem_insertSet.1 he with rfl | he
      · exact hn'
      · exact h1 e he) _ _ ⟨fun e he => (hs.candidates e (removeEdge_ok hcs e he)).of_size hsz.ge,
        hs.buckets.of_size hsz.ge⟩ hf
  exact ⟨g, ht, inv.1, inv.2⟩

theorem MouthState.Ok.loop {inner : Nat} (fuel : Nat) {s s' : MouthState K} (hs : s.Ok P)
    (h : mouthLoop o inner fuel s = .ok s') : s'.Ok P := by
  induction fuel generalizing s with
  | zero => simp [mouthLoop, exc_throw_ok] at h
  | succ n ih =>
    unfold mouthLoop at h
    split at h
    · split at h
      · simp only [exc_bind_ok] at h
        obtain ⟨⟨s1, r⟩, h1, h⟩ := h
        obtain ⟨hs1, hr⟩ := hs.neg _ h1
        rcases r with _ | ⟨c, i⟩
        · simp only [exc_pure_ok] at h
          exact h ▸ hs1
        · simp only [exc_bind_ok] at h
          obtain ⟨s2, h2, h⟩ := h
          exact ih (hs1.delete (hr c i rfl) h2) h
      · simp only [exc_bind_ok] at h
        obtain ⟨⟨s1, r⟩, h1, h⟩ := h
        obtain ⟨hs1, hr⟩ := hs.pos _ h1
        rcases r with _ | ⟨c, i⟩
        · simp only [exc_bind_ok] at h
          obtain ⟨b, hb, h⟩ := h
          exact ih (by exact ⟨hs1.good, hs1.tri, hs1.candidates, BucketsOk.mouths (fun c hc => hs1.candidates c (o.mem.1 hc)) hb⟩) h
        · simp only [exc_bind_ok] at h
          obtain ⟨s2, h2, h⟩ := h
          exact ih (hs1.delete (hr c i rfl) h2) h
    · simp only [exc_pure_ok] at h
      exact h ▸ hs

theorem EarState.Ok.inner {fuel target : Nat} (n : Nat) {s s' : EarState K} (hs : s.Ok P)
    {r : Option (Ref × Int)} (h : earLoopInner fuel target n s = .ok (s', r)) :
    s'.Ok P ∧ ∀ c i, r = some (c, i) → s'.mesh.Edge c := by
  induction n generalizing s with
  | zero =>
    simp only [earLoopInner, exc_pure_ok, Prod.mk.injEq] at h
    obtain ⟨rfl, rfl⟩ := h
    exact ⟨hs, by simp⟩
  | succ n ih =>
    unfold earLoopInner at h
    split at h
    · simp only [exc_throw_ok] at h
    · rename_i c rest hp
      obtain ⟨hc, hr⟩ := (hs.buckets.getD (target + 3)).popmax hp
      have hs1 : EarState.Ok P { s with buckets := s.buckets.set (target + 3) rest } :=
        ⟨hs.good, hs.tri, hs.candidates, hs.buckets.set _ hr⟩
      dsimp only at h
      split at h
      · simp only [exc_bind_ok] at h
        obtain ⟨cs, hcs, h⟩ := h
        exact ih (by exact ⟨hs1.good, hs1.tri, fun e he => hs1.candidates e (removeEdge_ok hcs e he),
            hs1.buckets⟩) h
      · split at h
        · simp only [exc_pure_ok, Prod.mk.injEq] at h
          obtain ⟨rfl, rfl⟩ := h
          refine ⟨hs1, ?_⟩
          rintro c' i hci
          simp only [Option.some.injEq, Prod.mk.injEq] at hci
          obtain ⟨rfl, -⟩ := hci
          exact hc
        · simp only [exc_bind_ok] at h
          obtain ⟨b, hb, h⟩ := h
          exact ih (by exact ⟨hs1.good, hs1.tri, hs1.candidates, hs1.buckets.add hc hb⟩) h

theorem Good.earFlip (fuel : Nat) {m m' : Mesh K} (g : Good P m) {c : Ref} (hc : m.Edge c)
    (h : earFlipLoop c fuel m = .ok m') : Good P m' ∧ m'.size = m.size := by
  induction fuel generalizing m with
  | zero => simp [earFlipLoop, exc_throw_ok] at h
  | succ n ih =>
    unfold earFlipLoop at h
    split at h
    · simp only [exc_pure_ok] at h
      exact h ▸ ⟨g, rfl⟩
    · have := ih (g.flip (g.lfe hc)) (hc.of_size (by simp)) h
      exact this

theorem EarState.Ok.loop {inner : Nat} (fuel : Nat) {s s' : EarState K} (hs : s.Ok P)
    (h : earLoop o inner fuel s = .ok s') : s'.Ok P := by
  induction fuel generalizing s with
  | zero => simp [earLoop, exc_throw_ok] at h
  | succ n ih =>
    unfold earLoop at h
    split at h
    · split at h
      · simp only [exc_pure_ok] at h
        exact h ▸ hs
      · simp only [exc_bind_ok] at h
        obtain ⟨⟨s1, r⟩, h1, h⟩ := h
        obtain ⟨hs1, hr⟩ := hs.inner _ h1
        rcases r with _ | ⟨c, i⟩
        · simp only [exc_bind_ok] at h
          obtain ⟨b, hb, h⟩ := h
          exact ih (by exact ⟨hs1.good, hs1.tri, hs1.candidates, BucketsOk.ears (fun c hc => hs1.candidates c (o.mem.1 hc)) hb⟩) h
        · simp only [exc_bind_ok] at h
          obtain ⟨m1, hm1, cs, hcs, ⟨m2, t2⟩, hd, h⟩ := h
          have hc := hr c i rfl
          obtain ⟨g1, z1⟩ := hs1.good.earFlip _ hc hm1
          have hc1 : m1.Edge c := hc.of_size z1.ge
          obtain ⟨g2, t2', z2⟩ := g1.triDelete (hs1.tri.of_size z1.ge) hc1 hd
          have hc2 : m2.Edge c := hc1.of_size z2.ge
          have z : s1.mesh.size ≤ (m2.flip (m2.rfe c)).size := by
            rw [flip_size, z2, z1]
          have hok : EarState.Ok P
            { mesh := m2.flip (m2.rfe c), tri := t2, candidates := insertSet (m1.lfs c) cs,
              buckets := s1.buckets, left := s1.left - i } := by
            refine ⟨g2.flip (g2.rfe hc2), t2'.of_size (by simp), ?_, hs1.buckets.of_size z⟩
            intro e he
            rcases mem_insertSet.1 he with rfl | he
            · exact (g1.lfs hc1).of_size (by simp [z2])
            · exact (hs1.candidates e (removeEdge_ok hcs e he)).of_size z
          exact ih hok h
    · simp only [exc_pure_ok] at h
      exact h ▸ hs

theorem Good.border (g : Good P m) {t : Tri} (ht : TriOk m t) {fuel : Nat} {vs : List (Point K)}
    (h : triToBorderVertices fuel m t = .ok vs) : ∀ p ∈ vs, P p := by
  simp only [triToBorderVertices, exc_bind_ok, exc_pure_ok] at h
  obtain ⟨es, hes, rfl⟩ := h
  intro p hp
  have := (compressContour_sublist _).subset hp
  obtain ⟨e, he, rfl⟩ := List.mem_map.1 this
  exact g.start (g.boundaryEdges ht hes e he)

/-- Every vertex of the result of the chi-algorithm is an input point. -/
theorem toVertexSequence_mem {fuel : Nat} {coins : Nat → List Nat} {pts : List (Point K)}
    {size : Int} {vs : List (Point K)} (h : toVertexSequence fuel coins o pts size = .ok vs) :
    ∀ p ∈ vs, p ∈ pts := by
  simp only [toVertexSequence, exc_bind_ok] at h
  obtain ⟨⟨m, t⟩, hd, es, hes, h⟩ := h
  obtain ⟨g, ht⟩ := Good.delaunay hd
  have hE := g.boundaryEdges ht hes
  unfold toVertexSequence' at h
  dsimp only at h
  split at h
  · simp only [exc_pure_ok] at h
    subst h
    intro p hp
    obtain ⟨e, he, rfl⟩ := List.mem_map.1 ((compressContour_sublist _).subset hp)
    exact g.start (hE e he)
  · simp only [exc_bind_ok] at h
    obtain ⟨b, hb, s, hs, ec, hec, eb, heb, s', hs', h⟩ := h
    have hok : s.Ok (· ∈ pts) := MouthState.Ok.loop _ ⟨g, ht, hE, BucketsOk.mouths hE hb⟩ hs
    have hec' : ∀ e ∈ ec, s.mesh.Edge e := by
      split at hec
      · exact hok.good.boundaryEdges hok.tri hec
      · simp only [exc_pure_ok] at hec
        subst hec; simp
    have hok' : s'.Ok (· ∈ pts) :=
      EarState.Ok.loop _ ⟨hok.good, hok.tri, hec', BucketsOk.ears (fun c hc => hec' c (o.mem.1 hc)) heb⟩ hs'
    exact hok'.good.border hok'.tri h

theorem sortByKey_perm (k : Bool) (pts : List (Point K)) : (sortByKey k pts).Perm pts := by
  unfold sortByKey
  split <;> exact pySort_perm _ _

/-- Every vertex of a multicontour is an input point. -/
theorem multicontourLoop_mem {env : Env K} (l : List (Int × Bool)) {pts : List (Point K)}
    {prior : Option Bool} {cs : List (Contour K)}
    (h : multicontourLoop env pts prior l = .ok cs) :
    ∀ c ∈ cs, ∀ p ∈ c.vertices, p ∈ pts := by
  induction l generalizing pts prior cs with
  | nil =>
    simp only [multicontourLoop, exc_pure_ok] at h
    subst h; simp
  | cons a l ih =>
    obtain ⟨size, key⟩ := a
    simp only [multicontourLoop, exc_bind_ok] at h
    obtain ⟨vs, hvs, h⟩ := h
    have hsort : ∀ p, p ∈ (if prior ≠ some key then sortByKey key pts else pts) → p ∈ pts := by
      intro p hp
      split at hp
      · exact (sortByKey_perm key pts).mem_iff.1 hp
      · exact hp
    have hv := toVertexSequence_mem hvs
    split at h
    · simp only [exc_bind_ok, exc_pure_ok] at h
      obtain ⟨b, -, r, hr, rfl⟩ := h
      intro c hc p hp
      rcases List.mem_cons.1 hc with rfl | hc
      · exact hsort p (List.mem_of_mem_take (hv p hp))
      · exact hsort p (List.mem_of_mem_drop (ih hr c hc p hp))
    · intro c hc p hp
      exact hsort p (ih h c hc p hp)

theorem mem_reverseVertices {vs : List (Point K)} {p : Point K} :
    p ∈ reverseVertices vs ↔ p ∈ vs := by
  unfold reverseVertices
  rw [List.mem_append, List.mem_reverse, ← List.mem_append, List.take_append_drop]

/-- Every vertex of a hole is an input point, and every hole is the reversed result of the
chi-algorithm. -/
theorem holeLoop_mem {env : Env K} {Q : Point K → Prop} (l : List (Int × Bool)) {s s' : HoleState K}
    {prior : Option Bool} (hi : ∀ p ∈ s.innerPoints, Q p)
    (hh : ∀ c ∈ s.holes, ∀ p ∈ c.vertices, Q p)
    (h : holeLoop env s prior l = .ok s') :
    ∀ c ∈ s'.holes, ∀ p ∈ c.vertices, Q p := by
  induction l generalizing s prior with
  | nil =>
    simp only [holeLoop, exc_pure_ok] at h
    subst h; exact hh
  | cons a l ih =>
    obtain ⟨size, key⟩ := a
    simp only [holeLoop, exc_bind_ok] at h
    obtain ⟨vs, hvs, h⟩ := h
    have hsort : ∀ p, p ∈ (if prior ≠ some key then sortByKey key s.innerPoints
        else s.innerPoints) → Q p := by
      intro p hp
      split at hp
      · exact hi p ((sortByKey_perm key _).mem_iff.1 hp)
      · exact hi p hp
    have hv := toVertexSequence_mem hvs
    split at h
    · split at h
      · simp only [exc_throw_ok] at h
      · simp only [exc_bind_ok] at h
        obtain ⟨b, -, h⟩ := h
        refine ih ?_ ?_ h
        · exact fun p hp => hsort p (List.mem_of_mem_drop hp)
        · intro c hc p hp
          rcases List.mem_append.1 hc with hc | hc
          · exact hh c hc p hp
          · simp only [List.mem_cons, List.not_mem_nil, or_false] at hc
            subst hc
            exact hsort p (List.mem_of_mem_take (hv p (mem_reverseVertices.1 hp)))
    · exact ih (by exact hsort) (by exact hh) h

/-- Invariant of the border loop. -/
structure BorderState.Ok (P : Point K → Prop) (s : BorderState K) : Prop where
  good : Good P s.mesh
  tri : TriOk s.mesh s.tri
  neighbours : ∀ x ∈ s.neighbours, ∀ n ∈ x.2, s.mesh.Edge n
  candidates : SetOk s.mesh s.candidates

theorem lookup_mem {l : List (Ref × List Ref)} {ns : List Ref} (h : l.lookup e = some ns) :
    ∃ x ∈ l, x.2 = ns := by
  induction l with
  | nil => simp at h
  | cons a l ih =>
    obtain ⟨a, b⟩ := a
    rw [List.lookup_cons] at h
    split at h
    · exact ⟨(a, b), by simp, by simpa using h⟩
    · obtain ⟨x, hx, hy⟩ := ih h
      exact ⟨x, by simp [hx], hy⟩

theorem BorderState.Ok.loop {env : Env K} {he : List (Segment K)} {bs : Int} (fuel : Nat)
    {s s' : BorderState K} (hs : s.Ok P) (h : borderLoop env he bs fuel s = .ok s') : s'.Ok P := by
  induction fuel generalizing s with
  | zero => simp [borderLoop, exc_throw_ok] at h
  | succ n ih =>
    unfold borderLoop at h
    split at h
    · split at h
      · simp only [exc_pure_ok] at h
        exact h ▸ hs
      · rename_i e rest hp
        obtain ⟨hc, hr⟩ := hs.candidates.popmax hp
        dsimp only at h
        split at h
        · exact ih (by exact ⟨hs.good, hs.tri, hs.neighbours, hr⟩) h
        · simp only [exc_bind_ok] at h
          obtain ⟨⟨m, t⟩, hd, h⟩ := h
          obtain ⟨g, ht, hsz⟩ := hs.good.triDelete hs.tri hc hd
          dsimp only at h
          split at h
          · simp only [exc_throw_ok] at h
          · rename_i ns hns
            simp only [exc_bind_ok] at h
            obtain ⟨⟨nb, cs⟩, hf, h⟩ := h
            obtain ⟨x, hx, rfl⟩ := lookup_mem hns
            have hn : ∀ n ∈ x.2, m.Edge n := fun n hn => (hs.neighbours x hx n hn).of_size hsz.ge
            have inv := foldlM_inv (fun y : List (Ref × List Ref) × KeyedSet K =>
              (∀ x ∈ y.1, ∀ n ∈ x.2, m.Edge n) ∧ SetOk m y.2) _ x.2 (by
                rintro ⟨c1, b1⟩ n ⟨c2, b2⟩ hnn ⟨h1, h2⟩ hst
                simp only [exc_bind_ok, exc_pure_ok, Prod.mk.injEq] at hst
                obtain ⟨k, hk, rfl, rfl⟩ := hst
                refine ⟨fun y hy n' hn' => ?_, h2.add k (hn n hnn)⟩
                rcases List.mem_cons.1 hy with rfl | hy
                · exact g.edgeNeighbours (hn n hnn) n' hn'
                · exact h1 y (List.mem_of_mem_filter hy) n' hn')
              _ _ ⟨fun y hy n' hn' => (hs.neighbours y (List.mem_of_mem_filter hy) n' hn').of_size
                hsz.ge, hr.of_size hsz.ge⟩ hf
            exact ih (by exact ⟨g, ht, inv.1, inv.2⟩) h
    · simp only [exc_pure_ok] at h
      exact h ▸ hs

/-- Every vertex of a polygon is an input point. -/
theorem toPolygon_mem {env : Env K} (hset : ∀ l, (env.setOrder l).Perm l) {pts : List (Point K)}
    {bs : Int} {hss : List Int} {ch : Nat → Bool} {p : Polygon K}
    (h : toPolygon env pts bs hss ch = .ok p) :
    (∀ v ∈ p.border.vertices, v ∈ pts) ∧ ∀ c ∈ p.holes, ∀ v ∈ c.vertices, v ∈ pts := by
  simp only [toPolygon, exc_bind_ok] at h
  obtain ⟨⟨m, t⟩, hd, es, hes, hst, hh, cs, hcs, s, hs, bd, hbd, h⟩ := h
  obtain ⟨g, ht⟩ := Good.delaunay hd
  have hE := g.boundaryEdges ht hes
  split at h
  · simp only [exc_pure_ok] at h
    subst h
    have hcs' : SetOk m cs := foldlM_inv (SetOk m) _ _ (by
      intro c e c' he hc hst
      simp only [exc_bind_ok, exc_pure_ok] at hst
      obtain ⟨k, -, rfl⟩ := hst
      exact hc.add k (hE e (List.mem_of_mem_filter he))) _ _ (by intro x hx; simp at hx) hcs
    have hok : s.Ok (· ∈ pts) := BorderState.Ok.loop _ ⟨g, ht, by
      intro x hx n hn
      obtain ⟨e, he, rfl⟩ := List.mem_map.1 hx
      exact g.edgeNeighbours (hE e he) n hn, hcs'⟩ hs
    refine ⟨hok.good.border hok.tri hbd, ?_⟩
    refine holeLoop_mem (Q := (· ∈ pts)) _ ?_ (by simp) hh
    intro p hp
    exact List.mem_of_mem_filter ((hset _).mem_iff.1 hp)
  · simp only [exc_throw_ok] at h

end
end HG
