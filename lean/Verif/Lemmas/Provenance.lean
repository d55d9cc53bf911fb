import Verif.Model.Factories2
import Verif.Lemmas.QuadEdge
import Verif.Lemmas.Compress
import Verif.Lemmas.Except
import Verif.Lemmas.Sizes

/-!
# Well-formedness of the mesh and provenance of vertices
-/

set_option linter.unusedSectionVars false

namespace HG

section
variable {K : Type} [LinearOrder K] [Zero K] [Add K] [Sub K] [Predicates K]

/-- An allocated edge. -/
structure Mesh.Edge (m : Mesh K) (e : Ref) : Prop where
  alloc : e.q < m.size
  primal : e.primal = true

/-- A well-formed mesh all of whose edges end in points with the given property. -/
structure Good (P : Point K → Prop) (m : Mesh K) : Prop where
  wf : m.WF
  org : ∀ e, m.Edge e → P (m.org e)

variable {P : Point K → Prop} {m : Mesh K} {e : Ref}

theorem Mesh.Edge.opp (h : m.Edge e) : m.Edge e.opp := ⟨h.alloc, by simp [h.primal]⟩
theorem Good.lfs (g : Good P m) (h : m.Edge e) : m.Edge (m.lfs e) :=
  ⟨g.wf.closed e h.alloc, (g.wf.par e h.alloc).trans h.primal⟩
theorem Good.rfs (g : Good P m) (h : m.Edge e) : m.Edge (m.rfs e) :=
  ⟨g.wf.rot_closed h.alloc, (g.wf.rfs_par h.alloc).trans h.primal⟩
theorem Good.lfe (g : Good P m) (h : m.Edge e) : m.Edge (m.lfe e) :=
  ⟨g.wf.lfe_closed h.alloc, (g.wf.lfe_par h.alloc).trans h.primal⟩
theorem Good.rfe (g : Good P m) (h : m.Edge e) : m.Edge (m.rfe e) :=
  ⟨g.wf.rfe_closed h.alloc, (g.wf.rfe_par h.alloc).trans h.primal⟩
theorem Good.start (g : Good P m) (h : m.Edge e) : P (m.start e) := g.org e h
theorem Good.stop (g : Good P m) (h : m.Edge e) : P (m.stop e) := g.org _ h.opp

theorem Good.empty {d : Point K} : Good P (Mesh.empty d) :=
  ⟨Mesh.WF.empty, fun _ h => absurd h.alloc (Nat.not_lt_zero _)⟩

theorem edge_cases (e : Ref) (h : e.primal = true) : e = ⟨e.q, 0⟩ ∨ e = ⟨e.q, 2⟩ := by
  obtain ⟨q, r⟩ := e
  simp only [Ref.primal] at h
  fin_cases r <;> simp_all

theorem Good.fromEndpoints (g : Good P m) {s t : Point K} (hs : P s) (ht : P t) :
    Good P (m.fromEndpoints s t).1 ∧ (m.fromEndpoints s t).1.Edge (m.fromEndpoints s t).2 := by
  refine ⟨⟨g.wf.fromEndpoints s t, fun e he => ?_⟩, ⟨by simp [fromEndpoints_ref], rfl⟩⟩
  have hq : e.q < m.size + 1 := he.alloc
  simp only [Mesh.fromEndpoints]
  split
  · exact hs
  · split
    · exact ht
    · rename_i h1 h2
      refine g.org e ⟨?_, he.primal⟩
      rcases Nat.lt_or_ge e.q m.size with h | h
      · exact h
      · exfalso
        have : e.q = m.size := by omega
        rcases edge_cases e he.primal with h' | h' <;> rw [this] at h'
        · exact h1 h'
        · exact h2 h'

theorem Good.splice (g : Good P m) {a b : Ref} (h : SpliceArgs m a b) : Good P (m.splice a b) :=
  ⟨g.wf.splice h, fun e he => g.org e ⟨he.alloc, he.primal⟩⟩

theorem Good.delete (g : Good P m) (he : m.Edge e) : Good P (m.delete e) :=
  ⟨g.wf.delete he.alloc, fun e he => g.org e ⟨he.alloc, he.primal⟩⟩

theorem Mesh.Edge.of_size {m' : Mesh K} (h : m.Edge e) (hs : m.size ≤ m'.size) : m'.Edge e :=
  ⟨lt_of_lt_of_le h.alloc hs, h.primal⟩

theorem Good.flip (g : Good P m) (he : m.Edge e) : Good P (m.flip e) := by
  refine ⟨g.wf.flip he.alloc, fun f hf => ?_⟩
  have hs := g.rfs he
  have ho := g.rfs he.opp
  have hf' : m.Edge f := ⟨hf.alloc, hf.primal⟩
  simp only [Mesh.flip, updRef, Mesh.stop, splice_org]
  split
  · split
    · exact g.org _ hs.opp
    · exact g.org _ ho.opp
  · split
    · exact g.org _ hs.opp
    · exact g.org f hf'

theorem Good.connect (g : Good P m) {a b : Ref} (ha : m.Edge a) (hb : m.Edge b) :
    Good P (m.connect a b).1 ∧ (m.connect a b).1.Edge (m.connect a b).2 := by
  have h1 := (g.fromEndpoints (g.stop ha) (g.start hb)).1
  refine ⟨⟨g.wf.connect ha.alloc hb.alloc ha.primal hb.primal, fun e he => ?_⟩,
    ⟨by simp [connect_ref], rfl⟩⟩
  exact h1.org e ⟨he.alloc, he.primal⟩

/-! ## Triangulation -/

theorem Good.triangulateTwo (g : Good P m) {a b : Point K} (ha : P a) (hb : P b)
    {m' : Mesh K} {t : Tri} (h : triangulateTwo m a b = (m', t)) :
    Good P m' ∧ m'.Edge t.leftSide ∧ m'.Edge t.rightSide ∧ m.size ≤ m'.size := by
  simp only [HG.triangulateTwo, Prod.mk.injEq] at h
  obtain ⟨rfl, rfl⟩ := h
  have := g.fromEndpoints ha hb
  exact ⟨this.1, this.2, this.2.opp, by simp⟩

theorem Good.triangulateThree (g : Good P m) {a b c : Point K} (ha : P a) (hb : P b) (hc : P c)
    {m' : Mesh K} {t : Tri} (h : triangulateThree m a b c = (m', t)) :
    Good P m' ∧ m'.Edge t.leftSide ∧ m'.Edge t.rightSide ∧ m.size ≤ m'.size := by
  obtain ⟨g1, e1⟩ := g.fromEndpoints ha hb
  obtain ⟨g2, e2⟩ := g1.fromEndpoints hb hc
  simp only [HG.triangulateThree] at h
  set m1 := (m.fromEndpoints a b).1
  set r1 := (m.fromEndpoints a b).2
  set m2 := (m1.fromEndpoints b c).1
  set r2 := (m1.fromEndpoints b c).2
  have s1 : m.size ≤ m1.size := by simp [m1]
  have s2 : m1.size ≤ m2.size := by simp [m2]
  have e1' : m2.Edge r1 := e1.of_size s2
  have g3 : Good P (m2.splice r1.opp r2) :=
    g2.splice ⟨e1'.opp.alloc, e2.alloc, by rw [e1'.opp.primal, e2.primal]⟩
  have f1 : (m2.splice r1.opp r2).Edge r1 := ⟨e1'.alloc, e1'.primal⟩
  have f2 : (m2.splice r1.opp r2).Edge r2 := ⟨e2.alloc, e2.primal⟩
  obtain ⟨g4, e4⟩ := g3.connect f2 f1
  have s4 : (m2.splice r1.opp r2).size ≤ ((m2.splice r1.opp r2).connect r2 r1).1.size := by simp
  have st : m.size ≤ ((m2.splice r1.opp r2).connect r2 r1).1.size :=
    (s1.trans s2).trans s4
  split at h <;> simp only [Prod.mk.injEq] at h <;> obtain ⟨rfl, rfl⟩ := h
  · exact ⟨g4, f1.of_size s4, (f2.of_size s4).opp, st⟩
  · exact ⟨g4, e4.opp, e4, st⟩
  · exact ⟨g3, f1, f2.opp, s1.trans s2⟩

theorem Good.initTri (g : Good P m) {pts : List (Point K)} (hp : ∀ p ∈ pts, P p) {m' : Mesh K}
    {t : Tri} (h : initTri m pts = .ok (m', t)) :
    Good P m' ∧ m'.Edge t.leftSide ∧ m'.Edge t.rightSide ∧ m.size ≤ m'.size := by
  unfold HG.initTri at h
  split at h
  · simp only [exc_pure_ok] at h
    rename_i a b
    exact g.triangulateTwo (hp a (by simp)) (hp b (by simp)) h
  · simp only [exc_pure_ok] at h
    rename_i a b c
    exact g.triangulateThree (hp a (by simp)) (hp b (by simp)) (hp c (by simp)) h
  · simp at h

theorem Good.initParts (sizes : List Nat) {pts : List (Point K)} {m : Mesh K} (g : Good P m)
    (hp : ∀ p ∈ pts, P p) {m' : Mesh K} {ts : List Tri}
    (h : initParts m pts sizes = .ok (m', ts)) :
    Good P m' ∧ (∀ t ∈ ts, m'.Edge t.leftSide ∧ m'.Edge t.rightSide) ∧ m.size ≤ m'.size := by
  induction sizes generalizing pts m m' ts with
  | nil =>
    simp only [HG.initParts, exc_pure_ok, Prod.mk.injEq] at h
    obtain ⟨rfl, rfl⟩ := h
    exact ⟨g, by simp, le_rfl⟩
  | cons n ns ih =>
    simp only [HG.initParts, exc_bind_ok, exc_pure_ok] at h
    obtain ⟨⟨m1, t⟩, h1, ⟨m2, ts'⟩, h2, h3⟩ := h
    simp only [Prod.mk.injEq] at h3
    obtain ⟨rfl, rfl⟩ := h3
    obtain ⟨g1, a, b, s1⟩ := g.initTri (fun p hpp => hp p (List.mem_of_mem_take hpp)) h1
    obtain ⟨g2, c, s2⟩ := ih g1 (fun p hpp => hp p (List.mem_of_mem_drop hpp)) h2
    refine ⟨g2, ?_, s1.trans s2⟩
    intro t' ht'
    rcases List.mem_cons.1 ht' with rfl | ht'
    · exact ⟨a.of_size s2, b.of_size s2⟩
    · exact c t' ht'

theorem Good.leftCandidateLoop (fuel : Nat) {base r : Ref} {m : Mesh K} (g : Good P m)
    (hr : m.Edge r) {m' : Mesh K} {r' : Ref}
    (h : leftCandidateLoop base fuel m r = .ok (m', r')) :
    Good P m' ∧ m'.Edge r' ∧ m'.size = m.size := by
  induction fuel generalizing m r with
  | zero => simp [HG.leftCandidateLoop] at h
  | succ n ih =>
    unfold HG.leftCandidateLoop at h
    split at h
    · have := ih (g.delete hr) ((g.lfs hr).of_size (by simp)) h
      exact ⟨this.1, this.2.1, this.2.2⟩
    · simp only [exc_pure_ok, Prod.mk.injEq] at h
      obtain ⟨rfl, rfl⟩ := h
      exact ⟨g, hr, rfl⟩

theorem Good.rightCandidateLoop (fuel : Nat) {base r : Ref} {m : Mesh K} (g : Good P m)
    (hr : m.Edge r) {m' : Mesh K} {r' : Ref}
    (h : rightCandidateLoop base fuel m r = .ok (m', r')) :
    Good P m' ∧ m'.Edge r' ∧ m'.size = m.size := by
  induction fuel generalizing m r with
  | zero => simp [HG.rightCandidateLoop] at h
  | succ n ih =>
    unfold HG.rightCandidateLoop at h
    split at h
    · have := ih (g.delete hr) ((g.rfs hr).of_size (by simp)) h
      exact ⟨this.1, this.2.1, this.2.2⟩
    · simp only [exc_pure_ok, Prod.mk.injEq] at h
      obtain ⟨rfl, rfl⟩ := h
      exact ⟨g, hr, rfl⟩

theorem Good.toLeftCandidate {fuel : Nat} {base : Ref} (g : Good P m) (hb : m.Edge base)
    {m' : Mesh K} {r : Option Ref} (h : toLeftCandidate fuel m base = .ok (m', r)) :
    Good P m' ∧ (∀ e, r = some e → m'.Edge e) ∧ m'.size = m.size := by
  unfold HG.toLeftCandidate at h
  dsimp only at h
  split at h
  · simp only [exc_pure_ok, Prod.mk.injEq] at h
    obtain ⟨rfl, rfl⟩ := h
    exact ⟨g, by simp, rfl⟩
  · simp only [exc_bind_ok, exc_pure_ok] at h
    obtain ⟨⟨m1, r1⟩, h1, h2⟩ := h
    simp only [Prod.mk.injEq] at h2
    obtain ⟨rfl, rfl⟩ := h2
    have := g.leftCandidateLoop fuel (g.lfs hb.opp) h1
    exact ⟨this.1, fun e he => by cases he; exact this.2.1, this.2.2⟩

theorem Good.toRightCandidate {fuel : Nat} {base : Ref} (g : Good P m) (hb : m.Edge base)
    {m' : Mesh K} {r : Option Ref} (h : toRightCandidate fuel m base = .ok (m', r)) :
    Good P m' ∧ (∀ e, r = some e → m'.Edge e) ∧ m'.size = m.size := by
  unfold HG.toRightCandidate at h
  dsimp only at h
  split at h
  · simp only [exc_pure_ok, Prod.mk.injEq] at h
    obtain ⟨rfl, rfl⟩ := h
    exact ⟨g, by simp, rfl⟩
  · simp only [exc_bind_ok, exc_pure_ok] at h
    obtain ⟨⟨m1, r1⟩, h1, h2⟩ := h
    simp only [Prod.mk.injEq] at h2
    obtain ⟨rfl, rfl⟩ := h2
    have := g.rightCandidateLoop fuel (g.rfs hb) h1
    exact ⟨this.1, fun e he => by cases he; exact this.2.1, this.2.2⟩

theorem Good.connectLoop (inner fuel : Nat) {base : Ref} {m : Mesh K} (g : Good P m)
    (hb : m.Edge base) {m' : Mesh K} (h : connectLoop inner fuel m base = .ok m') :
    Good P m' ∧ m.size ≤ m'.size := by
  induction fuel generalizing m base with
  | zero => simp [HG.connectLoop] at h
  | succ n ih =>
    simp only [HG.connectLoop, exc_bind_ok] at h
    obtain ⟨⟨m1, l⟩, h1, ⟨m2, r⟩, h2, h3⟩ := h
    obtain ⟨g1, e1, s1⟩ := g.toLeftCandidate hb h1
    have hb1 : m1.Edge base := hb.of_size s1.ge
    obtain ⟨g2, e2, s2⟩ := g1.toRightCandidate hb1 h2
    have hb2 : m2.Edge base := hb1.of_size s2.ge
    have hl2 : ∀ e, l = some e → m2.Edge e := fun e he => (e1 e he).of_size s2.ge
    have right : ∀ (r : Ref), m2.Edge r →
        HG.connectLoop inner n (m2.connect r base.opp).1 (m2.connect r base.opp).2 = .ok m' →
        Good P m' ∧ m.size ≤ m'.size := by
      intro r hr h
      obtain ⟨g3, e3⟩ := g2.connect hr hb2.opp
      have := ih g3 e3 h
      refine ⟨this.1, ?_⟩
      have h5 := this.2
      rw [connect_size] at h5
      omega
    have left : ∀ (l : Ref), m2.Edge l →
        HG.connectLoop inner n (m2.connect base.opp l.opp).1 (m2.connect base.opp l.opp).2 = .ok m' →
        Good P m' ∧ m.size ≤ m'.size := by
      intro l hl h
      obtain ⟨g3, e3⟩ := g2.connect hb2.opp hl.opp
      have := ih g3 e3 h
      refine ⟨this.1, ?_⟩
      have h5 := this.2
      rw [connect_size] at h5
      omega
    split at h3
    · simp only [exc_pure_ok] at h3
      subst h3
      exact ⟨g2, by omega⟩
    · exact right _ (e2 _ (by assumption)) h3
    · exact left _ (hl2 _ (by assumption)) h3
    · split at h3
      · exact right _ (e2 _ (by assumption)) h3
      · exact left _ (hl2 _ (by assumption)) h3

theorem Good.findBaseLoop (fuel : Nat) (g : Good P m) {r l : Ref} (hr : m.Edge r) (hl : m.Edge l)
    {r' l' : Ref} (h : findBaseLoop m fuel r l = .ok (r', l')) : m.Edge r' ∧ m.Edge l' := by
  induction fuel generalizing r l with
  | zero => simp [HG.findBaseLoop] at h
  | succ n ih =>
    unfold HG.findBaseLoop at h
    split at h
    · exact ih (g.lfe hr) hl h
    · split at h
      · exact ih hr (g.rfe hl) h
      · simp only [exc_pure_ok, Prod.mk.injEq] at h
        obtain ⟨rfl, rfl⟩ := h
        exact ⟨hr, hl⟩

/-- Both sides of a triangulation are edges of the mesh. -/
def TriOk (m : Mesh K) (t : Tri) : Prop := m.Edge t.leftSide ∧ m.Edge t.rightSide

theorem TriOk.of_size {m' : Mesh K} {t : Tri} (h : TriOk m t) (hs : m.size ≤ m'.size) :
    TriOk m' t := ⟨h.1.of_size hs, h.2.of_size hs⟩

theorem Good.mergeTri {fuel : Nat} (g : Good P m) {s o : Tri} (hs : TriOk m s) (ho : TriOk m o)
    {m' : Mesh K} {t : Tri} (h : mergeTri fuel m s o = .ok (m', t)) :
    Good P m' ∧ TriOk m' t ∧ m.size ≤ m'.size := by
  simp only [HG.mergeTri, exc_bind_ok, exc_pure_ok] at h
  obtain ⟨⟨r, l⟩, h1, m2, h2, h3⟩ := h
  simp only [Prod.mk.injEq] at h3
  obtain ⟨rfl, rfl⟩ := h3
  obtain ⟨hr, hl⟩ := g.findBaseLoop fuel hs.2 ho.1 h1
  obtain ⟨g1, e1⟩ := g.connect hl.opp hr
  obtain ⟨g2, s2⟩ := g1.connectLoop _ _ e1 h2
  have s3 : m.size ≤ m2.size := by rw [connect_size] at s2; omega
  refine ⟨g2, ⟨?_, ?_⟩, s3⟩
  · dsimp only
    split
    · exact e1.opp.of_size s2
    · exact hs.1.of_size s3
  · dsimp only
    split
    · exact e1.of_size s2
    · exact ho.2.of_size s3

theorem Good.mergeRound {fuel : Nat} (ts : List Tri) {m : Mesh K} (g : Good P m)
    (ht : ∀ t ∈ ts, TriOk m t)
    {m' : Mesh K} {ts' : List Tri} (h : mergeRound fuel m ts = .ok (m', ts')) :
    Good P m' ∧ (∀ t ∈ ts', TriOk m' t) ∧ m.size ≤ m'.size := by
  induction ts using List.twoStepInduction generalizing m m' ts' with
  | nil =>
    simp only [HG.mergeRound, exc_pure_ok, Prod.mk.injEq] at h
    obtain ⟨rfl, rfl⟩ := h
    exact ⟨g, ht, le_rfl⟩
  | singleton a =>
    simp only [HG.mergeRound, exc_pure_ok, Prod.mk.injEq] at h
    obtain ⟨rfl, rfl⟩ := h
    exact ⟨g, ht, le_rfl⟩
  | cons_cons a b rest ih _ =>
    simp only [HG.mergeRound, exc_bind_ok, exc_pure_ok] at h
    obtain ⟨⟨m1, t⟩, h1, ⟨m2, ts2⟩, h2, h3⟩ := h
    simp only [Prod.mk.injEq] at h3
    obtain ⟨rfl, rfl⟩ := h3
    obtain ⟨g1, t1, s1⟩ := g.mergeTri (ht a (by simp)) (ht b (by simp)) h1
    obtain ⟨g2, t2, s2⟩ := ih g1 (fun t h => (ht t (by simp [h])).of_size s1) h2
    refine ⟨g2, ?_, s1.trans s2⟩
    intro t' h'
    rcases List.mem_cons.1 h' with rfl | h'
    · exact t1.of_size s2
    · exact t2 t' h'

theorem Good.mergeRounds {fuel : Nat} (n : Nat) {ts : List Tri} {m : Mesh K} (g : Good P m)
    (ht : ∀ t ∈ ts, TriOk m t)
    {m' : Mesh K} {ts' : List Tri} (h : mergeRounds fuel m n ts = .ok (m', ts')) :
    Good P m' ∧ (∀ t ∈ ts', TriOk m' t) ∧ m.size ≤ m'.size := by
  induction n generalizing m ts with
  | zero =>
    simp only [HG.mergeRounds, exc_pure_ok, Prod.mk.injEq] at h
    obtain ⟨rfl, rfl⟩ := h
    exact ⟨g, ht, le_rfl⟩
  | succ n ih =>
    simp only [HG.mergeRounds, exc_bind_ok] at h
    obtain ⟨⟨m1, ts1⟩, h1, h2⟩ := h
    obtain ⟨g1, t1, s1⟩ := g.mergeRound ts ht h1
    obtain ⟨g2, t2, s2⟩ := ih g1 t1 h2
    exact ⟨g2, t2, s1.trans s2⟩

theorem Good.delaunay {fuel : Nat} {parts : List Nat} {pts : List (Point K)} {m : Mesh K} {t : Tri}
    (h : delaunay fuel parts pts = .ok (m, t)) : Good (· ∈ pts) m ∧ TriOk m t := by
  simp only [HG.delaunay, exc_bind_ok] at h
  obtain ⟨⟨m1, ts1⟩, h1, ⟨m2, ts2⟩, h2, h3⟩ := h
  obtain ⟨g1, t1, -⟩ := (Good.empty (P := (· ∈ pts))).initParts parts
    (fun p hp => (pySort_perm _ _).mem_iff.1 hp) h1
  obtain ⟨g2, t2, -⟩ := g1.mergeRounds _ t1 h2
  dsimp only at h3
  split at h3
  · simp at h3
  · simp only [exc_pure_ok, Prod.mk.injEq] at h3
    obtain ⟨rfl, rfl⟩ := h3
    exact ⟨g2, t2 _ (by simp)⟩

theorem Good.boundaryLoop (g : Good P m) {s c : Ref} (fuel : Nat) (hc : m.Edge c) {es : List Ref}
    (h : boundaryLoop m s fuel c = .ok es) : ∀ e ∈ es, m.Edge e := by
  induction fuel generalizing c es with
  | zero => simp [HG.boundaryLoop] at h
  | succ n ih =>
    unfold HG.boundaryLoop at h
    split at h
    · simp only [exc_pure_ok] at h
      subst h
      simpa using hc
    · simp only [exc_bind_ok, exc_pure_ok] at h
      obtain ⟨rest, h1, rfl⟩ := h
      intro e he
      rcases List.mem_cons.1 he with rfl | he
      · exact hc
      · exact ih (g.rfe hc) h1 e he

theorem Good.boundaryEdges (g : Good P m) {t : Tri} (ht : TriOk m t) {fuel : Nat} {es : List Ref}
    (h : boundaryEdges fuel m t = .ok es) : ∀ e ∈ es, m.Edge e := g.boundaryLoop fuel ht.1 h

/-! ## Deleting an edge of a triangulation -/

theorem Good.triDelete (g : Good P m) {t : Tri} (ht : TriOk m t) (he : m.Edge e) {m' : Mesh K}
    {t' : Tri} (h : Tri.delete m t e = .ok (m', t')) :
    Good P m' ∧ TriOk m' t' ∧ m'.size = m.size := by
  simp only [Tri.delete, exc_bind_ok, exc_pure_ok, Prod.mk.injEq] at h
  obtain ⟨t1, h1, t2, h2, rfl, rfl⟩ := h
  have ht1 : TriOk m t1 := by
    split at h1
    · split at h1
      · simp at h1
      · simp only [exc_pure_ok] at h1
        subst h1
        exact ⟨ht.1, (g.rfe ht.2).opp⟩
    · simp only [exc_pure_ok] at h1
      subst h1; exact ht
  have ht2 : TriOk m t2 := by
    split at h2
    · split at h2
      · simp at h2
      · simp only [exc_pure_ok] at h2
        subst h2
        exact ⟨g.lfs ht1.1, ht1.2⟩
    · simp only [exc_pure_ok] at h2
      subst h2; exact ht1
  exact ⟨g.delete he, ht2.of_size (by simp), by simp⟩

end
end HG
