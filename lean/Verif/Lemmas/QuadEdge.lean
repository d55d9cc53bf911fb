import Verif.Model.QuadEdge
import Mathlib.Dynamics.PeriodicPts.Lemmas
import Mathlib.Data.Fintype.Card
import Mathlib.Data.Fintype.Prod
import Mathlib.Tactic.FinCases

/-!
# The edge algebra: internal lemmas
-/

set_option linter.unusedSectionVars false

namespace HG

/-- The reference is an edge (not a dual node). -/
def Ref.primal (e : Ref) : Bool := e.r.val % 2 == 0

@[simp] theorem Ref.rot_q (e : Ref) : e.rot.q = e.q := rfl
@[simp] theorem Ref.opp_q (e : Ref) : e.opp.q = e.q := rfl

theorem Ref.rot_rot (e : Ref) : e.rot.rot = e.opp := rfl

@[simp] theorem Ref.rot4 (e : Ref) : e.rot.rot.rot.rot = e := by
  obtain ⟨q, r⟩ := e
  simp only [Ref.rot, Ref.mk.injEq, true_and]
  revert r; decide

@[simp] theorem Ref.opp_opp (e : Ref) : e.opp.opp = e := Ref.rot4 e

theorem Ref.rot_injective : Function.Injective Ref.rot := by
  intro a b h
  have := congrArg (fun e : Ref => e.rot.rot.rot) h
  simpa using this

theorem Ref.rot_opp (e : Ref) : e.rot.opp = e.opp.rot := rfl

@[simp] theorem Ref.rot_primal (e : Ref) : e.rot.primal = !e.primal := by
  obtain ⟨q, r⟩ := e
  simp only [Ref.rot, Ref.primal]
  revert r; decide

@[simp] theorem Ref.opp_primal (e : Ref) : e.opp.primal = e.primal := by
  simp [Ref.opp]

theorem Ref.rot_ne (e : Ref) : e.rot ≠ e := by
  intro h
  have := congrArg Ref.primal h
  simp at this

theorem Ref.opp_ne (e : Ref) : e.opp ≠ e := by
  obtain ⟨q, r⟩ := e
  simp only [Ref.opp, Ref.rot, ne_eq, Ref.mk.injEq, true_and]
  revert r; decide

section
variable {K : Type} [LinearOrder K] [Zero K] [Add K] [Sub K] [Predicates K]

/-- The edge algebra of a mesh. -/
structure Mesh.WF (m : Mesh K) : Prop where
  closed : ∀ e, e.q < m.size → (m.next e).q < m.size
  par : ∀ e, e.q < m.size → (m.next e).primal = e.primal
  inv : ∀ e, e.q < m.size → (m.next (m.next e).rot).rot = e

theorem Mesh.WF.empty {d : Point K} : (Mesh.empty d).WF :=
  ⟨fun _ h => absurd h (Nat.not_lt_zero _), fun _ h => absurd h (Nat.not_lt_zero _),
    fun _ h => absurd h (Nat.not_lt_zero _)⟩

theorem Mesh.WF.inj {m : Mesh K} (h : m.WF) {a b : Ref} (ha : a.q < m.size) (hb : b.q < m.size)
    (e : m.next a = m.next b) : a = b := by
  rw [← h.inv a ha, ← h.inv b hb, e]

theorem Mesh.WF.inv' {m : Mesh K} (h : m.WF) {e : Ref} (he : e.q < m.size) :
    m.next (m.next e.rot).rot = e := by
  have h1 := h.inv e.rot he
  exact Ref.rot_injective h1

/-- `right_from_start` inverts `left_from_start`. -/
theorem Mesh.WF.rfs_lfs {m : Mesh K} (h : m.WF) {e : Ref} (he : e.q < m.size) :
    m.rfs (m.lfs e) = e := h.inv e he

theorem Mesh.WF.lfs_rfs {m : Mesh K} (h : m.WF) {e : Ref} (he : e.q < m.size) :
    m.lfs (m.rfs e) = e := h.inv' he

theorem fromEndpoints_next_old (m : Mesh K) (s t : Point K) (e : Ref) (h : e.q ≠ m.size) :
    (m.fromEndpoints s t).1.next e = m.next e := by
  simp [Mesh.fromEndpoints, h]

theorem fromEndpoints_next_new (m : Mesh K) (s t : Point K) (e : Ref) (h : e.q = m.size) :
    (m.fromEndpoints s t).1.next e = if e.primal then e else e.opp := by
  obtain ⟨q, r⟩ := e
  simp only at h
  subst h
  simp only [Mesh.fromEndpoints, if_true, Ref.primal, Ref.opp, Ref.rot]
  fin_cases r <;> simp

@[simp] theorem fromEndpoints_size (m : Mesh K) (s t : Point K) :
    (m.fromEndpoints s t).1.size = m.size + 1 := rfl

theorem fromEndpoints_ref (m : Mesh K) (s t : Point K) :
    (m.fromEndpoints s t).2 = ⟨m.size, 0⟩ := rfl

theorem Mesh.WF.fromEndpoints {m : Mesh K} (h : m.WF) (s t : Point K) :
    (m.fromEndpoints s t).1.WF := by
  refine ⟨fun e he => ?_, fun e he => ?_, fun e he => ?_⟩ <;>
    rw [fromEndpoints_size] at he <;> by_cases hq : e.q = m.size
  · rw [fromEndpoints_next_new _ _ _ _ hq]
    split <;> simp [hq]
  · rw [fromEndpoints_next_old _ _ _ _ hq, fromEndpoints_size]
    have := h.closed e (by omega)
    omega
  · rw [fromEndpoints_next_new _ _ _ _ hq]
    split <;> simp
  · rw [fromEndpoints_next_old _ _ _ _ hq]
    exact h.par e (by omega)
  · have : ∀ e : Ref, (if e.primal then e else e.opp).q = e.q := by intro e; split <;> rfl
    rw [fromEndpoints_next_new _ _ _ _ hq, fromEndpoints_next_new _ _ _ _ (by simp [this, hq])]
    by_cases hp : e.primal = true
    · simp [hp, Ref.opp]
    · simp [hp, Ref.opp]
  · have hc := h.closed e (by omega)
    rw [fromEndpoints_next_old _ _ _ _ hq, fromEndpoints_next_old _ _ _ _ (by simp; omega)]
    exact h.inv e (by omega)

@[simp] theorem splice_size (m : Mesh K) (a b : Ref) : (m.splice a b).size = m.size := rfl
@[simp] theorem splice_org (m : Mesh K) (a b : Ref) : (m.splice a b).org = m.org := rfl

/-- The arguments of a splice are allocated nodes of the same kind. -/
structure SpliceArgs (m : Mesh K) (a b : Ref) : Prop where
  ha : a.q < m.size
  hb : b.q < m.size
  par : a.primal = b.primal

theorem SpliceArgs.ne_alpha {m : Mesh K} (h : m.WF) {a b : Ref} (hs : SpliceArgs m a b) :
    (m.next a).rot ≠ a ∧ (m.next a).rot ≠ b ∧ (m.next b).rot ≠ a ∧ (m.next b).rot ≠ b := by
  have h1 := h.par a hs.ha
  have h2 := h.par b hs.hb
  have h3 := hs.par
  refine ⟨fun e => ?_, fun e => ?_, fun e => ?_, fun e => ?_⟩ <;>
    (have := congrArg Ref.primal e; simp [h1, h2, h3] at this)

theorem splice_next {m : Mesh K} (h : m.WF) {a b : Ref} (hs : SpliceArgs m a b) (e : Ref) :
    (m.splice a b).next e =
      if e = (m.next b).rot then m.next (m.next a).rot
      else if e = (m.next a).rot then m.next (m.next b).rot
      else if e = b then m.next a else if e = a then m.next b else m.next e := by
  obtain ⟨h1, h2, h3, h4⟩ := hs.ne_alpha h
  simp only [Mesh.splice, updRef]
  split
  · rfl
  · split
    · rfl
    · rfl

theorem Mesh.WF.splice {m : Mesh K} (h : m.WF) {a b : Ref} (hs : SpliceArgs m a b) :
    (m.splice a b).WF := by
  have ca := h.closed a hs.ha
  have cb := h.closed b hs.hb
  have pa := h.par a hs.ha
  have pb := h.par b hs.hb
  have hp := hs.par
  have caa := h.closed (m.next a).rot ca
  have cbb := h.closed (m.next b).rot cb
  refine ⟨fun e he => ?_, fun e he => ?_, fun e he => ?_⟩ <;> rw [splice_size] at he
  · rw [splice_next h hs, splice_size]
    split_ifs
    · exact caa
    · exact cbb
    · exact ca
    · exact cb
    · exact h.closed e he
  · rw [splice_next h hs]
    split_ifs with h1 h2 h3 h4
    · rw [h.par _ (by simpa using ca), h1]; simp [pa, pb, hp]
    · rw [h.par _ (by simpa using cb), h2]; simp [pa, pb, hp]
    · rw [pa, h3, hp]
    · rw [pb, h4, hp]
    · exact h.par e he
  · obtain ⟨n1, n2, n3, n4⟩ := hs.ne_alpha h
    have ia := h.inv a hs.ha
    have ib := h.inv b hs.hb
    rw [splice_next h hs e]
    split_ifs with h1 h2 h3 h4
    · rw [splice_next h hs, ia, if_neg n3.symm, if_neg n1.symm]
      by_cases hab : a = b
      · rw [if_pos hab, h1, hab]
      · rw [if_neg hab, if_pos rfl, h1]
    · rw [splice_next h hs, ib, if_neg n4.symm, if_neg n2.symm, if_pos rfl, h2]
    · rw [splice_next h hs]
      by_cases hab : (m.next a).rot = (m.next b).rot
      · rw [if_pos hab, ia, h3]
        exact h.inj hs.ha hs.hb (Ref.rot_injective hab)
      · rw [if_neg hab, if_pos rfl, ib, h3]
    · rw [splice_next h hs, if_pos rfl, ia, h4]
    · have hc := h.closed e he
      have k1 : (m.next e).rot ≠ (m.next b).rot := fun hh => h3 (h.inj he hs.hb (Ref.rot_injective hh))
      have k2 : (m.next e).rot ≠ (m.next a).rot := fun hh => h4 (h.inj he hs.ha (Ref.rot_injective hh))
      have k3 : (m.next e).rot ≠ b := by
        intro hh
        apply h1
        have := h.inv e he
        rw [hh] at this
        exact this.symm
      have k4 : (m.next e).rot ≠ a := by
        intro hh
        apply h2
        have := h.inv e he
        rw [hh] at this
        exact this.symm
      rw [splice_next h hs, if_neg k1, if_neg k2, if_neg k3, if_neg k4]
      exact h.inv e he

/-- Splicing the same edges again restores the mesh. -/
theorem splice_splice {m : Mesh K} (h : m.WF) {a b : Ref} (hs : SpliceArgs m a b) :
    (m.splice a b).splice a b = m := by
  obtain ⟨n1, n2, n3, n4⟩ := hs.ne_alpha h
  have hw := h.splice hs
  have hs' : SpliceArgs (m.splice a b) a b := ⟨hs.ha, hs.hb, hs.par⟩
  have na : (m.splice a b).next a = m.next b := by
    rw [splice_next h hs, if_neg n3.symm, if_neg n1.symm]
    split
    · rename_i hab; rw [hab]
    · rw [if_pos rfl]
  have nb : (m.splice a b).next b = m.next a := by
    rw [splice_next h hs, if_neg n4.symm, if_neg n2.symm, if_pos rfl]
  have key : ∀ e, ((m.splice a b).splice a b).next e = m.next e := by
    intro e
    rw [splice_next hw hs', na, nb]
    rw [splice_next h hs (m.next b).rot, if_pos rfl]
    have e2 : (m.splice a b).next (m.next a).rot = m.next (m.next b).rot := by
      rw [splice_next h hs]
      split
      · rename_i hh; rw [hh]
      · rw [if_pos rfl]
    rw [e2]
    split_ifs with h1 h2 h3 h4
    · rw [h1]
    · rw [h2]
    · rw [h3]
    · rw [h4]
    · rw [splice_next h hs, if_neg h2, if_neg h1, if_neg h3, if_neg h4]
  have hsz : ((m.splice a b).splice a b).size = m.size := rfl
  have horg : ((m.splice a b).splice a b).org = m.org := rfl
  cases hm : (m.splice a b).splice a b with
  | mk s n o =>
    rw [hm] at hsz horg key
    cases m
    simp only [Mesh.mk.injEq]
    exact ⟨hsz, funext key, horg⟩

/-! ### Composite operations -/

theorem Mesh.WF.rot_closed {m : Mesh K} (h : m.WF) {e : Ref} (he : e.q < m.size) :
    (m.rfs e).q < m.size := h.closed e.rot he

theorem Mesh.WF.rfs_par {m : Mesh K} (h : m.WF) {e : Ref} (he : e.q < m.size) :
    (m.rfs e).primal = e.primal := by
  unfold Mesh.rfs
  rw [Ref.rot_primal, h.par e.rot he, Ref.rot_primal, Bool.not_not]

theorem Mesh.WF.lfe_closed {m : Mesh K} (h : m.WF) {e : Ref} (he : e.q < m.size) :
    (m.lfe e).q < m.size := h.closed e.rot.opp he

theorem Mesh.WF.lfe_par {m : Mesh K} (h : m.WF) {e : Ref} (he : e.q < m.size) :
    (m.lfe e).primal = e.primal := by
  unfold Mesh.lfe
  rw [Ref.rot_primal, h.par e.rot.opp he, Ref.opp_primal, Ref.rot_primal, Bool.not_not]

theorem Mesh.WF.rfe_closed {m : Mesh K} (h : m.WF) {e : Ref} (he : e.q < m.size) :
    (m.rfe e).q < m.size := h.closed e.opp he

theorem Mesh.WF.rfe_par {m : Mesh K} (h : m.WF) {e : Ref} (he : e.q < m.size) :
    (m.rfe e).primal = e.primal := by
  unfold Mesh.rfe
  rw [h.par e.opp he, Ref.opp_primal]

theorem Mesh.WF.delete {m : Mesh K} (h : m.WF) {e : Ref} (he : e.q < m.size) :
    (m.delete e).WF := by
  have h1 : (m.splice e (m.rfs e)).WF := h.splice ⟨he, h.rot_closed he, (h.rfs_par he).symm⟩
  exact h1.splice ⟨he, h1.rot_closed (e := e.opp) he, (h1.rfs_par (e := e.opp) he).symm⟩

@[simp] theorem delete_size (m : Mesh K) (e : Ref) : (m.delete e).size = m.size := rfl
@[simp] theorem delete_org (m : Mesh K) (e : Ref) : (m.delete e).org = m.org := rfl

theorem Mesh.WF.org_irrel {m : Mesh K} (h : m.WF) (o : Ref → Point K) :
    ({ m with org := o } : Mesh K).WF := ⟨h.closed, h.par, h.inv⟩

@[simp] theorem flip_size (m : Mesh K) (e : Ref) : (m.flip e).size = m.size := rfl

theorem Mesh.WF.flip {m : Mesh K} (h : m.WF) {e : Ref} (he : e.q < m.size) : (m.flip e).WF := by
  have hs := h.rot_closed he
  have ho := h.rot_closed (e := e.opp) he
  have ps := h.rfs_par he
  have po := h.rfs_par (e := e.opp) he
  have h1 : (m.splice e (m.rfs e)).WF := h.splice ⟨he, hs, ps.symm⟩
  have h2 : ((m.splice e (m.rfs e)).splice e.opp (m.rfs e.opp)).WF :=
    h1.splice ⟨he, ho, po.symm⟩
  have h3 := h2.splice (a := e)
    (b := ((m.splice e (m.rfs e)).splice e.opp (m.rfs e.opp)).lfe (m.rfs e))
    ⟨he, h2.lfe_closed hs, by rw [h2.lfe_par hs, ps]⟩
  have h4 := h3.splice (a := e.opp)
    (b := (((m.splice e (m.rfs e)).splice e.opp (m.rfs e.opp)).splice e
      (((m.splice e (m.rfs e)).splice e.opp (m.rfs e.opp)).lfe (m.rfs e))).lfe (m.rfs e.opp))
    ⟨he, h3.lfe_closed ho, by rw [h3.lfe_par ho, po]⟩
  exact (h4.org_irrel _).org_irrel _

theorem connect_ref (m : Mesh K) (a b : Ref) : (m.connect a b).2 = ⟨m.size, 0⟩ := rfl
@[simp] theorem connect_size (m : Mesh K) (a b : Ref) : (m.connect a b).1.size = m.size + 1 := rfl

theorem Mesh.WF.connect {m : Mesh K} (h : m.WF) {a b : Ref} (ha : a.q < m.size)
    (hb : b.q < m.size) (pa : a.primal = true) (pb : b.primal = true) :
    (m.connect a b).1.WF := by
  have h1 := h.fromEndpoints (m.stop a) (m.start b)
  have ha' : a.q < (m.fromEndpoints (m.stop a) (m.start b)).1.size := by
    rw [fromEndpoints_size]; omega
  have hb' : b.q < (m.fromEndpoints (m.stop a) (m.start b)).1.size := by
    rw [fromEndpoints_size]; omega
  have hn : (⟨m.size, 0⟩ : Ref).q < (m.fromEndpoints (m.stop a) (m.start b)).1.size := by
    rw [fromEndpoints_size]; simp
  have h2 := h1.splice (a := ⟨m.size, 0⟩)
    (b := (m.fromEndpoints (m.stop a) (m.start b)).1.lfe a)
    ⟨hn, h1.lfe_closed ha', by rw [h1.lfe_par ha', pa]; rfl⟩
  exact h2.splice (a := (⟨m.size, 0⟩ : Ref).opp) (b := b) ⟨hn, hb', by rw [pb, Ref.opp_primal]; rfl⟩

/-! ### Orbits -/

/-- The allocated references. -/
abbrev Mesh.Alloc (m : Mesh K) : Type := { e : Ref // e.q < m.size }

/-- Allocated references as pairs. -/
def Mesh.Alloc.code {m : Mesh K} (e : m.Alloc) : Fin m.size × Fin 4 := ⟨⟨e.1.q, e.2⟩, e.1.r⟩

theorem Mesh.Alloc.code_injective {m : Mesh K} :
    Function.Injective (Mesh.Alloc.code : m.Alloc → _) := by
  intro a b hab
  simp only [Mesh.Alloc.code, Prod.mk.injEq, Fin.mk.injEq] at hab
  apply Subtype.ext
  cases ha : a.1; cases hb : b.1
  simp_all

instance (m : Mesh K) : Finite m.Alloc := Finite.of_injective _ Mesh.Alloc.code_injective

noncomputable instance (m : Mesh K) : Fintype m.Alloc := Fintype.ofFinite _

theorem Mesh.Alloc.card_le (m : Mesh K) : Fintype.card m.Alloc ≤ 4 * m.size := by
  have := Fintype.card_le_of_injective _ (Mesh.Alloc.code_injective (m := m))
  simp only [Fintype.card_prod, Fintype.card_fin] at this
  omega

/-- A map on references that is injective on allocated ones returns to its start. -/
theorem orbit_finite (m : Mesh K) (f : Ref → Ref) (hc : ∀ e, e.q < m.size → (f e).q < m.size)
    (hi : ∀ a b, a.q < m.size → b.q < m.size → f a = f b → a = b) (e : Ref) (he : e.q < m.size) :
    ∃ n, 0 < n ∧ n ≤ 4 * m.size ∧ f^[n] e = e := by
  let g : m.Alloc → m.Alloc := fun a => ⟨f a.1, hc a.1 a.2⟩
  have hg : Function.Injective g := by
    intro a b hab
    exact Subtype.ext (hi a.1 b.1 a.2 b.2 (congrArg Subtype.val hab))
  have hp := Function.Injective.mem_periodicPts hg (⟨e, he⟩ : m.Alloc)
  have hn := Function.minimalPeriod_pos_of_mem_periodicPts hp
  have hfix := Function.isPeriodicPt_minimalPeriod g (⟨e, he⟩ : m.Alloc)
  have hle : Function.minimalPeriod g (⟨e, he⟩ : m.Alloc) ≤ 4 * m.size :=
    (Function.minimalPeriod_le_card).trans (Mesh.Alloc.card_le m)
  refine ⟨_, hn, hle, ?_⟩
  have hit : ∀ k, ((g^[k] ⟨e, he⟩ : m.Alloc)).1 = f^[k] e := by
    intro k
    induction k with
    | zero => rfl
    | succ k ih => rw [Function.iterate_succ_apply', Function.iterate_succ_apply', ← ih]
  rw [← hit]
  exact congrArg Subtype.val hfix

end
end HG
