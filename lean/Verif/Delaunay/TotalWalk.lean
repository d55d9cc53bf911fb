import Verif.Delaunay.Total
import Verif.Delaunay.VertexSeq
import Verif.Delaunay.HullIn

/-!
# Walks around faces and points terminate
-/

set_option linter.unusedSectionVars false

namespace HG

open Spec

/-- An injective map of a finite set into itself returns to its start. -/
theorem cycle_exists {α : Type} {S : Set α} (hf : S.Finite) (f : α → α) (hm : ∀ x ∈ S, f x ∈ S)
    (hi : ∀ x ∈ S, ∀ y ∈ S, f x = f y → x = y) {x : α} (hx : x ∈ S) :
    ∃ k, 0 < k ∧ k ≤ S.ncard ∧ f^[k] x = x := by
  have : Finite S := hf
  have : Fintype S := Fintype.ofFinite _
  let g : S → S := fun a => ⟨f a.1, hm a.1 a.2⟩
  have hg : Function.Injective g := by
    intro a b hab
    exact Subtype.ext (hi a.1 a.2 b.1 b.2 (congrArg Subtype.val hab))
  have hp := Function.Injective.mem_periodicPts hg (⟨x, hx⟩ : S)
  have hn := Function.minimalPeriod_pos_of_mem_periodicPts hp
  have hfix := Function.isPeriodicPt_minimalPeriod g (⟨x, hx⟩ : S)
  have hle : Function.minimalPeriod g (⟨x, hx⟩ : S) ≤ S.ncard := by
    have := (Function.minimalPeriod_le_card (f := g) (x := (⟨x, hx⟩ : S)))
    rwa [← Nat.card_eq_fintype_card, Nat.card_coe_set_eq] at this
  refine ⟨_, hn, hle, ?_⟩
  have hit : ∀ k, ((g^[k] ⟨x, hx⟩ : S)).1 = f^[k] x := by
    intro k
    induction k with
    | zero => rfl
    | succ k ih => rw [Function.iterate_succ_apply', Function.iterate_succ_apply', ← ih]
  rw [← hit]
  exact congrArg Subtype.val hfix

variable {K : Type} [CommRing K] [LinearOrder K] [IsStrictOrderedRing K]
variable {P : List (Point K)} {m : Mesh K} {D : Ref → Prop} {t : Tri} {B : List Ref} {e : Ref}

/-- Darts closed under the operations of the mesh, without parallel edges, between points of a
list. -/
structure Net (P : List (Point K)) (m : Mesh K) (D : Ref → Prop) : Prop where
  wf : m.WF
  edge : ∀ {e}, D e → m.Edge e
  opp : ∀ {e}, D e → D e.opp
  next : ∀ {e}, D e → D (m.next e)
  mem : ∀ {e}, D e → m.org e ∈ P
  simple : ∀ {e f}, D e → D f → m.org e = m.org f → m.org e.opp = m.org f.opp → e = f

theorem Tgl.net (h : Tgl m D P t) : Net P m D := ⟨h.wf, h.edge, h.opp, h.next, h.mem, h.simple⟩

theorem Bord.net (h : Bord P m D B) : Net P m D := ⟨h.wf, h.edge, h.opp, h.next, h.mem, h.simple⟩

theorem Net.card (h : Net P m D) : {e | D e}.Finite ∧ {e | D e}.ncard ≤ P.length * P.length := by
  have hinj : Set.InjOn (fun e : Ref => (m.org e, m.org e.opp)) {e | D e} := by
    intro e he f hf hh
    simp only [Prod.mk.injEq] at hh
    exact h.simple he hf hh.1 hh.2
  have hmaps : Set.MapsTo (fun e : Ref => (m.org e, m.org e.opp)) {e | D e}
      {x | x ∈ P.product P ∧ True} := by
    intro e he
    exact ⟨List.mem_product.2 ⟨h.mem he, h.mem (h.opp he)⟩, trivial⟩
  have hfin := finite_list (P.product P) (fun _ => True)
  refine ⟨Set.Finite.of_injOn hmaps hinj hfin, ?_⟩
  calc {e | D e}.ncard ≤ {x | x ∈ P.product P ∧ True}.ncard :=
        Set.ncard_le_ncard_of_injOn _ hmaps hinj hfin
    _ ≤ (P.product P).length := ncard_list _ _
    _ = P.length * P.length := List.length_product ..

theorem Net.next_inj (h : Net P m D) {e f : Ref} (he : D e) (hf : D f) (hn : m.next e = m.next f) :
    e = f := h.wf.inj (h.edge he).alloc (h.edge hf).alloc hn

theorem boundaryLoop_total (m : Mesh K) (s : Ref) (fuel : Nat) {c : Ref} {k : Nat} (hk : 0 < k)
    (hle : k ≤ fuel) (h : m.rfe^[k] c = s) : ∃ es, boundaryLoop m s fuel c = .ok es := by
  induction fuel generalizing c k with
  | zero => omega
  | succ n ih =>
    unfold boundaryLoop
    split
    · exact ⟨_, rfl⟩
    · rename_i hne
      obtain ⟨k, rfl⟩ := Nat.exists_eq_succ_of_ne_zero hk.ne'
      rw [Function.iterate_succ_apply] at h
      have hk0 : k ≠ 0 := by
        rintro rfl
        exact hne h
      obtain ⟨es, hes⟩ := ih (Nat.pos_of_ne_zero hk0) (by omega) h
      rw [hes]
      exact ⟨_, rfl⟩

/-- The boundary walk returns to its start. -/
theorem Net.boundary (h : Net P m D) (hd : D t.leftSide) {fuel : Nat}
    (hf : P.length * P.length ≤ fuel) : ∃ es, boundaryEdges fuel m t = .ok es := by
  obtain ⟨k, k1, k2, k3⟩ := cycle_exists h.card.1 m.rfe (fun x hx => h.next (h.opp hx))
    (fun x hx y hy hh => by
      have := h.next_inj (h.opp hx) (h.opp hy) hh
      rw [← Ref.opp_opp x, ← Ref.opp_opp y, this]) hd
  exact boundaryLoop_total m _ fuel k1 (k2.trans (h.card.2.trans hf)) k3

/-- The assertion of the edge weight cannot fail. -/
theorem Net.no_assert (h : Net P m D) (he : D e)
    (hq : isConvexQuadDiagonal m (m.lfe e) = true) : m.lfe e ≠ m.rfe e := by
  intro hh
  have h0 := h.edge (h.opp he)
  have e1 : m.next (m.lfe e) = e.opp := by
    rw [lfe_rfs]
    have hd : m.Edge (m.rfs e.opp) := by
      rw [← lfe_rfs, hh]
      exact h.edge (h.next (h.opp he))
    exact (eq_rfs_iff h.wf h0 hd).1 rfl
  have e2 : m.rfs (m.lfe e) = e.opp := by
    rw [hh]
    exact ((eq_rfs_iff h.wf (h.edge (h.next (h.opp he))) h0).2 rfl).symm
  unfold isConvexQuadDiagonal at hq
  simp only [Bool.and_eq_true] at hq
  have h4 := hq.2
  unfold isCcw at h4
  rw [decide_eq_true_eq] at h4
  unfold Mesh.orientationOf Mesh.start Mesh.stop Mesh.lfs at h4
  rw [e1, e2, orient_ccw_iff, Ref.opp_opp] at h4
  unfold cross at h4
  linarith

theorem Net.weight (h : Net P m D) (s : Ref) (fuel : Nat) {c : Ref} {k w : Nat} (hc : D c) (hk : 0 < k)
    (hle : k ≤ fuel) (hs : m.next^[k] c = s) : ∃ w', edgeWeightLoop m s fuel c w = .ok w' := by
  induction fuel generalizing c k w with
  | zero => omega
  | succ n ih =>
    unfold edgeWeightLoop
    dsimp only
    rw [if_neg (fun hh => h.no_assert hc hh.1 hh.2)]
    split
    · exact ⟨_, rfl⟩
    · rename_i hne
      obtain ⟨k, rfl⟩ := Nat.exists_eq_succ_of_ne_zero hk.ne'
      rw [Function.iterate_succ_apply] at hs
      have hk0 : k ≠ 0 := by
        rintro rfl
        exact hne hs
      exact ih (h.next hc) (Nat.pos_of_ne_zero hk0) (by omega) hs

/-- The key of an edge is always found. -/
theorem Net.key (h : Net P m D) (he : D e) {fuel : Nat} (hf : P.length * P.length ≤ fuel) :
    ∃ k, edgeKey fuel m e = .ok k := by
  obtain ⟨k, k1, k2, k3⟩ := cycle_exists h.card.1 m.next (fun x hx => h.next hx)
    (fun x hx y hy hh => h.next_inj hx hy hh) he
  obtain ⟨w, hw⟩ := h.weight e fuel (w := 0) he k1 (k2.trans (h.card.2.trans hf)) k3
  unfold edgeKey
  rw [hw]
  exact ⟨_, rfl⟩

end HG
