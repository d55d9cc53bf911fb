import Verif.Lemmas.Provenance
import Verif.Spec.Sample
import Mathlib.Tactic.IntervalCases

/-!
# The quad-edge structure and the triangulation driver (C40, C41, C42)
-/

set_option linter.unusedSectionVars false

namespace HG

section
variable {K : Type} [LinearOrder K] [Zero K] [Add K] [Sub K] [Predicates K]

/-! ## C40 -/

/-- The histories of a heap of quad-edges: creating an edge, connecting, splicing, flipping and
deleting edges.  Arguments are allocated; those of a splice are both edges or both dual edges. -/
inductive Spec.History : Mesh K → Prop where
  | empty {d : Point K} : Spec.History (Mesh.empty d)
  | create {m : Mesh K} (s t : Point K) : Spec.History m → Spec.History (m.fromEndpoints s t).1
  | connect {m : Mesh K} (a b : Ref) : a.q < m.size → b.q < m.size → a.r.val % 2 = 0 →
      b.r.val % 2 = 0 → Spec.History m → Spec.History (m.connect a b).1
  | splice {m : Mesh K} (a b : Ref) : a.q < m.size → b.q < m.size →
      a.r.val % 2 = b.r.val % 2 → Spec.History m → Spec.History (m.splice a b)
  | flip {m : Mesh K} (e : Ref) : e.q < m.size → Spec.History m → Spec.History (m.flip e)
  | delete {m : Mesh K} (e : Ref) : e.q < m.size → Spec.History m → Spec.History (m.delete e)

open Spec

theorem primal_iff (e : Ref) : e.primal = true ↔ e.r.val % 2 = 0 := by
  obtain ⟨q, r⟩ := e
  simp only [Ref.primal]
  fin_cases r <;> simp

theorem primal_eq {a b : Ref} (h : a.r.val % 2 = b.r.val % 2) : a.primal = b.primal := by
  rw [Bool.eq_iff_iff, primal_iff, primal_iff, h]

theorem history_wf {m : Mesh K} (h : History m) : m.WF := by
  induction h with
  | empty => exact Mesh.WF.empty
  | create s t _ ih => exact ih.fromEndpoints s t
  | connect a b ha hb pa pb _ ih => exact ih.connect ha hb ((primal_iff a).2 pa) ((primal_iff b).2 pb)
  | splice a b ha hb hp _ ih => exact ih.splice ⟨ha, hb, primal_eq hp⟩
  | flip e he _ ih => exact ih.flip he
  | delete e he _ ih => exact ih.delete he

theorem Mesh.WF.lfe_lfs {m : Mesh K} (h : m.WF) {e : Ref} (he : e.q < m.size) :
    m.lfe (m.lfs e).opp = e ∧ (m.lfs (m.lfe e)).opp = e ∧
    m.rfe (m.rfs e).opp = e ∧ (m.rfs (m.rfe e)).opp = e := by
  have o : ∀ e : Ref, e.rot.opp.rot = e := fun e => by
    rw [Ref.rot_opp, ← Ref.rot_rot, Ref.rot4]
  have o2 : ∀ e : Ref, e.opp.rot.opp = e.rot := fun e => by
    rw [Ref.rot_opp, Ref.opp_opp]
  refine ⟨?_, ?_, ?_, ?_⟩
  · simp only [Mesh.lfe, Mesh.lfs, o2]
    exact h.inv e he
  · have h1 := h.inv' (e := e.rot.opp) (by simpa using he)
    simp only [Mesh.lfe, Mesh.lfs]
    rw [← o e]
    rw [o e]
    have h2 : m.next (m.next e.rot.opp).rot = e.opp := by
      apply Ref.rot_injective
      rw [h.inv e.rot.opp (by simpa using he), Ref.rot_opp]
    rw [h2, Ref.opp_opp]
  · simp only [Mesh.rfe, Ref.opp_opp]
    exact h.lfs_rfs he
  · simp only [Mesh.rfe]
    have h1 := h.rfs_lfs (e := e.opp) (by simpa using he)
    simp only [Mesh.lfs] at h1
    rw [h1, Ref.opp_opp]

theorem Mesh.WF.rfe_inj {m : Mesh K} (h : m.WF) {a b : Ref} (ha : a.q < m.size)
    (hb : b.q < m.size) (hab : m.rfe a = m.rfe b) : a = b := by
  have := h.inj (a := a.opp) (b := b.opp) (by simpa using ha) (by simpa using hb) hab
  rw [← Ref.opp_opp a, this, Ref.opp_opp]

/-- C40: after any history the four neighbour maps of an edge come in inverse pairs, every ring of
edges around a vertex and around a face is a finite cycle, and splicing twice restores all links
and endpoints. -/
theorem C40_edge_algebra (m : Mesh K) (h : History m) :
    (∀ e : Ref, e.q < m.size →
      m.rfs (m.lfs e) = e ∧ m.lfs (m.rfs e) = e ∧
      m.lfe (m.lfs e).opp = e ∧ (m.lfs (m.lfe e)).opp = e ∧
      m.rfe (m.rfs e).opp = e ∧ (m.rfs (m.rfe e)).opp = e ∧
      (∃ n, 0 < n ∧ n ≤ 4 * m.size ∧ m.lfs^[n] e = e) ∧
      (∃ n, 0 < n ∧ n ≤ 4 * m.size ∧ m.rfe^[n] e = e)) ∧
    ∀ a b : Ref, a.q < m.size → b.q < m.size → a.r.val % 2 = b.r.val % 2 →
      ∀ e : Ref, e.q < m.size →
        ((m.splice a b).splice a b).next e = m.next e ∧
        ((m.splice a b).splice a b).org e = m.org e := by
  have wf := history_wf h
  refine ⟨fun e he => ⟨wf.rfs_lfs he, wf.lfs_rfs he, (wf.lfe_lfs he).1, (wf.lfe_lfs he).2.1,
    (wf.lfe_lfs he).2.2.1, (wf.lfe_lfs he).2.2.2, ?_, ?_⟩, fun a b ha hb hp e he => ⟨?_, rfl⟩⟩
  · exact orbit_finite m m.lfs wf.closed (fun a b ha hb hab => wf.inj ha hb hab) e he
  · exact orbit_finite m m.rfe (fun e he => wf.rfe_closed he)
      (fun a b ha hb hab => wf.rfe_inj ha hb hab) e he
  · rw [splice_splice wf ⟨ha, hb, primal_eq hp⟩]

/-- A square with a diagonal, which is then flipped. -/
def sampleMesh : Mesh ℤ :=
  let m1 := (Mesh.fromEndpoints Mesh.empty ⟨0, 0⟩ ⟨2, 0⟩).1
  let m2 := (m1.fromEndpoints ⟨2, 0⟩ ⟨2, 2⟩).1
  let m3 := m2.splice ⟨0, 2⟩ ⟨1, 0⟩
  let m4 := (m3.connect ⟨1, 0⟩ ⟨0, 0⟩).1
  let m5 := (m4.fromEndpoints ⟨2, 2⟩ ⟨0, 2⟩).1
  let m6 := m5.splice ⟨1, 2⟩ ⟨3, 0⟩
  let m7 := (m6.connect ⟨3, 0⟩ ⟨2, 2⟩).1
  m7.flip ⟨2, 0⟩

theorem sampleMesh_history : History sampleMesh := by
  have h1 := History.create ⟨0, 0⟩ ⟨2, 0⟩ (History.empty (K := ℤ) (d := ⟨0, 0⟩))
  have h2 := History.create ⟨2, 0⟩ ⟨2, 2⟩ h1
  have h3 := History.splice ⟨0, 2⟩ ⟨1, 0⟩ (by decide) (by decide) (by decide) h2
  have h4 := History.connect ⟨1, 0⟩ ⟨0, 0⟩ (by decide) (by decide) (by decide) (by decide) h3
  have h5 := History.create ⟨2, 2⟩ ⟨0, 2⟩ h4
  have h6 := History.splice ⟨1, 2⟩ ⟨3, 0⟩ (by decide) (by decide) (by decide) h5
  have h7 := History.connect ⟨3, 0⟩ ⟨2, 2⟩ (by decide) (by decide) (by decide) (by decide) h6
  exact History.flip ⟨2, 0⟩ (by decide) h7

/-- The flipped diagonal joins the two other vertices of the square. -/
example : sampleMesh.start ⟨2, 0⟩ = ⟨0, 2⟩ ∧ sampleMesh.stop ⟨2, 0⟩ = ⟨2, 0⟩ ∧
    sampleMesh.lfs ⟨2, 0⟩ ≠ ⟨2, 0⟩ := by decide +kernel

/-! ## C41 -/

theorem boundaryLoop_run (m : Mesh K) (s : Ref) (n : Nat) (hn : 0 < n) (c : Ref) (fuel : Nat)
    (hf : n ≤ fuel) (hlast : m.rfe^[n] c = s) (hmin : ∀ k, 0 < k → k < n → m.rfe^[k] c ≠ s) :
    boundaryLoop m s fuel c = .ok ((List.range n).map fun i => m.rfe^[i] c) := by
  induction n generalizing c fuel with
  | zero => omega
  | succ n ih =>
    obtain ⟨fuel, rfl⟩ : ∃ f, fuel = f + 1 := ⟨fuel - 1, by omega⟩
    unfold boundaryLoop
    split
    · rename_i h1
      have : n = 0 := by
        by_contra hne
        exact hmin 1 (by omega) (by omega) h1
      subst this
      simp [pure, Except.pure]
    · rename_i h1
      have hn' : 0 < n := by
        rcases Nat.eq_zero_or_pos n with rfl | h
        · exact absurd hlast h1
        · exact h
      have := ih hn' (m.rfe c) fuel (by omega) (by rw [← Function.iterate_succ_apply]; exact hlast)
        (fun k hk hk' => by
          rw [← Function.iterate_succ_apply]; exact hmin (k + 1) (by omega) (by omega))
      rw [this]
      simp only [Bind.bind, Except.bind, pure, Except.pure, List.range_succ_eq_map, List.map_cons,
        List.map_map, Function.iterate_zero, id_eq, Except.ok.injEq, List.cons.injEq, true_and]
      apply List.map_congr_left
      intro i _
      simp [Function.iterate_succ_apply]

/-- C41: from any edge of any heap with a history, the boundary walk returns to its first edge
after `n > 0` steps, having visited `n` different edges, each one the successor of the previous
one on the boundary. -/
theorem C41_boundary (m : Mesh K) (h : Spec.History m) (t : Tri) (ht : t.leftSide.q < m.size)
    (fuel : Nat) (hf : 4 * m.size ≤ fuel) :
    ∃ n, 0 < n ∧ n ≤ 4 * m.size ∧
      boundaryEdges fuel m t = .ok ((List.range n).map fun i => m.rfe^[i] t.leftSide) ∧
      ((List.range n).map fun i => m.rfe^[i] t.leftSide).Nodup ∧
      m.rfe^[n] t.leftSide = t.leftSide := by
  classical
  have wf := history_wf h
  have hex : ∃ n, 0 < n ∧ n ≤ 4 * m.size ∧ m.rfe^[n] t.leftSide = t.leftSide :=
    orbit_finite m m.rfe (fun e he => wf.rfe_closed he)
      (fun a b ha hb hab => wf.rfe_inj ha hb hab) t.leftSide ht
  obtain ⟨hn, hle, hfix⟩ := Nat.find_spec hex
  have hmin : ∀ k, 0 < k → k < Nat.find hex → m.rfe^[k] t.leftSide ≠ t.leftSide := by
    intro k hk hk' he
    exact Nat.find_min hex hk' ⟨hk, by omega, he⟩
  refine ⟨Nat.find hex, hn, hle, boundaryLoop_run m _ _ hn _ _ (by omega) hfix hmin, ?_, hfix⟩
  rw [List.nodup_map_iff_inj_on List.nodup_range]
  have hclosed : ∀ k, (m.rfe^[k] t.leftSide).q < m.size := by
    intro k
    induction k with
    | zero => exact ht
    | succ k ih => rw [Function.iterate_succ_apply']; exact wf.rfe_closed ih
  have hcancel : ∀ i j, m.rfe^[i + j] t.leftSide = m.rfe^[i] t.leftSide →
      m.rfe^[j] t.leftSide = t.leftSide := by
    intro i j hij
    induction i with
    | zero => simpa using hij
    | succ i ih =>
      apply ih
      rw [show i + 1 + j = (i + j) + 1 by omega, Function.iterate_succ_apply',
        Function.iterate_succ_apply'] at hij
      exact wf.rfe_inj (hclosed _) (hclosed _) hij
  intro i hi j hj hij
  rw [List.mem_range] at hi hj
  rcases Nat.lt_trichotomy i j with h | h | h
  · exfalso
    refine hmin (j - i) (by omega) (by omega) (hcancel i (j - i) ?_)
    rw [show i + (j - i) = j by omega]; exact hij.symm
  · exact h
  · exfalso
    refine hmin (i - j) (by omega) (by omega) (hcancel j (i - j) ?_)
    rw [show j + (i - j) = i by omega]; exact hij

example : boundaryEdges 20 sampleMesh ⟨⟨0, 0⟩, ⟨0, 2⟩⟩ =
    .ok [⟨0, 0⟩, ⟨1, 0⟩, ⟨3, 0⟩, ⟨4, 0⟩] := by decide +kernel

/-! ## C42 -/

/-- One round halves the number of parts, rounding up; the `i`-th part of the result is the merge
of the parts `2i` and `2i + 1`, an unpaired last part is kept. -/
theorem C42_round (fuel : Nat) (ts : List Tri) (m m' : Mesh K) (ts' : List Tri)
    (h : mergeRound fuel m ts = .ok (m', ts')) :
    ts'.length = (ts.length + 1) / 2 ∧
    (∀ i a b, ts[2 * i]? = some a → ts[2 * i + 1]? = some b →
      ∃ (m1 m2 : Mesh K) (t : Tri), mergeTri fuel m1 a b = .ok (m2, t) ∧ ts'[i]? = some t) ∧
    ∀ i a, ts[2 * i]? = some a → ts[2 * i + 1]? = none → ts'[i]? = some a := by
  induction ts using List.twoStepInduction generalizing m ts' with
  | nil =>
    simp only [mergeRound, exc_pure_ok, Prod.mk.injEq] at h
    obtain ⟨rfl, rfl⟩ := h
    simp
  | singleton a =>
    simp only [mergeRound, exc_pure_ok, Prod.mk.injEq] at h
    obtain ⟨rfl, rfl⟩ := h
    refine ⟨by simp, ?_, ?_⟩
    · intro i a b ha hb
      rw [List.getElem?_eq_none (by simp)] at hb
      simp at hb
    · intro i b hb _
      obtain ⟨hi, -⟩ := List.getElem?_eq_some_iff.1 hb
      have : i = 0 := by simp at hi; omega
      subst this
      exact hb
  | cons_cons a b rest ih _ =>
    simp only [mergeRound, exc_bind_ok, exc_pure_ok] at h
    obtain ⟨⟨m1, t⟩, h1, ⟨m2, ts2⟩, h2, h3⟩ := h
    simp only [Prod.mk.injEq] at h3
    obtain ⟨rfl, rfl⟩ := h3
    obtain ⟨hl, hp, hk⟩ := ih _ _ h2
    refine ⟨by simp only [List.length_cons]; omega, ?_, ?_⟩
    · intro i x y hx hy
      rcases i with _ | i
      · simp only [Nat.mul_zero, List.getElem?_cons_zero, Option.some.injEq, Nat.zero_add,
          List.getElem?_cons_succ] at hx hy
        subst hx; subst hy
        exact ⟨m, m1, t, h1, by simp⟩
      · rw [show 2 * (i + 1) = 2 * i + 1 + 1 by ring] at hx
        rw [show 2 * (i + 1) + 1 = 2 * i + 1 + 1 + 1 by ring] at hy
        simp only [List.getElem?_cons_succ] at hx hy ⊢
        exact hp i x y hx hy
    · intro i x hx hy
      rcases i with _ | i
      · simp at hy
      · rw [show 2 * (i + 1) = 2 * i + 1 + 1 by ring] at hx
        rw [show 2 * (i + 1) + 1 = 2 * i + 1 + 1 + 1 by ring] at hy
        simp only [List.getElem?_cons_succ] at hx hy ⊢
        exact hk i x hx hy

theorem mergeRounds_length (fuel : Nat) (k : Nat) (m m' : Mesh K) (ts ts' : List Tri)
    (h : mergeRounds fuel m k ts = .ok (m', ts')) (h0 : 0 < ts.length) (hk : ts.length ≤ 2 ^ k) :
    ts'.length = 1 := by
  induction k generalizing m ts with
  | zero =>
    simp only [mergeRounds, exc_pure_ok, Prod.mk.injEq] at h
    obtain ⟨rfl, rfl⟩ := h
    simp at hk; omega
  | succ k ih =>
    simp only [mergeRounds, exc_bind_ok] at h
    obtain ⟨⟨m1, ts1⟩, h1, h2⟩ := h
    obtain ⟨hl, -⟩ := C42_round fuel ts m m1 ts1 h1
    rw [pow_succ] at hk
    exact ih m1 ts1 h2 (by omega) (by omega)

theorem le_two_pow_ceilLog2 (n : Nat) : n ≤ 2 ^ ceilLog2 n := by
  rcases Nat.eq_zero_or_pos n with rfl | hn
  · simp
  unfold ceilLog2
  rw [if_neg (by omega)]
  split
  · rename_i h
    simp only [Nat.add_sub_cancel]
    by_contra hlt
    push Not at hlt
    have h1 : 2 ^ n.log2 ≤ n := Nat.log2_self_le (by omega)
    have h2 : n < 2 ^ (n.log2 + 1) := Nat.lt_log2_self
    set k := n.log2
    have b1 : n.testBit k = true := by
      rw [Nat.testBit_eq_decide_div_mod_eq]
      have : n / 2 ^ k = 1 := by
        apply Nat.div_eq_of_lt_le <;> rw [pow_succ] at * <;> omega
      simp [this]
    have b2 : (n - 1).testBit k = true := by
      rw [Nat.testBit_eq_decide_div_mod_eq]
      have : (n - 1) / 2 ^ k = 1 := by
        apply Nat.div_eq_of_lt_le <;> rw [pow_succ] at * <;> omega
      simp [this]
    have : (n &&& (n - 1)).testBit k = true := by rw [Nat.testBit_and, b1, b2]; rfl
    rw [h] at this
    simp at this
  · simp only [Nat.sub_zero]
    exact (Nat.lt_log2_self).le

/-- C42: whatever the number of initial parts, the rounds leave exactly one triangulation: the one
that is returned. -/
theorem C42_single (fuel : Nat) (parts : List Nat) (pts : List (Point K)) (m : Mesh K) (t : Tri)
    (h : delaunay fuel parts pts = .ok (m, t)) :
    ∃ m0 ts, initParts (Mesh.empty (pts.headD default)) (pySort Point.leB pts) parts = .ok (m0, ts) ∧
      ts.length = parts.length ∧ mergeRounds fuel m0 (ceilLog2 parts.length) ts = .ok (m, [t]) := by
  have len : ∀ (parts : List Nat) (m0 : Mesh K) (pts : List (Point K)) m1 ts,
      initParts m0 pts parts = .ok (m1, ts) → ts.length = parts.length := by
    intro parts
    induction parts with
    | nil =>
      intro m0 pts m1 ts h
      simp only [initParts, exc_pure_ok, Prod.mk.injEq] at h
      rw [← h.2]; rfl
    | cons a l ih =>
      intro m0 pts m1 ts h
      simp only [initParts, exc_bind_ok, exc_pure_ok] at h
      obtain ⟨⟨m2, t⟩, h1, ⟨m3, ts'⟩, h2, h3⟩ := h
      simp only [Prod.mk.injEq] at h3
      rw [← h3.2, List.length_cons, ih _ _ _ _ h2, List.length_cons]
  simp only [delaunay, exc_bind_ok] at h
  obtain ⟨⟨m1, ts1⟩, h1, ⟨m2, ts2⟩, h2, h3⟩ := h
  have hl := len _ _ _ _ _ h1
  dsimp only at h2 h3
  refine ⟨m1, ts1, h1, hl, ?_⟩
  rw [← hl]
  split at h3
  · simp at h3
  · rename_i t' rest
    simp only [exc_pure_ok, Prod.mk.injEq] at h3
    obtain ⟨rfl, rfl⟩ := h3
    rcases Nat.eq_zero_or_pos ts1.length with h0 | h0
    · have : ts1 = [] := List.length_eq_zero_iff.1 h0
      subst this
      simp [ceilLog2, mergeRounds, exc_pure_ok] at h2
    · have := mergeRounds_length fuel _ m1 m2 ts1 _ h2 h0 (le_two_pow_ceilLog2 _)
      have : rest = [] := by simpa using this
      rw [h2, this]

/-- Seven points: three parts, two rounds. -/
example : (delaunay 60 (Sample.coins 7) (Sample.parab 7)).toOption.isSome = true ∧
    (Sample.coins 7).length = 3 := by decide +kernel

end
end HG
