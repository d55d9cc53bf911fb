import Verif.Lemmas.Feasible

/-!
# Points on supporting lines belong to the maximal hull
-/

set_option linter.unusedSectionVars false

namespace HG

open Spec

section
variable {K : Type} [CommRing K] [LinearOrder K] [IsStrictOrderedRing K]

/-- A point that is greatest in some direction belongs to the maximal hull. -/
theorem support_mem_max {pts : List (Point K)} (hn : pts.Nodup) (h2 : 2 ≤ pts.length) {A B : K}
    (hAB : 0 < A * A + B * B) {v : Point K} (hvp : v ∈ pts)
    (hle : ∀ q ∈ pts, lin A B q ≤ lin A B v) : v ∈ toMaxConvexHull pts := by
  by_contra hnot
  obtain ⟨g2, g1, g3, g4⟩ := C43_max_hull pts hn h2
  set M := toMaxConvexHull pts with hM
  have hMne : M ≠ [] := by rintro he; rw [he] at g2; simp at g2
  obtain ⟨m0, hm0, hmax0⟩ : ∃ v ∈ M, ∀ w ∈ M, lin A B w ≤ lin A B v := by
    obtain ⟨v, hv⟩ : ∃ v, v ∈ List.argmax (lin A B) M := by
      cases h : List.argmax (lin A B) M with
      | none => exact absurd (List.argmax_eq_none.1 h) hMne
      | some v => exact ⟨v, rfl⟩
    exact ⟨v, List.argmax_mem hv, fun w hw => List.le_of_mem_argmax hw hv⟩
  let M' := M.filter fun w => decide (lin A B w = lin A B m0)
  obtain ⟨m, hm', hmax'⟩ : ∃ v ∈ M', ∀ w ∈ M', lin (-B) A w ≤ lin (-B) A v := by
    have hne : M' ≠ [] := by
      intro he
      have : m0 ∈ M' := List.mem_filter.2 ⟨hm0, by simp⟩
      rw [he] at this
      simp at this
    obtain ⟨v, hv⟩ : ∃ v, v ∈ List.argmax (lin (-B) A) M' := by
      cases h : List.argmax (lin (-B) A) M' with
      | none => exact absurd (List.argmax_eq_none.1 h) hne
      | some v => exact ⟨v, rfl⟩
    exact ⟨v, List.argmax_mem hv, fun w hw => List.le_of_mem_argmax hw hv⟩
  obtain ⟨hm, hmf⟩ := List.mem_filter.1 hm'
  have hmf : lin A B m = lin A B m0 := by simpa using hmf
  obtain ⟨j, hj, rfl⟩ := List.mem_iff_getElem.1 hm
  set N := M.length with hN
  have hmj : cyc M j = M[j] := by
    unfold cyc; rw [Nat.mod_eq_of_lt hj, List.getD_eq_getElem _ _ hj]
  set w := cyc M j with hw
  set c := cyc M (j + N - 1) with hcdef
  set d := cyc M (j + 1) with hd
  have hcw : cyc M (j + N - 1 + 1) = w := by
    rw [hw]; unfold cyc; rw [show j + N - 1 + 1 = j + N by omega, Nat.add_mod_right]
  have mod1' : ∀ k, cyc M (k % N) = cyc M k := fun k => by unfold cyc; rw [Nat.mod_mod]
  have modadd' : ∀ k, cyc M (k % N + 1) = cyc M (k + 1) := fun k => by
    unfold cyc; rw [Nat.mod_add_mod]
  have hcM : c ∈ M := cyc_mem (by omega) _
  have hdM : d ∈ M := cyc_mem (by omega) _
  rw [← hmj] at hmf hmax'
  have s1 : 0 < area2 c w v := by
    have := g4 ((j + N - 1) % N) (Nat.mod_lt _ (by omega)) v hvp hnot
    rwa [mod1', modadd', hcw] at this
  have s2 : 0 < area2 w d v := g4 j hj v hvp hnot
  have s3 : 0 ≤ area2 c w d := by
    have := g3 ((j + N - 1) % N) (Nat.mod_lt _ (by omega)) d (g1 d hdM)
    rwa [mod1', modadd', hcw] at this
  have f1 : lin A B c ≤ lin A B w := by rw [hmf]; exact hmax0 c hcM
  have f2 : lin A B d ≤ lin A B w := by rw [hmf]; exact hmax0 d hdM
  have f3 : lin A B w ≤ lin A B v := hle w (g1 _ (cyc_mem (by omega) _))
  have id1 : (lin A B w - lin A B c) * area2 w d v + (lin A B w - lin A B d) * area2 c w v +
      (lin A B v - lin A B w) * area2 c w d = 0 := by
    simp only [lin, area2]; ring
  have t1 : 0 ≤ (lin A B w - lin A B c) * area2 w d v := mul_nonneg (by linarith) s2.le
  have t2 : 0 ≤ (lin A B w - lin A B d) * area2 c w v := mul_nonneg (by linarith) s1.le
  have t3 : 0 ≤ (lin A B v - lin A B w) * area2 c w d := mul_nonneg (by linarith) s3
  have z1 : (lin A B w - lin A B c) * area2 w d v = 0 := by linarith
  have z : lin A B w - lin A B c = 0 := (mul_eq_zero.1 z1).resolve_right s2.ne'
  have hcM' : c ∈ M' := List.mem_filter.2 ⟨hcM, by
    simp only [decide_eq_true_eq]; rw [← hmf]; linarith⟩
  have g := hmax' c hcM'
  have id2 : (lin A B v - lin A B w) * (lin (-B) A w - lin (-B) A c) =
      (lin A B w - lin A B c) * (lin (-B) A v - lin (-B) A w) -
        (A * A + B * B) * area2 c w v := by
    simp only [lin, area2]; ring
  rw [z, zero_mul, zero_sub] at id2
  have k1 : 0 ≤ (lin A B v - lin A B w) * (lin (-B) A w - lin (-B) A c) :=
    mul_nonneg (by linarith) (by linarith)
  have k2 := mul_pos hAB s1
  linarith

end
end HG
