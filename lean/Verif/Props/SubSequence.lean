import Verif.Lemmas.Sizes
import Mathlib.Data.List.GetD

/-!
# Sub-sequences (C44) and reversed holes (C23)
-/

set_option linter.unusedSectionVars false

namespace HG

open Strategy Spec

/-- C44: a drawn sub-sequence consists of different occurrences of the given values (it is a
sublist of a permutation), has at least the minimal size, and every such selection can be drawn. -/
theorem C44_sub_sequence {α : Type} (lo : Int) (h0 : 0 ≤ lo) (l s : List α) :
    (toSubSequenceStrategy lo l).val s ↔ s.Subperm l ∧ lo ≤ s.length := by
  constructor
  · intro h
    refine ⟨?_, (subSequence_size h0 h).1⟩
    simp only [toSubSequenceStrategy, val_map, val_prod, val_permutations, val_integers] at h
    obtain ⟨⟨p, k⟩, ⟨hp, hk1, hk2⟩, rfl⟩ := h
    refine List.Subperm.trans (List.Sublist.subperm ?_) hp.subperm
    unfold cut
    split
    · exact List.take_sublist _ _
    · exact List.Sublist.refl _
  · rintro ⟨h, hlo⟩
    obtain ⟨t, ht, hts⟩ := h
    obtain ⟨r, hr⟩ := hts.exists_perm_append
    simp only [toSubSequenceStrategy, val_map, val_prod, val_permutations, val_integers]
    have hp : (s ++ r).Perm l := (ht.symm.append_right r).trans hr.symm
    have hlen : s.length + r.length = l.length := by
      rw [← List.length_append]; exact hp.length_eq
    refine ⟨(s ++ r, s.length), ⟨hp, hlo, by simp only; omega⟩, ?_⟩
    unfold cut
    simp only [List.length_append, Nat.cast_add, Int.toNat_natCast, List.take_left']
    split
    · rfl
    · have : r = [] := List.eq_nil_of_length_eq_zero (by omega)
      simp [this]

/-- C44: a duplicate-free collection has duplicate-free sub-sequences. -/
theorem C44_nodup {α : Type} (lo : Int) (h0 : 0 ≤ lo) (l s : List α) (hl : l.Nodup)
    (h : (toSubSequenceStrategy lo l).val s) : s.Nodup ∧ ∀ a ∈ s, a ∈ l := by
  have := ((C44_sub_sequence lo h0 l s).1 h).1
  obtain ⟨t, ht, hts⟩ := this
  exact ⟨ht.nodup_iff.1 (hts.nodup hl), fun a ha => hts.subset (ht.mem_iff.2 ha)⟩

example : (toSubSequenceStrategy 2 ['a', 'b', 'c']).val ['c', 'a'] :=
  (C44_sub_sequence 2 (by norm_num) _ _).2 ⟨by
    refine ⟨['a', 'c'], List.Perm.swap _ _ _, ?_⟩
    exact List.Sublist.cons_cons _ (List.Sublist.cons _ (List.Sublist.refl _)), by simp⟩

section
variable {K : Type} [LinearOrder K] [Zero K] [Add K] [Sub K] [Predicates K]

/-- C23: the vertices of a hole are those of the contour it is made of, read in the opposite
direction from the same vertex. -/
theorem C23_reverse (vs : List (Point K)) (i : Nat) (hi : i < vs.length) :
    (reverseVertices vs).length = vs.length ∧
    cyc (reverseVertices vs) i = cyc vs (vs.length - i) := by
  cases vs with
  | nil => simp at hi
  | cons a l =>
    have hlen : (reverseVertices (a :: l)).length = (a :: l).length := by
      simp [reverseVertices]
    refine ⟨hlen, ?_⟩
    unfold cyc
    rw [hlen, Nat.mod_eq_of_lt hi]
    simp only [reverseVertices, List.take_succ_cons, List.take_zero, List.drop_succ_cons,
      List.drop_zero, List.length_cons] at hi ⊢
    cases i with
    | zero => simp
    | succ i =>
      have h1 : l.length + 1 - (i + 1) = l.length - i := by omega
      rw [h1, Nat.mod_eq_of_lt (by omega), List.singleton_append, List.getD_cons_succ]
      have h2 : l.length - i = (l.length - 1 - i) + 1 := by omega
      rw [h2, List.getD_cons_succ, List.getD_eq_getElem _ _ (by simp; omega),
        List.getD_eq_getElem _ _ (by omega), List.getElem_reverse]

theorem cyc_mod (l : List (Point K)) (i : Nat) : cyc l (i % l.length) = cyc l i := by
  simp [cyc]

theorem cyc_add_length (l : List (Point K)) (i : Nat) : cyc l (i + l.length) = cyc l i := by
  simp [cyc]

theorem cyc_reverse (vs : List (Point K)) (i : Nat) (hi : i ≤ 2 * vs.length) :
    cyc (reverseVertices vs) i = cyc vs (2 * vs.length - i) := by
  rcases Nat.eq_zero_or_pos vs.length with h0 | h0
  · have : vs = [] := List.eq_nil_of_length_eq_zero h0
    subst this
    rfl
  have hlen := (C23_reverse vs 0 h0).1
  have h1 : i % vs.length < vs.length := Nat.mod_lt _ h0
  rw [← cyc_mod, hlen, (C23_reverse vs _ h1).2]
  rcases Nat.lt_or_ge i vs.length with h | h
  · rw [Nat.mod_eq_of_lt h, ← cyc_add_length]
    congr 1
    omega
  · rcases Nat.lt_or_ge i (2 * vs.length) with h' | h'
    · have : i % vs.length = i - vs.length := by
        rw [Nat.mod_eq_sub_mod h, Nat.mod_eq_of_lt (by omega)]
      rw [this]
      congr 1
      omega
    · have : i = vs.length * 2 := by omega
      subst this
      rw [Nat.mul_mod_right, Nat.mul_comm, Nat.sub_self, Nat.sub_zero, ← Nat.zero_add vs.length,
        cyc_add_length]

end

section
variable {K : Type} [CommRing K] [LinearOrder K] [IsStrictOrderedRing K]

/-- C23: the turn at every vertex of a hole is opposite to the turn of the contour there; in
particular a counterclockwise contour becomes a clockwise hole. -/
theorem C23_orientation (vs : List (Point K)) (i : Nat) (hi : i < vs.length) :
    area2 (cyc (reverseVertices vs) i) (cyc (reverseVertices vs) (i + 1))
      (cyc (reverseVertices vs) (i + 2)) =
    - area2 (cyc vs (2 * vs.length - (i + 2))) (cyc vs (2 * vs.length - (i + 1)))
      (cyc vs (2 * vs.length - i)) := by
  rcases Nat.lt_or_ge vs.length 2 with h | h
  · have h1 : vs.length = 1 := by omega
    obtain ⟨a, rfl⟩ := List.length_eq_one_iff.1 h1
    simp [cyc, area2, reverseVertices, Nat.mod_one]
  rw [cyc_reverse vs i (by omega), cyc_reverse vs (i + 1) (by omega),
    cyc_reverse vs (i + 2) (by omega)]
  unfold area2
  ring

example : reverseVertices [(⟨0, 0⟩ : Point ℤ), ⟨1, 0⟩, ⟨1, 1⟩, ⟨0, 1⟩] =
    [⟨0, 0⟩, ⟨0, 1⟩, ⟨1, 1⟩, ⟨1, 0⟩] := by decide

end
end HG
