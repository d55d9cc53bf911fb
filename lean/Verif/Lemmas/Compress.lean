import Verif.Model.Factories
import Verif.Lemmas.Orient
import Verif.Spec.Geometry
import Mathlib.Data.List.GetD
import Mathlib.Tactic.LinearCombination
import Mathlib.Tactic.Ring

/-!
# `compress_contour`: internal lemmas
-/

set_option linter.unusedSectionVars false

namespace HG

open Spec

section
variable {K : Type} [LinearOrder K] [Zero K] [Add K] [Sub K] [Predicates K]

theorem pyAt_nonneg (l : List (Point K)) (i : Nat) : pyAt l (i : Int) = l.getD i ⟨0, 0⟩ := by
  simp [pyAt, pyGet, List.getD, default]

theorem pyAt_neg (l : List (Point K)) (i : Nat) (h0 : 0 < i) (h : i ≤ l.length) :
    pyAt l (-(i : Int)) = l.getD (l.length - i) ⟨0, 0⟩ := by
  have h1 : ¬ (0 : Int) ≤ -(i : Int) := by omega
  have h2 : (0 : Int) ≤ -(i : Int) + l.length := by omega
  have h3 : (-(i : Int) + l.length).toNat = l.length - i := by omega
  simp only [pyAt, pyGet, if_neg h1, if_pos h2, h3]
  simp [List.getD, default]

theorem pyDelAt_nonneg (l : List (Point K)) (i : Nat) (h : i < l.length) :
    pyDelAt l (i : Int) = l.eraseIdx i := by
  simp [pyDelAt, pyDel, h]

theorem pyDelAt_neg (l : List (Point K)) (i : Nat) (h0 : 0 < i) (h : i ≤ l.length) :
    pyDelAt l (-(i : Int)) = l.eraseIdx (l.length - i) := by
  have h1 : ¬ (0 : Int) ≤ -(i : Int) := by omega
  have h2 : (0 : Int) ≤ -(i : Int) + l.length := by omega
  have h3 : (-(i : Int) + l.length).toNat = l.length - i := by omega
  simp only [pyDelAt, pyDel, if_neg h1, if_pos h2, h3, Option.getD_some]

theorem pyDelAt_sublist (l : List (Point K)) (i : Int) : (pyDelAt l i).Sublist l := by
  unfold pyDelAt pyDel
  split
  · split
    · exact List.eraseIdx_sublist _ _
    · exact List.Sublist.refl _
  · split
    · exact List.eraseIdx_sublist _ _
    · exact List.Sublist.refl _

theorem compressInner1_sublist (k fuel : Nat) (vs : List (Point K)) :
    (compressInner1 k fuel vs).Sublist vs := by
  induction fuel generalizing vs with
  | zero => exact List.Sublist.refl _
  | succ n ih =>
    unfold compressInner1
    split
    · exact (ih _).trans (pyDelAt_sublist _ _)
    · exact List.Sublist.refl _

theorem compressPass1_sublist (k : Nat) (vs : List (Point K)) :
    (compressPass1 k vs).Sublist vs := by
  induction k generalizing vs with
  | zero => exact List.Sublist.refl _
  | succ n ih => exact (ih _).trans (compressInner1_sublist _ _ _)

theorem compressInner2_sublist (k fuel : Nat) (vs : List (Point K)) :
    (compressInner2 k fuel vs).Sublist vs := by
  induction fuel generalizing vs with
  | zero => exact List.Sublist.refl _
  | succ n ih =>
    unfold compressInner2
    split
    · exact (ih _).trans (pyDelAt_sublist _ _)
    · exact List.Sublist.refl _

theorem compressPass2_sublist (fuel i : Nat) (vs : List (Point K)) :
    (compressPass2 fuel i vs).Sublist vs := by
  induction fuel generalizing i vs with
  | zero => exact List.Sublist.refl _
  | succ n ih =>
    unfold compressPass2
    split
    · exact (ih _ _).trans (compressInner2_sublist _ _ _)
    · exact List.Sublist.refl _

theorem compressContour_sublist (vs : List (Point K)) : (compressContour vs).Sublist vs :=
  (compressPass2_sublist _ _ _).trans (compressPass1_sublist _ _)

end

section
variable {K : Type} [CommRing K] [LinearOrder K] [IsStrictOrderedRing K]

/-- On a line through two different points the orientation of a third point is decided by any
other two points of the line. -/
theorem collinear_replace {a b c d : Point K} (hbc : b ≠ d) (h : Collinear b c d)
    (h' : Collinear a b d) : Collinear a b c := by
  unfold Collinear area2 at *
  by_cases hx : b.x = d.x
  · have hy : b.y ≠ d.y := fun hy => hbc (by cases b; cases d; simp_all)
    apply mul_left_cancel₀ (sub_ne_zero.2 hy)
    rw [mul_zero]
    linear_combination (c.y - b.y) * (-h') - (a.y - b.y) * h
  · apply mul_left_cancel₀ (sub_ne_zero.2 hx)
    rw [mul_zero]
    linear_combination (c.x - b.x) * (-h') - (a.x - b.x) * h

theorem collinear_replace' {a b c d : Point K} (hbc : b ≠ d) (h : Collinear b c d)
    (h' : Collinear b d a) : Collinear c d a := by
  have := collinear_replace (a := a) (b := d) (c := c) (d := b) hbc.symm
    (by unfold Collinear area2 at *; linear_combination -h)
    (by unfold Collinear area2 at *; linear_combination -h')
  unfold Collinear area2 at *; linear_combination -this

/-- Index of the predecessor. -/
def prev1 (n j : Nat) : Nat := if j = 0 then n - 1 else j - 1
/-- Index of the predecessor of the predecessor. -/
def prev2 (n j : Nat) : Nat := if j = 0 then n - 2 else if j = 1 then n - 1 else j - 2

/-- The vertex before position `j` is not collinear with its neighbours. -/
def Win (l : List (Point K)) (j : Nat) : Prop :=
  ¬ Collinear (l.getD (prev2 l.length j) ⟨0, 0⟩) (l.getD (prev1 l.length j) ⟨0, 0⟩)
    (l.getD j ⟨0, 0⟩)

theorem getD_eraseIdx (l : List (Point K)) (d k : Nat) :
    (l.eraseIdx d).getD k ⟨0, 0⟩ = if k < d then l.getD k ⟨0, 0⟩ else l.getD (k + 1) ⟨0, 0⟩ := by
  simp only [List.getD_eq_getElem?_getD, List.getElem?_eraseIdx]
  split <;> rfl

theorem getD_ne {l : List (Point K)} (h : l.Nodup) {a b : Nat} (ha : a < l.length)
    (hb : b < l.length) (hab : a ≠ b) : l.getD a ⟨0, 0⟩ ≠ l.getD b ⟨0, 0⟩ := by
  rw [List.getD_eq_getElem _ _ ha, List.getD_eq_getElem _ _ hb]
  intro he
  exact hab ((List.Nodup.getElem_inj_iff h).1 he)

theorem pyAt_prev1 (l : List (Point K)) (j : Nat) (h : 2 ≤ l.length) :
    pyAt l ((j : Int) - 1) = l.getD (prev1 l.length j) ⟨0, 0⟩ := by
  unfold prev1
  split
  · subst_vars
    exact pyAt_neg l 1 (by omega) (by omega)
  · rw [← pyAt_nonneg]; congr 1; omega

theorem pyAt_prev2 (l : List (Point K)) (j : Nat) (h : 2 ≤ l.length) :
    pyAt l ((j : Int) - 2) = l.getD (prev2 l.length j) ⟨0, 0⟩ := by
  unfold prev2
  split
  · subst_vars
    exact pyAt_neg l 2 (by omega) (by omega)
  · split
    · subst_vars
      exact pyAt_neg l 1 (by omega) (by omega)
    · rw [← pyAt_nonneg]; congr 1; omega

theorem pyDelAt_prev1 (l : List (Point K)) (j : Nat) (h : 2 ≤ l.length) (hj : j < l.length) :
    pyDelAt l ((j : Int) - 1) = l.eraseIdx (prev1 l.length j) := by
  unfold prev1
  split
  · subst_vars
    exact pyDelAt_neg l 1 (by omega) (by omega)
  · rw [← pyDelAt_nonneg _ _ (by omega)]; congr 1; omega

/-- Deleting the collinear vertex before position `i` keeps the windows before `i`. -/
theorem win_erase {l : List (Point K)} (hn : l.Nodup) {i : Nat} (hi : i < l.length)
    (h4 : 4 ≤ l.length) (hc : ¬ Win l i) (hw : ∀ j < i, Win l j) :
    ∀ j < i, j < l.length - 1 → Win (l.eraseIdx (prev1 l.length i)) j := by
  intro j hj hjn
  have hi0 : i ≠ 0 := by omega
  have hp : prev1 l.length i = i - 1 := by simp [prev1, hi0]
  have hlen : (l.eraseIdx (i - 1)).length = l.length - 1 := List.length_eraseIdx_of_lt (by omega)
  rw [hp]
  unfold Win
  rw [hlen]
  have hwj := hw j hj
  have hc' := not_not.1 hc
  rw [hp] at hc'
  unfold Win at hwj
  intro hbad
  apply hwj
  rw [getD_eraseIdx, getD_eraseIdx, getD_eraseIdx] at hbad
  by_cases hj1 : j = i - 1
  · subst hj1
    have e1 : prev2 l.length i = prev1 l.length (i - 1) := by
      unfold prev1 prev2; split_ifs <;> omega
    have e2 : (if prev2 (l.length - 1) (i - 1) < i - 1 then l.getD (prev2 (l.length - 1) (i - 1)) ⟨0, 0⟩
        else l.getD (prev2 (l.length - 1) (i - 1) + 1) ⟨0, 0⟩) = l.getD (prev2 l.length (i - 1)) ⟨0, 0⟩ := by
      unfold prev2; split_ifs <;> first | omega | (congr 1 <;> omega)
    have e3 : (if prev1 (l.length - 1) (i - 1) < i - 1 then l.getD (prev1 (l.length - 1) (i - 1)) ⟨0, 0⟩
        else l.getD (prev1 (l.length - 1) (i - 1) + 1) ⟨0, 0⟩) = l.getD (prev1 l.length (i - 1)) ⟨0, 0⟩ := by
      unfold prev1; split_ifs <;> first | omega | (congr 1 <;> omega)
    rw [e2, e3, if_neg (by omega)] at hbad
    rw [e1] at hc'
    have e4 : i - 1 + 1 = i := by omega
    rw [e4] at hbad
    refine collinear_replace ?_ hc' hbad
    apply getD_ne hn _ hi
    · unfold prev1; split <;> omega
    · unfold prev1; split <;> omega
  · have hji : j < i - 1 := by omega
    rw [if_pos hji] at hbad
    have e3 : (if prev1 (l.length - 1) j < i - 1 then l.getD (prev1 (l.length - 1) j) ⟨0, 0⟩
        else l.getD (prev1 (l.length - 1) j + 1) ⟨0, 0⟩) = l.getD (prev1 l.length j) ⟨0, 0⟩ := by
      unfold prev1; split_ifs <;> first | omega | (congr 1 <;> omega)
    rw [e3] at hbad
    by_cases hx : j = 0 ∧ i = l.length - 1
    · obtain ⟨rfl, hx⟩ := hx
      have e5 : prev2 (l.length - 1) 0 = l.length - 3 := by simp [prev2]; omega
      have e6 : prev2 l.length i = l.length - 3 := by unfold prev2; split_ifs <;> omega
      have e7 : prev1 l.length 0 = i := by simp [prev1]; omega
      have e8 : prev2 l.length 0 = i - 1 := by simp [prev2]; omega
      rw [e5, if_pos (by omega), e7] at hbad
      rw [e6] at hc'
      rw [e7, e8]
      exact collinear_replace' (getD_ne hn (by omega) hi (by omega)) hc' hbad
    · have e2 : (if prev2 (l.length - 1) j < i - 1 then l.getD (prev2 (l.length - 1) j) ⟨0, 0⟩
          else l.getD (prev2 (l.length - 1) j + 1) ⟨0, 0⟩) = l.getD (prev2 l.length j) ⟨0, 0⟩ := by
        unfold prev2; split_ifs <;> first | omega | (congr 1 <;> omega)
      rw [e2] at hbad
      exact hbad

theorem orient_win (l : List (Point K)) (i : Nat) (h : 2 ≤ l.length) :
    orient (pyAt l ((i : Int) - 1)) (pyAt l ((i : Int) - 2)) (pyAt l (i : Int)) = .collinear ↔
      ¬ Win l i := by
  rw [orient_col_iff, pyAt_prev1 _ _ h, pyAt_prev2 _ _ h, pyAt_nonneg]
  unfold Win Collinear area2 cross
  rw [not_not]
  constructor <;> intro h <;> linear_combination -h

/-- The invariant of the second pass. -/
def Inv2 (i : Nat) (l : List (Point K)) : Prop :=
  l.Nodup ∧ (l.length ≤ 2 ∨ ∀ j < i, j < l.length → Win l j)

theorem compressInner2_inv (i : Nat) (fuel : Nat) (l : List (Point K)) (hf : l.length ≤ fuel)
    (hi : i < l.length) (h : Inv2 i l) : Inv2 (i + 1) (compressInner2 i fuel l) := by
  induction fuel generalizing l with
  | zero => omega
  | succ n ih =>
    unfold compressInner2
    split
    · rename_i hc
      have h3 : 3 ≤ l.length := by omega
      have hp1 : prev1 l.length i < l.length := by unfold prev1; split <;> omega
      have hnw := (orient_win l i (by omega)).1 hc.2
      rw [pyDelAt_prev1 _ _ (by omega) hi]
      have hlen : (l.eraseIdx (prev1 l.length i)).length = l.length - 1 :=
        List.length_eraseIdx_of_lt hp1
      have hnd : (l.eraseIdx (prev1 l.length i)).Nodup :=
        h.1.sublist (List.eraseIdx_sublist _ _)
      have hinv : Inv2 i (l.eraseIdx (prev1 l.length i)) := by
        refine ⟨hnd, ?_⟩
        by_cases h4 : 4 ≤ l.length
        · right
          rw [hlen]
          refine win_erase h.1 hi h4 hnw fun j hj => ?_
          rcases h.2 with h2 | h2
          · omega
          · exact h2 j hj (by omega)
        · left; omega
      by_cases hi' : i < l.length - 1
      · exact ih _ (by omega) (by omega) hinv
      · have : compressInner2 i n (l.eraseIdx (prev1 l.length i)) = l.eraseIdx (prev1 l.length i) := by
          cases n with
          | zero => rfl
          | succ m =>
            unfold compressInner2
            rw [if_neg]
            omega
        rw [this]
        refine ⟨hnd, hinv.2.imp id fun hw j hj hjl => hw j (by omega) hjl⟩
    · rename_i hc
      refine ⟨h.1, ?_⟩
      by_cases h2 : l.length ≤ 2
      · exact .inl h2
      · right
        intro j hj hjl
        by_cases hji : j = i
        · subst hji
          by_contra hw
          exact hc ⟨by omega, (orient_win l j (by omega)).2 hw⟩
        · rcases h.2 with h' | h'
          · omega
          · exact h' j (by omega) hjl

theorem compressPass2_inv (fuel i : Nat) (l : List (Point K)) (hf : l.length ≤ fuel + i)
    (h : Inv2 i l) : ∃ k, (compressPass2 fuel i l).length ≤ k ∧ Inv2 k (compressPass2 fuel i l) := by
  induction fuel generalizing i l with
  | zero => exact ⟨i, by simpa [compressPass2] using hf, h⟩
  | succ n ih =>
    unfold compressPass2
    split
    · rename_i hi
      apply ih
      · have := (compressInner2_sublist i l.length l).length_le
        omega
      · exact compressInner2_inv i _ l le_rfl hi h
    · exact ⟨i, by omega, h⟩

theorem prev_mod (n j : Nat) (hn : 3 ≤ n) (hj : j < n) :
    prev2 n ((j + 2) % n) = j ∧ prev1 n ((j + 2) % n) = (j + 1) % n := by
  by_cases h1 : j + 2 < n
  · rw [Nat.mod_eq_of_lt h1, Nat.mod_eq_of_lt (by omega)]
    simp [prev1, prev2]
  · by_cases h2 : j + 2 = n
    · rw [h2, Nat.mod_self, Nat.mod_eq_of_lt (by omega)]
      simp [prev1, prev2]; omega
    · have h3 : j + 2 = 1 + n := by omega
      have h4 : j + 1 = n := by omega
      rw [h3, Nat.add_mod_right, h4, Nat.mod_self, Nat.mod_eq_of_lt (by omega)]
      simp [prev1, prev2]; omega

theorem strict_iff_win (l : List (Point K)) (hn : 3 ≤ l.length) :
    StrictContour l ↔ ∀ j < l.length, Win l j := by
  have key : ∀ j < l.length, (Win l ((j + 2) % l.length) ↔
      ¬ Collinear (cyc l j) (cyc l (j + 1)) (cyc l (j + 2))) := by
    intro j hj
    have := prev_mod l.length j hn hj
    unfold Win cyc
    rw [this.1, this.2, Nat.mod_eq_of_lt hj]
  constructor
  · intro h j hj
    have h' : (j + l.length - 2) % l.length < l.length := Nat.mod_lt _ (by omega)
    have := (key _ h').2 (h _ h')
    rwa [Nat.mod_add_mod, show j + l.length - 2 + 2 = j + l.length by omega, Nat.add_mod_right,
      Nat.mod_eq_of_lt hj] at this
  · intro h j hj
    exact (key j hj).1 (h _ (Nat.mod_lt _ (by omega)))

theorem compressContour_strict (l : List (Point K)) (hn : l.Nodup) :
    (compressContour l).length ≤ 2 ∨ StrictContour (compressContour l) := by
  have hs := compressPass1_sublist (l.length - 1) l
  obtain ⟨k, hk, hinv⟩ := compressPass2_inv l.length 0 (compressPass1 (l.length - 1) l)
    (by have := hs.length_le; omega) ⟨hn.sublist hs, .inr fun j hj => by omega⟩
  change (compressContour l).length ≤ k at hk
  change Inv2 k (compressContour l) at hinv
  by_cases h2 : (compressContour l).length ≤ 2
  · exact .inl h2
  · right
    rcases hinv.2 with h | h
    · exact absurd h h2
    · exact (strict_iff_win _ (by omega)).2 fun j hj => h j (by omega) hj

/-! ### Strict contours are unchanged -/

theorem orient_win1 (l : List (Point K)) (k : Nat) (h : 3 ≤ l.length) (hk : 0 < k)
    (hkl : k ≤ l.length) :
    orient (pyAt l (-(k : Int) + 1)) (pyAt l (-(k : Int) + 2)) (pyAt l (-(k : Int))) = .collinear ↔
      ¬ Win l ((l.length - k + 2) % l.length) := by
  have hj : l.length - k < l.length := by omega
  have hp := prev_mod l.length (l.length - k) h hj
  rw [orient_col_iff, pyAt_neg _ _ hk hkl]
  have e1 : pyAt l (-(k : Int) + 1) = l.getD ((l.length - k + 1) % l.length) ⟨0, 0⟩ := by
    by_cases h1 : k = 1
    · subst h1
      have : (-((1 : Nat) : Int) + 1) = ((0 : Nat) : Int) := by omega
      rw [this, pyAt_nonneg, show l.length - 1 + 1 = l.length by omega, Nat.mod_self]
    · rw [show (-(k : Int) + 1) = -((k - 1 : Nat) : Int) by omega, pyAt_neg _ _ (by omega) (by omega),
        Nat.mod_eq_of_lt (by omega)]
      congr 1; omega
  have e2 : pyAt l (-(k : Int) + 2) = l.getD ((l.length - k + 2) % l.length) ⟨0, 0⟩ := by
    by_cases h1 : k = 1
    · subst h1
      have : (-((1 : Nat) : Int) + 2) = ((1 : Nat) : Int) := by omega
      rw [this, pyAt_nonneg, show l.length - 1 + 2 = 1 + l.length by omega, Nat.add_mod_right,
        Nat.mod_eq_of_lt (by omega)]
    · by_cases h2 : k = 2
      · subst h2
        have : (-((2 : Nat) : Int) + 2) = ((0 : Nat) : Int) := by omega
        rw [this, pyAt_nonneg, show l.length - 2 + 2 = l.length by omega, Nat.mod_self]
      · rw [show (-(k : Int) + 2) = -((k - 2 : Nat) : Int) by omega,
          pyAt_neg _ _ (by omega) (by omega), Nat.mod_eq_of_lt (by omega)]
        congr 1; omega
  rw [e1, e2]
  unfold Win
  rw [hp.1, hp.2, not_not]
  unfold Collinear area2 cross
  constructor <;> intro h <;> linear_combination h

theorem compressInner1_id (k fuel : Nat) (l : List (Point K)) (hk : 0 < k) (hkl : k ≤ l.length)
    (h : StrictContour l) : compressInner1 k fuel l = l := by
  cases fuel with
  | zero => rfl
  | succ n =>
    unfold compressInner1
    rw [if_neg]
    rintro ⟨h1, h2⟩
    have h3 : 3 ≤ l.length := by omega
    exact (orient_win1 l k h3 hk hkl).1 h2 ((strict_iff_win l h3).1 h _ (Nat.mod_lt _ (by omega)))

theorem compressPass1_id (k : Nat) (l : List (Point K)) (hkl : k ≤ l.length)
    (h : StrictContour l) : compressPass1 k l = l := by
  induction k with
  | zero => rfl
  | succ n ih => rw [compressPass1, compressInner1_id _ _ _ (by omega) hkl h, ih (by omega)]

theorem compressPass2_id (fuel i : Nat) (l : List (Point K)) (h : StrictContour l) :
    compressPass2 fuel i l = l := by
  induction fuel generalizing i with
  | zero => rfl
  | succ n ih =>
    unfold compressPass2
    split
    · rename_i hi
      have : compressInner2 i l.length l = l := by
        cases hl : l.length with
        | zero => rfl
        | succ m =>
          unfold compressInner2
          rw [if_neg]
          rintro ⟨h1, h2⟩
          have h3 : 3 ≤ l.length := by omega
          exact (orient_win l i (by omega)).1 h2 ((strict_iff_win l h3).1 h i hi)
      rw [this, ih]
    · rfl

theorem compressContour_id (l : List (Point K)) (h : StrictContour l) : compressContour l = l := by
  unfold compressContour
  rw [compressPass1_id _ _ (by omega) h, compressPass2_id _ _ _ h]

end
end HG
