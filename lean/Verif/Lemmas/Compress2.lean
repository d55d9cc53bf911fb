import Verif.Lemmas.Compress

/-!
# Compression of arbitrary vertex lists: internal lemmas

Without assuming distinct vertices: neighbouring vertices of the result differ.
-/

set_option linter.unusedSectionVars false

namespace HG

open Spec

section
variable {K : Type} [CommRing K] [LinearOrder K] [IsStrictOrderedRing K]

/-- Three vertices at consecutive positions are not collinear. -/
def Tl (l : List (Point K)) (j : Nat) : Prop :=
  ¬ Collinear (l.getD j ⟨0, 0⟩) (l.getD (j + 1) ⟨0, 0⟩) (l.getD (j + 2) ⟨0, 0⟩)

theorem Tl.erase_gt {l : List (Point K)} {j d : Nat} (h : Tl l j) (hd : j + 2 < d) :
    Tl (l.eraseIdx d) j := by
  unfold Tl
  rw [getD_eraseIdx, getD_eraseIdx, getD_eraseIdx, if_pos (by omega), if_pos (by omega),
    if_pos hd]
  exact h

theorem Tl.erase_le {l : List (Point K)} {j d : Nat} (h : Tl l (j + 1)) (hd : d ≤ j) :
    Tl (l.eraseIdx d) j := by
  unfold Tl
  rw [getD_eraseIdx, getD_eraseIdx, getD_eraseIdx, if_neg (by omega), if_neg (by omega),
    if_neg (by omega)]
  exact h

/-- The condition of the first pass at a position inside the list. -/
theorem orient_tl (l : List (Point K)) (k : Nat) (hk : 3 ≤ k) (hkl : k ≤ l.length) :
    orient (pyAt l (-(k : Int) + 1)) (pyAt l (-(k : Int) + 2)) (pyAt l (-(k : Int))) = .collinear ↔
      ¬ Tl l (l.length - k) := by
  rw [orient_col_iff, pyAt_neg _ _ (by omega) hkl]
  have e1 : -(k : Int) + 1 = -((k - 1 : Nat) : Int) := by omega
  have e2 : -(k : Int) + 2 = -((k - 2 : Nat) : Int) := by omega
  rw [e1, e2, pyAt_neg _ _ (by omega) (by omega), pyAt_neg _ _ (by omega) (by omega)]
  have f1 : l.length - (k - 1) = l.length - k + 1 := by omega
  have f2 : l.length - (k - 2) = l.length - k + 2 := by omega
  rw [f1, f2]
  unfold Tl Collinear area2 cross
  rw [not_not]
  constructor <;> intro h <;> linear_combination h

/-- All inner triples up to a position. -/
def InvA (k : Nat) (l : List (Point K)) : Prop :=
  ∀ j, 1 ≤ j → j + k ≤ l.length → j + 2 < l.length → Tl l j

theorem compressInner1_invA {k : Nat} (hk : 1 ≤ k) (fuel : Nat) {l : List (Point K)}
    (hf : l.length ≤ fuel) (h : InvA (k + 1) l) : InvA k (compressInner1 k fuel l) := by
  induction fuel generalizing l with
  | zero =>
    have : l = [] := List.length_eq_zero_iff.1 (by omega)
    subst this
    intro j _ _ hj
    simp [compressInner1] at hj
  | succ n ih =>
    unfold compressInner1
    by_cases hk3 : 3 ≤ k
    · split
      · rename_i hc
        have hkl : k < l.length := lt_of_le_of_lt (le_max_right _ _) hc.1
        have e1 : -(k : Int) + 1 = -((k - 1 : Nat) : Int) := by omega
        have hd : pyDelAt l (-(k : Int) + 1) = l.eraseIdx (l.length - k + 1) := by
          rw [e1, pyDelAt_neg _ _ (by omega) (by omega)]
          congr 1; omega
        rw [hd]
        have hlen : (l.eraseIdx (l.length - k + 1)).length = l.length - 1 :=
          List.length_eraseIdx_of_lt (by omega)
        apply ih (by omega)
        intro j h1 h2 h3
        rw [hlen] at h2 h3
        exact (h j h1 (by omega) (by omega)).erase_gt (by omega)
      · rename_i hc
        intro j h1 h2 h3
        by_cases hj : j + k = l.length
        · have hl : max 2 k < l.length := by
            rw [max_eq_right (by omega)]; omega
          have := fun he => hc ⟨hl, he⟩
          rw [orient_tl l k hk3 (by omega)] at this
          have e : l.length - k = j := by omega
          rw [e] at this
          exact not_not.1 this
        · exact h j h1 (by omega) h3
    · have key : ∀ m : List (Point K), m.length ≤ l.length → InvA 3 m → InvA k m := by
        intro m hm hi j h1 h2 h3
        exact hi j h1 (by omega) h3
      have hk' : k = 1 ∨ k = 2 := by omega
      have h3 : InvA 3 l := by
        intro j h1 h2 h3
        exact h j h1 (by omega) h3
      split
      · rename_i hc
        have hl : 2 < l.length := lt_of_le_of_lt (le_max_left _ _) hc.1
        apply ih
        · have hd : (pyDelAt l (-(k : Int) + 1)).length + 1 = l.length := by
            rcases hk' with rfl | rfl
            · rw [show (-((1 : Nat) : Int) + 1) = ((0 : Nat) : Int) by norm_num,
                pyDelAt_nonneg _ _ (by omega), List.length_eraseIdx_of_lt (by omega)]
              omega
            · rw [show (-((2 : Nat) : Int) + 1) = -((1 : Nat) : Int) by norm_num,
                pyDelAt_neg _ _ (by omega) (by omega), List.length_eraseIdx_of_lt (by omega)]
              omega
          omega
        · intro j h1 h2 h5
          rcases hk' with rfl | rfl
          · rw [show (-((1 : Nat) : Int) + 1) = ((0 : Nat) : Int) by norm_num,
                pyDelAt_nonneg _ _ (by omega)] at *
            rw [List.length_eraseIdx_of_lt (by omega)] at h2 h5
            exact (h3 (j + 1) (by omega) (by omega) (by omega)).erase_le (by omega)
          · rw [show (-((2 : Nat) : Int) + 1) = -((1 : Nat) : Int) by norm_num,
                pyDelAt_neg _ _ (by omega) (by omega)] at *
            rw [List.length_eraseIdx_of_lt (by omega)] at h2 h5
            exact (h3 j (by omega) (by omega) (by omega)).erase_gt (by omega)
      · exact key l (le_refl _) h3

theorem compressPass1_invA (k : Nat) (l : List (Point K)) (h : InvA (k + 1) l) :
    InvA 1 (compressPass1 k l) := by
  induction k generalizing l with
  | zero => exact h
  | succ n ih => exact ih _ (compressInner1_invA (by omega) _ (le_refl _) h)

/-- All inner triples but perhaps the first. -/
def Inner (l : List (Point K)) : Prop := ∀ j, 1 ≤ j → j + 2 < l.length → Tl l j

theorem compressPass1_inner (l : List (Point K)) : Inner (compressPass1 (l.length - 1) l) := by
  have := compressPass1_invA (l.length - 1) l (by
    intro j h1 h2 h3
    omega)
  intro j h1 h2
  exact this j h1 (by omega) h2

theorem win_tl (l : List (Point K)) (i : Nat) (hi : 2 ≤ i) : Win l i ↔ Tl l (i - 2) := by
  unfold Win Tl prev1 prev2
  rw [if_neg (by omega), if_neg (by omega), if_neg (by omega)]
  have e1 : i - 2 + 1 = i - 1 := by omega
  have e2 : i - 2 + 2 = i := by omega
  rw [e1, e2]

/-- Deleting the last or the first vertex keeps the inner triples. -/
theorem Inner.erase {l : List (Point K)} (h : Inner l) {d : Nat} (hd : d = 0 ∨ d + 1 = l.length) :
    Inner (l.eraseIdx d) := by
  intro j h1 h2
  rcases Nat.lt_or_ge d l.length with hl | hl
  · rw [List.length_eraseIdx_of_lt hl] at h2
    rcases hd with rfl | hd
    · exact (h (j + 1) (by omega) (by omega)).erase_le (by omega)
    · exact (h j h1 (by omega)).erase_gt (by omega)
  · rw [List.eraseIdx_of_length_le hl] at h2 ⊢
    exact h j h1 h2

theorem win_ne {l : List (Point K)} {i : Nat} (h : Win l i) :
    l.getD (prev2 l.length i) ⟨0, 0⟩ ≠ l.getD (prev1 l.length i) ⟨0, 0⟩ ∧
      l.getD (prev1 l.length i) ⟨0, 0⟩ ≠ l.getD i ⟨0, 0⟩ := by
  unfold Win Collinear area2 at h
  constructor
  · intro e; rw [e] at h; apply h; ring
  · intro e; rw [e] at h; apply h; ring

/-- One step of the second pass. -/
theorem compressInner2_step (i fuel : Nat) (l : List (Point K)) :
    (max 2 i < l.length ∧ ¬ Win l i ∧ compressInner2 i (fuel + 1) l =
        compressInner2 i fuel (l.eraseIdx (prev1 l.length i))) ∨
      (¬ (max 2 i < l.length ∧ ¬ Win l i) ∧ compressInner2 i (fuel + 1) l = l) := by
  rw [compressInner2]
  by_cases hl : max 2 i < l.length
  · have h2 : 2 ≤ l.length := le_of_lt (lt_of_le_of_lt (le_max_left _ _) hl)
    have hi : i < l.length := lt_of_le_of_lt (le_max_right _ _) hl
    have ho := orient_win l i h2
    rw [pyDelAt_prev1 l i h2 hi]
    by_cases hw : Win l i
    · right
      exact ⟨fun h => h.2 hw, if_neg (fun h => ho.1 h.2 hw)⟩
    · left
      exact ⟨hl, hw, if_pos ⟨hl, ho.2 hw⟩⟩
  · right
    exact ⟨fun h => hl h.1, if_neg (fun h => hl h.1)⟩

/-- The first two steps of the second pass. -/
theorem compressInner2_ends (i : Nat) (hi : i < 2) (fuel : Nat) {l : List (Point K)}
    (hf : l.length ≤ fuel) (h : Inner l) :
    Inner (compressInner2 i fuel l) ∧
      ((compressInner2 i fuel l).length ≤ 2 ∨ Win (compressInner2 i fuel l) i) := by
  induction fuel generalizing l with
  | zero => exact ⟨h, .inl (by rw [compressInner2]; omega)⟩
  | succ n ih =>
    obtain ⟨hc1, hc2, hs⟩ | ⟨hc, hs⟩ := compressInner2_step i n l <;> rw [hs]
    · have hc := And.intro hc1 hc2
      have hl : 2 < l.length := lt_of_le_of_lt (le_max_left _ _) hc.1
      have hp : prev1 l.length i = 0 ∨ prev1 l.length i + 1 = l.length := by
        unfold prev1; split <;> omega
      have hpl : prev1 l.length i < l.length := by omega
      exact ih (by rw [List.length_eraseIdx_of_lt hpl]; omega) (h.erase hp)
    · refine ⟨h, ?_⟩
      by_cases hl : l.length ≤ 2
      · exact .inl hl
      · right
        by_contra hw
        exact hc ⟨by rw [max_eq_left (by omega)]; omega, hw⟩

/-- Ends of the list are kept. -/
def SameEnds (l m : List (Point K)) : Prop :=
  m.getD 0 ⟨0, 0⟩ = l.getD 0 ⟨0, 0⟩ ∧
    m.getD (m.length - 1) ⟨0, 0⟩ = l.getD (l.length - 1) ⟨0, 0⟩

theorem compressInner2_two (fuel : Nat) {l : List (Point K)} (hf : l.length ≤ fuel)
    (hl : 2 ≤ l.length) (h : Inner l) :
    Inner (compressInner2 2 fuel l) ∧ 2 ≤ (compressInner2 2 fuel l).length ∧
      SameEnds l (compressInner2 2 fuel l) ∧
      ((compressInner2 2 fuel l).length ≤ 2 ∨ Tl (compressInner2 2 fuel l) 0) := by
  induction fuel generalizing l with
  | zero => omega
  | succ n ih =>
    obtain ⟨hc1, hc2, hs⟩ | ⟨hc, hs⟩ := compressInner2_step 2 n l <;> rw [hs]
    · have hc := And.intro hc1 hc2
      have hl : 2 < l.length := lt_of_le_of_lt (le_max_left _ _) hc.1
      have hp : prev1 l.length 2 = 1 := by simp [prev1]
      rw [hp]
      have hlen : (l.eraseIdx 1).length = l.length - 1 := List.length_eraseIdx_of_lt (by omega)
      obtain ⟨h1, h2, h3, h4⟩ := ih (l := l.eraseIdx 1) (by omega) (by omega) (by
        intro j k1 k2
        rw [hlen] at k2
        exact (h (j + 1) (by omega) (by omega)).erase_le k1)
      refine ⟨h1, h2, ⟨?_, ?_⟩, h4⟩
      · rw [h3.1, getD_eraseIdx, if_pos (by omega)]
      · rw [h3.2, hlen, getD_eraseIdx, if_neg (by omega)]
        congr 1; omega
    · refine ⟨h, hl, ⟨rfl, rfl⟩, ?_⟩
      by_cases hl : l.length ≤ 2
      · exact .inl hl
      · right
        by_contra hw
        exact hc ⟨by rw [max_self]; omega, by rwa [win_tl _ _ (le_refl 2)]⟩

/-- The remaining steps of the second pass delete nothing. -/
theorem compressPass2_rest (fuel i : Nat) {l : List (Point K)} (hi : 3 ≤ i) (h : Inner l) :
    compressPass2 fuel i l = l := by
  induction fuel generalizing i with
  | zero => rfl
  | succ n ih =>
    rw [compressPass2]
    split
    · rename_i hil
      have : compressInner2 i l.length l = l := by
        obtain ⟨m, hm⟩ : ∃ m, l.length = m + 1 := ⟨l.length - 1, by omega⟩
        rw [hm]
        obtain ⟨-, hw, -⟩ | ⟨-, hs⟩ := compressInner2_step i m l
        · rw [win_tl _ _ (by omega)] at hw
          exact absurd (h _ (by omega) (by omega)) hw
        · exact hs
      rw [this]
      exact ih (i + 1) (by omega)
    · rfl

/-- No two neighbouring vertices are equal. -/
def NoStall (l : List (Point K)) : Prop :=
  ∀ i < l.length, cyc l i ≠ cyc l (i + 1)

theorem noStall_of {l : List (Point K)} (h3 : 3 ≤ l.length) (hi : Inner l) (h0 : Tl l 0)
    (hw : l.getD (l.length - 1) ⟨0, 0⟩ ≠ l.getD 0 ⟨0, 0⟩) : NoStall l := by
  intro i hil
  unfold cyc
  rw [Nat.mod_eq_of_lt hil]
  have ht : ∀ j, j + 2 < l.length → Tl l j := by
    intro j hj
    rcases Nat.eq_zero_or_pos j with rfl | h
    · exact h0
    · exact hi j h hj
  by_cases h1 : i + 2 < l.length
  · rw [Nat.mod_eq_of_lt (by omega)]
    intro e
    apply ht i h1
    unfold Collinear area2
    rw [e]; ring
  · by_cases h2 : i + 2 = l.length
    · rw [Nat.mod_eq_of_lt (by omega)]
      intro e
      have := ht (i - 1) (by omega)
      apply this
      have e1 : i - 1 + 1 = i := by omega
      have e2 : i - 1 + 2 = i + 1 := by omega
      unfold Collinear area2
      rw [e1, e2, e]; ring
    · have e1 : i + 1 = l.length := by omega
      rw [e1, Nat.mod_self]
      have e2 : i = l.length - 1 := by omega
      rw [e2]
      exact hw

/-- Neighbouring vertices of a compressed contour differ. -/
theorem compressContour_noStall (l : List (Point K)) :
    (compressContour l).length ≤ 2 ∨ NoStall (compressContour l) := by
  have hp := compressPass1_inner l
  have hlen := (compressPass1_sublist (l.length - 1) l).length_le
  unfold compressContour
  generalize compressPass1 (l.length - 1) l = m at hp hlen
  by_cases hm : m.length ≤ 2
  · exact .inl (((compressPass2_sublist _ _ _).length_le).trans hm)
  · obtain ⟨f, hf⟩ : ∃ f, l.length = f + 1 + 1 + 1 := ⟨l.length - 3, by omega⟩
    rw [hf, compressPass2, if_pos (by omega)]
    obtain ⟨a1, a2⟩ := compressInner2_ends 0 (by omega) m.length (le_refl _) hp
    have al := (compressInner2_sublist 0 m.length m).length_le
    generalize compressInner2 0 m.length m = a at a1 a2 al
    rcases a2 with a2 | -
    · exact .inl (((compressPass2_sublist _ _ _).length_le).trans a2)
    by_cases ha : a.length ≤ 2
    · exact .inl (((compressPass2_sublist _ _ _).length_le).trans ha)
    rw [compressPass2, if_pos (by omega)]
    obtain ⟨b1, b2⟩ := compressInner2_ends (0 + 1) (by omega) a.length (le_refl _) a1
    have bl := (compressInner2_sublist (0 + 1) a.length a).length_le
    generalize compressInner2 (0 + 1) a.length a = b at b1 b2 bl
    rcases b2 with b2 | b2
    · exact .inl (((compressPass2_sublist _ _ _).length_le).trans b2)
    by_cases hb : b.length ≤ 2
    · exact .inl (((compressPass2_sublist _ _ _).length_le).trans hb)
    rw [compressPass2, if_pos (by omega)]
    obtain ⟨c1, c2, c3, c4⟩ := compressInner2_two b.length (le_refl _) (by omega) b1
    change Inner (compressInner2 (0 + 1 + 1) b.length b) at c1
    rw [compressPass2_rest _ _ (by omega) c1]
    rcases c4 with c4 | c4
    · exact .inl c4
    by_cases hc : (compressInner2 (0 + 1 + 1) b.length b).length ≤ 2
    · exact .inl hc
    · right
      refine noStall_of (by omega) c1 c4 ?_
      rw [c3.1, c3.2]
      have := (win_ne b2).1
      have := (win_ne b2)
      simp only [prev1, prev2] at this
      exact this.1

end
end HG
