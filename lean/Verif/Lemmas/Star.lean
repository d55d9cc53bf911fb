import Verif.Model.Factories2
import Verif.Lemmas.Compress
import Verif.Lemmas.Sizes
import Mathlib.Data.List.Chain

/-!
# `to_star_contour_vertices`: internal lemmas
-/

set_option linter.unusedSectionVars false

namespace HG

open Spec

section
variable {K : Type} [LinearOrder K] [Zero K] [Add K] [Sub K] [Predicates K]

theorem lastOfGroups_sublist (l : List (ℚ × Point K)) :
    (lastOfGroups l).Sublist (l.map Prod.snd) := by
  fun_induction lastOfGroups l with
  | case1 => exact List.Sublist.refl _
  | case2 a => exact List.Sublist.refl _
  | case3 a b l h ih => exact ih.trans (List.sublist_cons_self _ _)
  | case4 a b l h ih => exact ih.cons_cons _

/-- When no group has more than one element, nothing is dropped and the angles differ. -/
theorem lastOfGroups_full (l : List (ℚ × Point K)) (h : (lastOfGroups l).length = l.length) :
    lastOfGroups l = l.map Prod.snd ∧ l.IsChain (fun a b => a.1 ≠ b.1) := by
  fun_induction lastOfGroups l with
  | case1 => simp
  | case2 a => simp
  | case3 a b l hab ih =>
    have := (lastOfGroups_sublist (b :: l)).length_le
    simp only [List.length_cons, List.length_map] at *
    omega
  | case4 a b l hab ih =>
    have := ih (by simpa using h)
    exact ⟨by simp [this.1], List.IsChain.cons_cons hab this.2⟩

theorem starInner_sublist (c : Point K) (fuel i : Nat) (vs : List (Point K)) :
    (starInner c fuel i vs).Sublist vs := by
  induction fuel generalizing i vs with
  | zero => exact List.Sublist.refl _
  | succ n ih =>
    unfold starInner
    split
    · dsimp only
      refine (ih _ _).trans ?_
      split
      · exact List.Sublist.refl _
      · exact List.eraseIdx_sublist _ _
    · exact List.Sublist.refl _

theorem starInner_full (c : Point K) (fuel i : Nat) (vs : List (Point K)) (h3 : 2 < vs.length)
    (hf : vs.length ≤ fuel + i) (h : (starInner c fuel i vs).length = vs.length) :
    ∀ j, i ≤ j → j < vs.length → angleContainsPoint (pyAt vs j) (pyAt vs ((j : Int) - 1))
      (pyAt vs (((j + 1) % vs.length : Nat) : Int)) c = true := by
  induction fuel generalizing i with
  | zero => intro j hj hjl; omega
  | succ n ih =>
    intro j hj hjl
    have hi : max i 2 < vs.length := by omega
    unfold starInner at h
    rw [if_pos hi] at h
    dsimp only at h
    split at h
    · rename_i hc
      by_cases hij : j = i
      · subst hij; exact hc
      · exact ih (i + 1) (by omega) h j (by omega) hjl
    · have h1 := (starInner_sublist c n (i + 1) (vs.eraseIdx i)).length_le
      rw [List.length_eraseIdx_of_lt (by omega)] at h1
      omega

/-- The points of a round are a selection of the points before it. -/
theorem starGroups_subperm (env : Env K) (c : Point K) (vs : List (Point K)) :
    List.Subperm (lastOfGroups (pySort anglePointLe
      (vs.map fun p => (env.atan2 (p.y - c.y) (p.x - c.x), p)))) vs := by
  refine (lastOfGroups_sublist _).subperm.trans ?_
  apply List.Perm.subperm
  refine ((pySort_perm _ _).map _).trans ?_
  simp [List.map_map, Function.comp_def]

theorem starRound_subperm (env : Env K) (c : Point K) (vs : List (Point K)) :
    List.Subperm (starRound env c vs).2 vs := by
  unfold starRound
  dsimp only
  split
  · exact ((compressContour_sublist _).trans (starInner_sublist _ _ _ _)).subperm.trans
      (starGroups_subperm env c vs)
  · exact starGroups_subperm env c vs

/-- The angles of the points around a centre increase strictly. -/
def AngleSorted (env : Env K) (c : Point K) (vs : List (Point K)) : Prop :=
  vs.IsChain fun p q => env.atan2 (p.y - c.y) (p.x - c.x) < env.atan2 (q.y - c.y) (q.x - c.x)

theorem pySort_sorted {α : Type} (le : α → α → Bool) (htot : ∀ a b, le a b = true ∨ le b a = true)
    (htr : ∀ a b c, le a b = true → le b c = true → le a c = true) (l : List α) :
    (pySort le l).Pairwise fun a b => le a b = true := by
  have : Std.Total (fun a b : α => le a b = true) := ⟨htot⟩
  have : IsTrans α (fun a b : α => le a b = true) := ⟨htr⟩
  exact List.pairwise_insertionSort _ l

theorem leB_iff (p q : Point K) : Point.leB p q = true ↔ p.x < q.x ∨ (p.x = q.x ∧ p.y ≤ q.y) := by
  simp [Point.leB]

theorem leB_total (p q : Point K) : Point.leB p q = true ∨ Point.leB q p = true := by
  rw [leB_iff, leB_iff]
  rcases lt_trichotomy p.x q.x with h | h | h
  · exact .inl (.inl h)
  · rcases le_total p.y q.y with h' | h'
    · exact .inl (.inr ⟨h, h'⟩)
    · exact .inr (.inr ⟨h.symm, h'⟩)
  · exact .inr (.inl h)

theorem leB_trans (p q r : Point K) : Point.leB p q = true → Point.leB q r = true →
    Point.leB p r = true := by
  rw [leB_iff, leB_iff, leB_iff]
  rintro (h | ⟨h, h'⟩) (g | ⟨g, g'⟩)
  · exact .inl (h.trans g)
  · exact .inl (g ▸ h)
  · exact .inl (h ▸ g)
  · exact .inr ⟨h.trans g, h'.trans g'⟩

theorem anglePointLe_iff (a b : ℚ × Point K) :
    anglePointLe a b = true ↔ a.1 < b.1 ∨ (a.1 = b.1 ∧ Point.leB a.2 b.2 = true) := by
  simp [anglePointLe]

theorem anglePointLe_sorted (l : List (ℚ × Point K)) :
    (pySort anglePointLe l).Pairwise fun a b => a.1 ≤ b.1 := by
  have := pySort_sorted anglePointLe (fun a b => ?_) (fun a b c => ?_) l
  · refine this.imp fun h => ?_
    rcases (anglePointLe_iff _ _).1 h with h | h
    · exact h.le
    · exact h.1.le
  · rw [anglePointLe_iff, anglePointLe_iff]
    rcases lt_trichotomy a.1 b.1 with h | h | h
    · exact .inl (.inl h)
    · rcases leB_total a.2 b.2 with h' | h'
      · exact .inl (.inr ⟨h, h'⟩)
      · exact .inr (.inr ⟨h.symm, h'⟩)
    · exact .inr (.inl h)
  · rw [anglePointLe_iff, anglePointLe_iff, anglePointLe_iff]
    rintro (h | ⟨h, h'⟩) (g | ⟨g, g'⟩)
    · exact .inl (h.trans g)
    · exact .inl (g ▸ h)
    · exact .inl (h ▸ g)
    · exact .inr ⟨h.trans g, leB_trans _ _ _ h' g'⟩

theorem isChain_and {α : Type} {R S : α → α → Prop} {l : List α} (h : l.IsChain R)
    (g : l.IsChain S) : l.IsChain fun a b => R a b ∧ S a b := by
  induction l with
  | nil => simp
  | cons a l ih =>
    cases l with
    | nil => simp
    | cons b l =>
      rw [List.isChain_cons_cons] at h g ⊢
      exact ⟨⟨h.1, g.1⟩, ih h.2 g.2⟩

/-- What a round that loses no point establishes. -/
theorem starRound_full (env : Env K) (c : Point K) (vs : List (Point K)) (h3 : 2 < vs.length)
    (h : (starRound env c vs).2.length = vs.length) :
    AngleSorted env c (starRound env c vs).2 ∧
    ∀ j < vs.length, angleContainsPoint (pyAt (starRound env c vs).2 j)
      (pyAt (starRound env c vs).2 ((j : Int) - 1))
      (pyAt (starRound env c vs).2 (((j + 1) % vs.length : Nat) : Int))
      (env.regionCentroid (starRound env c vs).2) = true := by
  set g := pySort anglePointLe (vs.map fun p => (env.atan2 (p.y - c.y) (p.x - c.x), p)) with hg
  have hglen : g.length = vs.length := by rw [hg, pySort_length, List.length_map]
  have h1 : (lastOfGroups g).length ≤ vs.length := (starGroups_subperm env c vs).length_le
  have hround : starRound env c vs = if 2 < (lastOfGroups g).length then
      (env.regionCentroid (lastOfGroups g), compressContour (starInner
        (env.regionCentroid (lastOfGroups g)) (lastOfGroups g).length 0 (lastOfGroups g)))
      else (c, lastOfGroups g) := rfl
  have hl : (lastOfGroups g).length = vs.length := by
    rw [hround] at h
    split at h
    · have h2 := (compressContour_sublist (starInner
        (env.regionCentroid (lastOfGroups g)) (lastOfGroups g).length 0 (lastOfGroups g))).length_le
      have h4 := (starInner_sublist (env.regionCentroid (lastOfGroups g))
        (lastOfGroups g).length 0 (lastOfGroups g)).length_le
      dsimp only at h
      omega
    · exact h
  have h3' : 2 < (lastOfGroups g).length := by omega
  rw [if_pos h3'] at hround
  set r := lastOfGroups g with hr
  have hin := starInner_sublist (env.regionCentroid r) r.length 0 r
  have hco := compressContour_sublist (starInner (env.regionCentroid r) r.length 0 r)
  rw [hround] at h
  dsimp only at h
  have e1 : starInner (env.regionCentroid r) r.length 0 r = r :=
    hin.eq_of_length (le_antisymm hin.length_le (by have := hco.length_le; omega))
  have e2 : compressContour r = r := by
    have := hco.eq_of_length (by rw [h, e1, hl])
    rwa [e1] at this
  have e3 : (starRound env c vs).2 = r := by rw [hround]; dsimp only; rw [e1, e2]
  rw [e3]
  obtain ⟨hfull, hne⟩ := lastOfGroups_full g (by rw [← hr, hl, hglen])
  refine ⟨?_, ?_⟩
  · have hsorted : g.IsChain fun a b => a.1 ≤ b.1 := (anglePointLe_sorted _).isChain
    have hkey : ∀ a ∈ g, a.1 = env.atan2 (a.2.y - c.y) (a.2.x - c.x) := by
      intro a ha
      have := (pySort_perm _ _).mem_iff.1 ha
      obtain ⟨p, _, rfl⟩ := List.mem_map.1 this
      rfl
    rw [hr, hfull]
    unfold AngleSorted
    rw [List.isChain_map]
    have hlt := isChain_and hsorted hne
    clear_value g
    clear hg hround hglen h1 hl h3' hr hin hco h e1 e2 e3 hfull hsorted hne
    induction g with
    | nil => simp
    | cons a l ih =>
      cases l with
      | nil => simp
      | cons b l =>
        rw [List.isChain_cons_cons] at hlt ⊢
        refine ⟨?_, ih (fun a ha => hkey a (List.mem_cons_of_mem _ ha)) hlt.2⟩
        rw [← hkey a (by simp), ← hkey b (by simp)]
        exact lt_of_le_of_ne hlt.1.1 hlt.1.2
  · intro j hj
    have := starInner_full (env.regionCentroid r) r.length 0 r h3' (by omega) (by rw [e1]) j
      (Nat.zero_le _) (by omega)
    rwa [hl] at this

theorem starLoop_subperm (env : Env K) (fuel : Nat) (c : Point K) (prev : Nat)
    (vs : List (Point K)) : List.Subperm (starLoop env fuel c prev vs) vs := by
  induction fuel generalizing c prev vs with
  | zero => exact List.Subperm.refl _
  | succ n ih =>
    unfold starLoop
    split
    · exact (ih _ _ _).trans (starRound_subperm env c vs)
    · exact List.Subperm.refl _

theorem toStar_subperm (env : Env K) (points : List (Point K)) :
    List.Subperm (toStarContourVertices env points) points :=
  starLoop_subperm _ _ _ _ _

end

section
variable {K : Type} [CommRing K] [LinearOrder K] [IsStrictOrderedRing K]

/-- What holds of the points after at least one round. -/
def StarInv (vs : List (Point K)) : Prop := vs.length ≤ 2 ∨ StrictContour vs

theorem starRound_inv (env : Env K) (c : Point K) (vs : List (Point K)) (hn : vs.Nodup) :
    StarInv (starRound env c vs).2 := by
  unfold starRound
  dsimp only
  split
  · refine compressContour_strict _ (List.Nodup.sublist (starInner_sublist _ _ _ _) ?_)
    obtain ⟨l, hl, hs⟩ := starGroups_subperm env c vs
    exact hl.nodup_iff.1 (hn.sublist hs)
  · exact .inl (by dsimp only; omega)

theorem subperm_nodup {α : Type} {l l' : List α} (h : List.Subperm l l') (hn : l'.Nodup) :
    l.Nodup := by
  obtain ⟨k, hk, hs⟩ := h
  exact hk.nodup_iff.1 (hn.sublist hs)

/-- The result of the star construction, in terms of the last round. -/
theorem starLoop_spec (env : Env K) (fuel : Nat) (c : Point K) (prev : Nat) (vs : List (Point K))
    (hn : vs.Nodup) (hf : vs.length + 1 ≤ fuel)
    (h : (2 < vs.length ∧ vs.length < prev) ∨ (StarInv vs ∧ vs.length ≤ 2) ∨
      (StarInv vs ∧ vs.length = prev ∧ ∃ c', AngleSorted env c' vs ∧
        ∀ j < vs.length, angleContainsPoint (pyAt vs j) (pyAt vs ((j : Int) - 1))
          (pyAt vs (((j + 1) % vs.length : Nat) : Int)) (env.regionCentroid vs) = true)) :
    List.Subperm (starLoop env fuel c prev vs) vs ∧
    ((starLoop env fuel c prev vs).length ≤ 2 ∨
      (StrictContour (starLoop env fuel c prev vs) ∧
        (∃ c', AngleSorted env c' (starLoop env fuel c prev vs)) ∧
        ∀ j < (starLoop env fuel c prev vs).length,
          angleContainsPoint (pyAt (starLoop env fuel c prev vs) j)
            (pyAt (starLoop env fuel c prev vs) ((j : Int) - 1))
            (pyAt (starLoop env fuel c prev vs)
              (((j + 1) % (starLoop env fuel c prev vs).length : Nat) : Int))
            (env.regionCentroid (starLoop env fuel c prev vs)) = true)) := by
  induction fuel generalizing c prev vs with
  | zero => omega
  | succ n ih =>
    unfold starLoop
    by_cases hc : 2 < vs.length ∧ vs.length < prev
    · rw [if_pos hc]
      dsimp only
      have hsub := starRound_subperm env c vs
      have hlen := hsub.length_le
      by_cases heq : (starRound env c vs).2.length = vs.length
      · -- the last round
        have hfull := starRound_full env c vs hc.1 heq
        have hinv := starRound_inv env c vs hn
        have hloop : starLoop env n (starRound env c vs).1 vs.length (starRound env c vs).2 =
            (starRound env c vs).2 := by
          cases n with
          | zero => rfl
          | succ m =>
            unfold starLoop
            rw [if_neg (by omega)]
        rw [hloop]
        refine ⟨hsub, .inr ⟨?_, ⟨c, hfull.1⟩, ?_⟩⟩
        · rcases hinv with h | h
          · omega
          · exact h
        · rw [heq]; exact hfull.2
      · have := ih (starRound env c vs).1 vs.length (starRound env c vs).2
          (subperm_nodup hsub hn) (by omega) ?_
        · exact ⟨this.1.trans hsub, this.2⟩
        · by_cases h2 : 2 < (starRound env c vs).2.length
          · exact .inl ⟨h2, by omega⟩
          · exact .inr (.inl ⟨starRound_inv env c vs hn, by omega⟩)
    · rw [if_neg hc]
      refine ⟨List.Subperm.refl _, ?_⟩
      rcases h with h | h | ⟨hi, hl, c', ha, hb⟩
      · exact absurd h hc
      · exact .inl h.2
      · rcases hi with hi | hi
        · exact .inl hi
        · exact .inr ⟨hi, ⟨c', ha⟩, hb⟩

theorem toStar_spec (env : Env K) (points : List (Point K)) (hn : points.Nodup)
    (h3 : 3 ≤ (toStarContourVertices env points).length) :
    List.Subperm (toStarContourVertices env points) points ∧
    StrictContour (toStarContourVertices env points) ∧
    (∃ c', AngleSorted env c' (toStarContourVertices env points)) ∧
    ∀ j < (toStarContourVertices env points).length,
      angleContainsPoint (pyAt (toStarContourVertices env points) j)
        (pyAt (toStarContourVertices env points) ((j : Int) - 1))
        (pyAt (toStarContourVertices env points)
          (((j + 1) % (toStarContourVertices env points).length : Nat) : Int))
        (env.regionCentroid (toStarContourVertices env points)) = true := by
  by_cases hp : 2 < points.length
  · have := starLoop_spec env (points.length + 2) (env.multipointCentroid points)
      (points.length + 1) points hn (by omega) (.inl ⟨hp, by omega⟩)
    change List.Subperm (toStarContourVertices env points) points ∧ _ at this
    refine ⟨this.1, ?_⟩
    rcases this.2 with h | h
    · unfold toStarContourVertices at h3; omega
    · exact h
  · exfalso
    unfold toStarContourVertices starLoop at h3
    rw [if_neg (by omega)] at h3
    omega

end
end HG
