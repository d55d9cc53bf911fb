import Verif.Lemmas.ConvexChain

/-!
# Vectors of convex contours with a given number of directions

Choices of the bits and of the shuffle of `to_convex_vertex_sequence` for which the hull has a
given number of vertices: all abscissas but the last step go to the right, the ordinates go up by
different steps, and some of these steps are also made down.
-/

set_option linter.unusedSectionVars false

namespace HG

open Spec

section
variable {K : Type} [CommRing K] [LinearOrder K] [IsStrictOrderedRing K]

/-- The differences of successive values. -/
def gaps (a : K) : List K → List K
  | [] => []
  | c :: S => (c - a) :: gaps c S

theorem gaps_length (a : K) (S : List K) : (gaps a S).length = S.length := by
  induction S generalizing a with
  | nil => rfl
  | cons c S ih => simp [gaps, ih]

theorem gaps_take (a : K) (S : List K) (j : ℕ) : gaps a (S.take j) = (gaps a S).take j := by
  induction S generalizing a j with
  | nil => simp [gaps]
  | cons c S ih =>
    cases j with
    | zero => simp [gaps]
    | succ j => simp [gaps, ih]

theorem gaps_pos {a : K} {S : List K} (h : (a :: S).Pairwise (· < ·)) : ∀ d ∈ gaps a S, 0 < d := by
  induction S generalizing a with
  | nil => simp [gaps]
  | cons c S ih =>
    rw [List.pairwise_cons] at h
    intro d hd
    rcases List.mem_cons.1 hd with rfl | hd
    · have := h.1 c (by simp); linarith
    · exact ih h.2 d hd

theorem vectorCoordinates_right (l : List K) (a b m : K) :
    vectorCoordinates (l.map fun c => (c, true)) a b m = gaps a (l ++ [m]) ++ [b - m] := by
  induction l generalizing a with
  | nil => rfl
  | cons c l ih => simp [vectorCoordinates, gaps, ih]

/-- The doubled values but the last one: the first `j` pairs are split between both chains. -/
def paired : ℕ → List K → List (K × Bool)
  | _, [] => []
  | _, [c] => [(c, true)]
  | 0, c :: S => (c, true) :: (c, true) :: paired 0 S
  | j + 1, c :: S => (c, true) :: (c, false) :: paired j S

theorem paired_fst (j : ℕ) (S : List K) :
    (paired j S).map Prod.fst = (S.flatMap fun c => [c, c]).dropLast := by
  induction S generalizing j with
  | nil => cases j <;> rfl
  | cons c S ih =>
    cases S with
    | nil => cases j <;> rfl
    | cons d S =>
      cases j with
      | zero =>
        simp only [paired, List.map_cons, ih]
        simp
      | succ j =>
        simp only [paired, List.map_cons, ih]
        simp

theorem vectorCoordinates_zeros (S : List K) (hS : S ≠ []) (a b : K) :
    (vectorCoordinates (paired 0 S) a b (S.getLast hS)).Perm
      (gaps a S ++ (List.replicate S.length 0 ++ [b - S.getLast hS])) := by
  induction S generalizing a with
  | nil => exact absurd rfl hS
  | cons c S ih =>
    cases S with
    | nil => simp [paired, vectorCoordinates, gaps]
    | cons d S =>
      have := ih (by simp) c
      rw [List.getLast_cons (by simp)]
      simp only [paired, vectorCoordinates, sub_self]
      rw [show gaps a (c :: d :: S) = (c - a) :: gaps c (d :: S) from rfl, List.cons_append]
      refine List.Perm.cons _ ((List.Perm.cons _ this).trans ?_)
      rw [show (c :: d :: S).length = (d :: S).length + 1 from rfl, List.replicate_succ,
        List.cons_append]
      exact List.perm_middle.symm

theorem vectorCoordinates_paired (j : ℕ) (S : List K) (hS : S ≠ []) (hj : j < S.length) (a : K) :
    ∃ b ∈ a :: S.take j, (vectorCoordinates (paired j S) a a (S.getLast hS)).Perm
      (gaps a S ++ (((gaps a S).take j).map Neg.neg ++
        (List.replicate (S.length - j) 0 ++ [b - S.getLast hS]))) := by
  induction j generalizing S a with
  | zero => exact ⟨a, by simp, by simpa using vectorCoordinates_zeros S hS a a⟩
  | succ j ih =>
    match S, hS with
    | [c], _ => simp at hj
    | c :: d :: S, _ =>
      obtain ⟨b, hb, h⟩ := ih (d :: S) (by simp) (by simpa using hj) c
      refine ⟨b, ?_, ?_⟩
      · rw [List.take_succ_cons]
        exact List.mem_cons_of_mem _ hb
      · rw [List.getLast_cons (by simp)]
        simp only [paired, vectorCoordinates]
        rw [show gaps a (c :: d :: S) = (c - a) :: gaps c (d :: S) from rfl, List.cons_append]
        refine List.Perm.cons _ ((List.Perm.cons _ h).trans ?_)
        rw [List.take_succ_cons, List.map_cons, List.cons_append, neg_sub,
          show (c :: d :: S).length - (j + 1) = (d :: S).length - j by simp]
        exact List.perm_middle.symm

theorem zip_bits {α : Type} (P : List (α × Bool)) (m : List α) (h : P.map Prod.fst = m) :
    ∃ bits : ℕ → Bool, m.zip ((List.range m.length).map bits) = P := by
  subst h
  refine ⟨fun i => (P.map Prod.snd).getD i false, ?_⟩
  have : (List.range (P.map Prod.fst).length).map (fun i => (P.map Prod.snd).getD i false) =
      P.map Prod.snd := by
    apply List.ext_getElem
    · simp
    · intro i h1 h2
      simp only [List.getElem_map, List.getElem_range]
      rw [List.getD_eq_getElem _ _ h2]
      simp
  rw [this]
  exact List.zip_of_prod rfl rfl |>.symm

/-! ### Pairing of abscissas and ordinates -/

theorem zip_perm {E E' : List K} (h : E.Perm E') (Y : List K) (hl : E'.length = Y.length) :
    ∃ T : List K, T.Perm Y ∧ (E.zip T).Perm (E'.zip Y) := by
  induction h generalizing Y with
  | nil => exact ⟨Y, List.Perm.refl _, List.Perm.refl _⟩
  | cons a h ih =>
    match Y, hl with
    | y :: Y, hl =>
      obtain ⟨T, h1, h2⟩ := ih Y (by simpa using hl)
      exact ⟨y :: T, h1.cons _, h2.cons _⟩
  | swap a b l =>
    match Y, hl with
    | y :: z :: Y, hl => exact ⟨z :: y :: Y, List.Perm.swap .., List.Perm.swap ..⟩
  | trans h1 h2 ih1 ih2 =>
    obtain ⟨T2, g1, g2⟩ := ih2 Y hl
    obtain ⟨T1, g3, g4⟩ := ih1 T2 (by rw [g1.length_eq, ← hl, h2.length_eq])
    exact ⟨T1, g3.trans g1, g4.trans g2⟩

/-- Directions which are different unless both are horizontal. -/
def Apart (v w : K × K) : Prop := v.1 * w.2 - v.2 * w.1 ≠ 0 ∨ (v.2 = 0 ∧ w.2 = 0)

theorem Apart.symm {v w : K × K} (h : Apart v w) : Apart w v := by
  rcases h with h | h
  · left
    intro e
    apply h
    linear_combination -e
  · exact .inr h.symm

theorem sorted_strict (l : List K) (h : l.Nodup) :
    ∃ l' : List K, l'.Perm l ∧ l'.Pairwise (· < ·) := by
  refine ⟨sortCoords l, sortCoords_perm l, sortCoords_sorted l h⟩

theorem exists_pairing {E U D : List K} {m : ℕ} (hE : ∀ e ∈ E, 0 < e) (hU : ∀ u ∈ U, 0 < u)
    (hUn : U.Nodup) (hD : ∀ d ∈ D, d < 0) (hDn : D.Nodup)
    (hl : E.length = U.length + D.length + m) :
    ∃ T : List K, T.Perm (U ++ (D ++ List.replicate m 0)) ∧ (E.zip T).Pairwise Apart := by
  obtain ⟨U', u1, u2⟩ := sorted_strict U hUn
  obtain ⟨D0, d1, d2⟩ := sorted_strict D hDn
  set D' := D0.reverse with hD'
  have d1' : D'.Perm D := (List.reverse_perm D0).trans d1
  have d2' : D'.Pairwise (fun a b => b < a) := by rw [hD', List.pairwise_reverse]; exact d2
  set E' := (pySort (fun a b : K => decide (a ≤ b)) E).reverse with hE'
  have e1 : E'.Perm E := (List.reverse_perm _).trans (pySort_perm _ _)
  have e2 : E'.Pairwise (fun a b => b ≤ a) := by
    rw [hE', List.pairwise_reverse]
    refine (pySort_sorted _ ?_ ?_ _).imp ?_
    · intro v w; simp only [decide_eq_true_eq]; exact le_total _ _
    · intro v w u; simp only [decide_eq_true_eq]; exact le_trans
    · intro v w h; simpa using h
  set Y := U' ++ (D' ++ List.replicate m 0) with hY
  have hYl : E'.length = Y.length := by
    rw [e1.length_eq, hY, List.length_append, List.length_append, u1.length_eq, d1'.length_eq,
      List.length_replicate, hl]
    omega
  have hR : Y.Pairwise (fun y y' => (y = 0 ∧ y' = 0) ∨ (0 < y ∧ y < y') ∨ (y < 0 ∧ y' < y) ∨
      (0 < y ∧ y' ≤ 0) ∨ (y < 0 ∧ y' = 0)) := by
    rw [hY, List.pairwise_append, List.pairwise_append]
    refine ⟨?_, ⟨?_, ?_, ?_⟩, ?_⟩
    · refine u2.imp_of_mem fun {a b} ha hb h => .inr (.inl ⟨hU a (u1.mem_iff.1 ha), h⟩)
    · refine d2'.imp_of_mem fun {a b} ha hb h => .inr (.inr (.inl ⟨hD a (d1'.mem_iff.1 ha), h⟩))
    · exact List.pairwise_of_forall_mem_list fun a ha b hb =>
        .inl ⟨List.eq_of_mem_replicate ha, List.eq_of_mem_replicate hb⟩
    · exact fun a ha b hb => .inr (.inr (.inr (.inr
        ⟨hD a (d1'.mem_iff.1 ha), List.eq_of_mem_replicate hb⟩)))
    · intro a ha b hb
      refine .inr (.inr (.inr (.inl ⟨hU a (u1.mem_iff.1 ha), ?_⟩)))
      rcases List.mem_append.1 hb with hb | hb
      · exact (hD b (d1'.mem_iff.1 hb)).le
      · rw [List.eq_of_mem_replicate hb]
  obtain ⟨T, t1, t2⟩ := zip_perm e1.symm Y hYl
  refine ⟨T, ?_, ?_⟩
  · refine t1.trans ?_
    rw [hY]
    exact u1.append (d1'.append_right _)
  · refine (t2.pairwise_iff fun {v w} h => Apart.symm h).2 ?_
    rw [List.pairwise_iff_getElem]
    intro i j hi hj hij
    simp only [List.length_zip] at hi hj
    have g1 := List.pairwise_iff_getElem.1 e2 i j (by omega) (by omega) hij
    have g2 := List.pairwise_iff_getElem.1 hR i j (by omega) (by omega) hij
    have p1 := hE _ (e1.mem_iff.1 (List.getElem_mem (show i < E'.length by omega)))
    have p2 := hE _ (e1.mem_iff.1 (List.getElem_mem (show j < E'.length by omega)))
    simp only [Apart, List.getElem_zip]
    generalize E'[i] = e at *
    generalize E'[j] = e' at *
    generalize Y[i] = y at *
    generalize Y[j] = y' at *
    rcases g2 with h | ⟨h1, h2⟩ | ⟨h1, h2⟩ | ⟨h1, h2⟩ | ⟨h1, h2⟩
    · exact .inr h
    · left
      have := mul_lt_mul_of_pos_left h2 p1
      have := mul_le_mul_of_nonneg_right g1 h1.le
      intro e0
      linarith
    · left
      have := mul_lt_mul_of_pos_left h2 p1
      have := mul_le_mul_of_nonpos_right g1 h1.le
      intro e0
      linarith
    · left
      have := mul_nonpos_of_nonneg_of_nonpos p1.le h2
      have := mul_pos h1 p2
      intro e0
      linarith
    · left
      subst h2
      have := mul_neg_of_neg_of_pos h1 p2
      intro e0
      linarith

end
end HG
