import Verif.Delaunay.SimpleCyc
import Verif.Delaunay.PolyBorder

/-!
# Borders of triangulated regions are simple polygons
-/

set_option linter.unusedSectionVars false

namespace HG

open Spec

variable {K : Type} [CommRing K] [LinearOrder K] [IsStrictOrderedRing K]
variable {P : List (Point K)} {m : Mesh K} {D : Ref → Prop} {t : Tri} {B : List Ref} {e f : Ref}

/-- The segment of a dart. -/
def seg (m : Mesh K) (e : Ref) : Segment K := ⟨m.org e, m.org e.opp⟩

namespace Bord

theorem getElem_next (h : Bord P m D B) {i : Nat} (hi : i + 1 < B.length) :
    m.next (B[i]'(by omega)).opp = B[i + 1] := by
  have := h.cyc
  rw [List.isChain_iff_getElem] at this
  have := this i (by rw [List.length_append]; omega)
  rwa [List.getElem_append_left (by omega), List.getElem_append_left (by omega)] at this

theorem getElem_last (h : Bord P m D B) (hi : 0 < B.length) :
    m.next (B[B.length - 1]'(by omega)).opp = B[0] := by
  have := h.cyc
  rw [List.isChain_iff_getElem] at this
  have := this (B.length - 1) (by rw [List.length_append, List.length_take]; omega)
  rw [List.getElem_append_left (by omega), List.getElem_append_right (by omega)] at this
  rw [this]
  simp only [List.getElem_take]
  congr 1
  omega

theorem edge_eq (h : Bord P m D B) {i : Nat} (hi : i < B.length) :
    Spec.edge (B.map m.org) i = seg m B[i] := by
  have hl : (B.map m.org).length = B.length := List.length_map _
  have g : ∀ (k : Nat) (hk : k < B.length), Spec.cyc (B.map m.org) k = m.org B[k] := by
    intro k hk
    rw [cyc_lt (by omega), List.getD_eq_getElem _ _ (by omega), List.getElem_map]
  unfold Spec.edge seg
  have ho := h.org (h.opp (h.bd B[i] (List.getElem_mem _)))
  rw [g i hi]
  rcases Nat.lt_or_ge (i + 1) B.length with h1 | h1
  · rw [g _ h1, ← ho, h.getElem_next h1]
  · have e : i + 1 = (B.map m.org).length := by omega
    rw [e, cyc_len, g 0 (by omega), ← ho]
    have := h.getElem_last (by omega)
    have e' : i = B.length - 1 := by omega
    subst e'
    rw [this]

theorem three (h : Bord P m D B) : 3 ≤ B.length := by
  by_contra hlt
  have h0 : 0 < B.length := List.length_pos_iff.2 h.nonempty
  have hl := h.getElem_last h0
  have D0 := h.bd B[0] (List.getElem_mem _)
  have ho0 := h.org (h.opp D0)
  rcases Nat.lt_or_ge 1 B.length with h1 | h1
  · have h2 : B.length = 2 := by omega
    have hn := h.getElem_next (i := 0) (by omega)
    rw [hn] at ho0
    have e1 : B.length - 1 = 1 := by omega
    simp only [e1] at hl
    have D1 := h.bd B[1] (List.getElem_mem _)
    have ho1 := h.org (h.opp D1)
    rw [hl] at ho1
    have := h.simple D1 (h.opp D0) ho0 (by rw [Ref.opp_opp, ho1])
    exact h.one _ (List.getElem_mem (l := B) (show 0 < B.length by omega)) (this ▸ List.getElem_mem _)
  · have e1 : B.length - 1 = 0 := by omega
    simp only [e1] at hl
    rw [hl] at ho0
    exact h.ne D0 ho0

/-- Two darts of a border have at most a vertex in common. -/
theorem meet (h : Bord P m D B) (he : e ∈ B) (hf : f ∈ B) (hne : e ≠ f) {p : Point K}
    (h1 : OnSeg (seg m e) p) (h2 : OnSeg (seg m f) p) :
    (p = m.org e.opp ∧ p = m.org f) ∨ (p = m.org e ∧ p = m.org f.opp) := by
  have De := h.bd e he
  have Df := h.bd f hf
  have ends : ∀ {e f : Ref}, e ∈ B → f ∈ B → e ≠ f → p = m.org e ∨ p = m.org e.opp →
      OnSeg (seg m f) p → (p = m.org e.opp ∧ p = m.org f) ∨ (p = m.org e ∧ p = m.org f.opp) := by
    intro e f he hf hne hp h2
    have De := h.bd e he
    have Df := h.bd f hf
    have hpP : p ∈ P := by
      rcases hp with hp | hp
      · rw [hp]; exact h.mem De
      · rw [hp]; exact h.mem (h.opp De)
    rcases onSeg_cases (h.ne Df) h2 with h3 | h3 | h3
    · rcases hp with hp | hp
      · exact absurd (h.inj he hf (hp.symm.trans h3)) hne
      · exact .inl ⟨hp, h3⟩
    · rcases hp with hp | hp
      · exact .inr ⟨hp, h3⟩
      · exfalso
        have e1 := h.org (h.opp De)
        have e2 := h.org (h.opp Df)
        have := h.inj (h.rfe he) (h.rfe hf) (by rw [e1, e2, ← hp, ← h3])
        exact hne (opp_inj (h.next_inj (h.opp De) (h.opp Df) this))
    · exact absurd h3 (h.nomid Df hpP)
  rcases onSeg_cases (h.ne De) h1 with h3 | h3 | h3
  · exact ends he hf hne (.inl h3) h2
  · exact ends he hf hne (.inr h3) h2
  · rcases onSeg_cases (h.ne Df) h2 with h4 | h4 | h4
    · rcases ends hf he (Ne.symm hne) (.inl h4) h1 with q | q
      · exact .inr ⟨q.2, q.1⟩
      · exact .inl ⟨q.2, q.1⟩
    · rcases ends hf he (Ne.symm hne) (.inr h4) h1 with q | q
      · exact .inr ⟨q.2, q.1⟩
      · exact .inl ⟨q.2, q.1⟩
    · exfalso
      rcases meet_cases (h.ne De) (h.ne Df) h3 h4 with q | q | q | q | q | q | q
      · exact h.nocross De Df q
      · exact h.nomid De (h.mem Df) q
      · exact h.nomid De (h.mem (h.opp Df)) q
      · exact h.nomid Df (h.mem De) q
      · exact h.nomid Df (h.mem (h.opp De)) q
      · exact hne (h.simple De Df q.1 q.2)
      · have := h.simple De (h.opp Df) q.1 (by rw [Ref.opp_opp]; exact q.2)
        exact h.one f hf (this ▸ he)

/-- The border of a triangulated region is a simple polygon. -/
theorem sc (h : Bord P m D B) : SC (B.map m.org) := by
  have hl : (B.map m.org).length = B.length := List.length_map _
  have hn : B.Nodup := List.Nodup.of_map _ h.nodup
  refine ⟨h.nodup, by rw [hl]; exact h.three, ?_, ?_⟩
  · intro i hi j hj hij p
    rw [h.edge_eq (by omega), h.edge_eq (by omega)]
    exact fun h1 h2 => h.meet (List.getElem_mem _) (List.getElem_mem _)
      (fun hh => hij ((List.Nodup.getElem_inj_iff hn).1 hh)) h1 h2
  · intro i hi j hj hij
    rw [h.edge_eq (by omega), h.edge_eq (by omega)]
    intro hp
    refine h.nocross (h.bd _ (List.getElem_mem (l := B) (show i < B.length by omega)))
      (h.bd _ (List.getElem_mem (l := B) (show j < B.length by omega))) ?_
    unfold Crossing
    rw [cross_area2, cross_area2, cross_area2, cross_area2]
    exact hp

end Bord

end HG
