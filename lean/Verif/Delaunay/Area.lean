import Verif.Delaunay.BorderSimple
import Mathlib.Algebra.BigOperators.Group.Finset.Basic
import Mathlib.Algebra.Order.BigOperators.Group.Finset
import Mathlib.Data.Set.Finite.Basic

/-!
# Areas of triangulated regions

The border of a triangulated region encloses a positive area, hence runs counterclockwise.
-/

set_option linter.unusedSectionVars false

namespace HG

open Spec

variable {K : Type} [CommRing K] [LinearOrder K] [IsStrictOrderedRing K]
variable {P : List (Point K)} {m : Mesh K} {D : Ref → Prop} {t : Tri} {B : List Ref} {e f : Ref}

/-- The contribution of an edge to the shoelace sum. -/
def areaTerm (p q : Point K) : K := p.x * q.y - q.x * p.y

/-- A sum over the edges of an open path. -/
def pathSum {M : Type} [AddCommGroup M] (f : Point K → Point K → M) : List (Point K) → M
  | [] => 0
  | [_] => 0
  | a :: b :: l => f a b + pathSum f (b :: l)

/-- A sum over the edges of a closed contour. -/
def cycSum {M : Type} [AddCommGroup M] (f : Point K → Point K → M) (l : List (Point K)) : M :=
  (List.zipWith f l (l.rotate 1)).sum

section
variable {M : Type} [AddCommGroup M] (f : Point K → Point K → M)

theorem pathSum_append (p : List (Point K)) (a : Point K) (q : List (Point K)) :
    pathSum f (p ++ a :: q) = pathSum f (p ++ [a]) + pathSum f (a :: q) := by
  induction p with
  | nil => simp [pathSum]
  | cons x p ih =>
    rcases p with _ | ⟨y, p⟩
    · simp [pathSum]
    · simp only [List.cons_append, pathSum] at ih ⊢
      rw [ih, add_assoc]

theorem zip_path (q : List (Point K)) : ∀ (x z : Point K),
    (List.zipWith f (x :: q) (q ++ [z])).sum = pathSum f (x :: (q ++ [z])) := by
  induction q with
  | nil => intro x z; simp [pathSum]
  | cons y q ih =>
    intro x z
    rw [List.cons_append, List.zipWith_cons_cons, List.sum_cons, ih]
    rfl

theorem cycSum_path (l : List (Point K)) : cycSum f l = pathSum f (l ++ l.take 1) := by
  rcases l with _ | ⟨x, q⟩
  · rfl
  · unfold cycSum
    rw [List.rotate_cons_succ, List.rotate_zero, zip_path]
    simp

/-- Erasing a vertex changes only the terms of its two edges. -/
theorem cycSum_erase {l : List (Point K)} {d : Nat} (hl : 3 ≤ l.length) (hd : d < l.length)
    (key : f (cyc l (d + (l.length - 1))) (cyc l d) + f (cyc l d) (cyc l (d + 1)) =
      f (cyc l (d + (l.length - 1))) (cyc l (d + 1))) :
    cycSum f (l.eraseIdx d) = cycSum f l := by
  rw [cycSum_path, cycSum_path]
  rcases Nat.eq_zero_or_pos d with h0 | h0
  · subst h0
    rcases l with _ | ⟨b, _ | ⟨c, q⟩⟩
    · simp at hl
    · simp at hl
    rcases List.eq_nil_or_concat q with rfl | ⟨q, a, rfl⟩
    · simp at hl
    rw [List.concat_eq_append] at *
    have ea : cyc (b :: c :: (q ++ [a])) (0 + ((b :: c :: (q ++ [a])).length - 1)) = a := by
      rw [cyc_lt (by simp)]; simp
    have eb : cyc (b :: c :: (q ++ [a])) 0 = b := by rw [cyc_lt (by simp)]; simp
    have ec : cyc (b :: c :: (q ++ [a])) (0 + 1) = c := by rw [cyc_lt (by simp)]; simp
    rw [ea, eb, ec] at key
    have e1 : (b :: c :: (q ++ [a])).eraseIdx 0 ++ ((b :: c :: (q ++ [a])).eraseIdx 0).take 1 =
        (c :: q) ++ a :: [c] := by simp
    have e2 : (b :: c :: (q ++ [a])) ++ (b :: c :: (q ++ [a])).take 1 = b :: ((c :: q) ++ a :: [b]) := by
      simp
    have e3 : pathSum f (b :: ((c :: q) ++ a :: [b])) = f b c + pathSum f ((c :: q) ++ a :: [b]) := rfl
    rw [e1, e2, e3, pathSum_append f (c :: q) a [c], pathSum_append f (c :: q) a [b]]
    simp only [pathSum, List.cons_append]
    rw [← key]; abel
  rcases Nat.lt_or_ge (d + 1) l.length with h1 | h1
  · have el : l = l.take (d - 1) ++ l[d - 1] :: l[d] :: l[d + 1] :: l.drop (d + 2) := by
      conv_lhs => rw [← List.take_append_drop (d - 1) l]
      rw [List.drop_eq_getElem_cons (show d - 1 < l.length by omega),
        List.drop_eq_getElem_cons (show d - 1 + 1 < l.length by omega),
        List.drop_eq_getElem_cons (show d - 1 + 1 + 1 < l.length by omega)]
      simp only [show d - 1 + 1 = d by omega, show d + 1 + 1 = d + 2 by omega]
    have ea : cyc l (d + (l.length - 1)) = l[d - 1] := by
      rw [show d + (l.length - 1) = d - 1 + l.length by omega, cyc_add, cyc_lt (by omega),
        List.getD_eq_getElem _ _ (by omega)]
    have eb : cyc l d = l[d] := by rw [cyc_lt hd, List.getD_eq_getElem _ _ hd]
    have ec : cyc l (d + 1) = l[d + 1] := by rw [cyc_lt h1, List.getD_eq_getElem _ _ h1]
    rw [ea, eb, ec] at key
    have hp : (l.take (d - 1)).length = d - 1 := by rw [List.length_take]; omega
    generalize l.take (d - 1) = p at el hp
    generalize l.drop (d + 2) = q at el
    generalize l[d - 1] = a at el key
    generalize l[d] = b at el key
    generalize l[d + 1] = c at el key
    subst el
    have e1 : (p ++ a :: b :: c :: q).eraseIdx d = p ++ a :: c :: q := by
      rw [List.eraseIdx_append_of_length_le (by omega), hp, show d - (d - 1) = 1 by omega]
      rfl
    have e2 : (p ++ a :: c :: q).take 1 = (p ++ a :: b :: c :: q).take 1 := by
      rcases p with _ | ⟨x, p⟩ <;> simp
    rw [e1, e2]
    generalize (p ++ a :: b :: c :: q).take 1 = z
    rw [show p ++ a :: c :: q ++ z = p ++ a :: c :: (q ++ z) by simp, pathSum_append f _ a,
      show p ++ a :: b :: c :: q ++ z = p ++ a :: b :: c :: (q ++ z) by simp,
      pathSum_append f p a (b :: c :: (q ++ z))]
    simp only [pathSum]
    rw [← key]; abel
  · have ed : d = l.length - 1 := by omega
    rcases List.eq_nil_or_concat l with rfl | ⟨l, b, rfl⟩
    · simp at hl
    rcases List.eq_nil_or_concat l with rfl | ⟨l, a, rfl⟩
    · simp at hl
    rcases l with _ | ⟨c, q⟩
    · simp at hl
    rw [List.concat_eq_append, List.concat_eq_append] at *
    have ed : d = q.length + 2 := by simp at ed; omega
    subst ed
    have eL : (c :: q ++ [a] ++ [b]).length = q.length + 3 := by simp
    have ea : cyc (c :: q ++ [a] ++ [b]) (q.length + 2 + ((c :: q ++ [a] ++ [b]).length - 1)) = a := by
      rw [show q.length + 2 + ((c :: q ++ [a] ++ [b]).length - 1) =
        q.length + 1 + (c :: q ++ [a] ++ [b]).length by omega, cyc_add, cyc_lt (by omega)]
      simp
    have eb : cyc (c :: q ++ [a] ++ [b]) (q.length + 2) = b := by rw [cyc_lt (by omega)]; simp
    have ec : cyc (c :: q ++ [a] ++ [b]) (q.length + 2 + 1) = c := by
      rw [show q.length + 2 + 1 = (c :: q ++ [a] ++ [b]).length by omega, cyc_len, cyc_lt (by omega)]
      simp
    rw [ea, eb, ec] at key
    have e1 : (c :: q ++ [a] ++ [b]).eraseIdx (q.length + 2) = c :: q ++ [a] := by
      rw [List.eraseIdx_append_of_length_le (by simp)]; simp
    rw [e1]
    rw [show c :: q ++ [a] ++ (c :: q ++ [a]).take 1 = (c :: q) ++ a :: [c] by simp, pathSum_append f,
      show c :: q ++ [a] ++ [b] ++ (c :: q ++ [a] ++ [b]).take 1 = (c :: q) ++ a :: [b, c] by simp,
      pathSum_append f (c :: q) a [b, c]]
    simp only [pathSum]
    rw [← key]; abel

end

/-- The area enclosed by a contour is not changed by `compressContour`. -/
theorem shoelace_compress (l : List (Point K)) : shoelace (compressContour l) = shoelace l :=
  compress_ind (Q := fun l' => shoelace l' = shoelace l)
    (fun l' d h1 h2 h3 h4 => by
      refine Eq.trans (cycSum_erase areaTerm h1 h2 ?_) h4
      unfold cross at h3; unfold areaTerm
      linear_combination h3) rfl

/-- The darts of a region as a finite set. -/
theorem Bord.finite (h : Bord P m D B) : {e | D e}.Finite := by
  apply Set.Finite.subset (s := Set.range (fun a : m.Alloc => a.1)) (Set.finite_range _)
  intro e he
  exact ⟨⟨e, (h.edge he).alloc⟩, rfl⟩

theorem Bord.cycSum_eq {M : Type} [AddCommGroup M] (f : Point K → Point K → M) (h : Bord P m D B) :
    cycSum f (B.map m.org) = (B.map fun e => f (m.org e) (m.org e.opp)).sum := by
  unfold cycSum
  congr 1
  apply List.ext_getElem
  · simp
  · intro i h1 h2
    have hi : i < B.length := by simpa using h2
    have he := h.edge_eq hi
    unfold Spec.edge seg at he
    rw [Segment.mk.injEq] at he
    rw [List.getElem_zipWith, List.getElem_rotate, List.getElem_map, List.getElem_map, List.getElem_map]
    rw [← he.2]
    unfold Spec.cyc
    rw [List.getD_eq_getElem _ _ (Nat.mod_lt _ (by rw [List.length_map]; omega)), List.getElem_map]

theorem Bord.shoelace_eq (h : Bord P m D B) :
    shoelace (B.map m.org) = (B.map fun e => areaTerm (m.org e) (m.org e.opp)).sum :=
  h.cycSum_eq areaTerm

theorem Bord.lf_inner (h : Bord P m D B) (he : D e) (hb : e.opp ∉ B) : (m.lf e).opp ∉ B := by
  intro hc
  have t := ((h.face he).resolve_left hb).three
  have := h.lf_out (h.lf_out hc)
  rw [t] at this
  exact hb this

theorem Bord.lf_dart (h : Bord P m D B) (he : D e) : D (m.lf e) := h.opp (h.next he)

/-- The border of a triangulated region encloses a positive area. -/
theorem Bord.area_pos (h : Bord P m D B) : 0 < shoelace (B.map m.org) := by
  classical
  rw [h.shoelace_eq]
  set w : Ref → K := fun e => areaTerm (m.org e) (m.org e.opp) with hw
  have wo : ∀ e, w e.opp = - w e := by
    intro e
    simp only [hw, Ref.opp_opp, areaTerm]; ring
  set S := h.finite.toFinset with hS
  have mS : ∀ {e}, e ∈ S ↔ D e := by intro e; rw [hS, Set.Finite.mem_toFinset]; rfl
  have s0 : ∑ e ∈ S, w e = 0 := by
    have h1 : ∑ e ∈ S, w e = ∑ e ∈ S, w e.opp :=
      Finset.sum_nbij' Ref.opp Ref.opp (fun e he => mS.2 (h.opp (mS.1 he)))
        (fun e he => mS.2 (h.opp (mS.1 he))) (fun e _ => Ref.opp_opp e) (fun e _ => Ref.opp_opp e)
        (fun e _ => by rw [Ref.opp_opp])
    have h2 : ∑ e ∈ S, w e.opp = - ∑ e ∈ S, w e := by
      rw [← Finset.sum_neg_distrib]; exact Finset.sum_congr rfl fun e _ => wo e
    linarith
  have sB : ∑ e ∈ S with e.opp ∈ B, w e = - (B.map w).sum := by
    rw [← List.sum_toFinset w (List.Nodup.of_map _ h.nodup), ← Finset.sum_neg_distrib]
    refine Finset.sum_nbij' Ref.opp Ref.opp ?_ ?_ (fun e _ => Ref.opp_opp e) (fun e _ => Ref.opp_opp e) ?_
    · intro e he
      rw [Finset.mem_filter] at he
      exact List.mem_toFinset.2 he.2
    · intro e he
      rw [List.mem_toFinset] at he
      rw [Finset.mem_filter, Ref.opp_opp]
      exact ⟨mS.2 (h.opp (h.bd e he)), he⟩
    · intro e _
      show w e = - w e.opp
      rw [wo, neg_neg]
  have sI := Finset.sum_filter_add_sum_filter_not S (fun e => e.opp ∈ B) w
  rw [s0, sB] at sI
  set I := S.filter (fun e => ¬ e.opp ∈ B) with hI
  have mI : ∀ {e}, e ∈ I ↔ D e ∧ e.opp ∉ B := by
    intro e; rw [hI, Finset.mem_filter, mS]
  have lfI : ∀ {e}, e ∈ I → m.lf e ∈ I := by
    intro e he
    rw [mI] at he ⊢
    exact ⟨h.lf_dart he.1, h.lf_inner he.1 he.2⟩
  have tI : ∀ {e}, e ∈ I → TriFace P m e := fun he => (h.face (mI.1 he).1).resolve_left (mI.1 he).2
  have rot : ∀ g : Ref → K, ∑ e ∈ I, g (m.lf e) = ∑ e ∈ I, g e := fun g =>
    Finset.sum_nbij' (m.lf) (fun e => m.lf (m.lf e)) (fun e he => lfI he) (fun e he => lfI (lfI he))
      (fun e he => (tI he).three) (fun e he => (tI he).three) (fun e _ => rfl)
  have sum3 : ∑ e ∈ I, (w e + w (m.lf e) + w (m.lf (m.lf e))) = 3 * ∑ e ∈ I, w e := by
    rw [Finset.sum_add_distrib, Finset.sum_add_distrib, rot (fun e => w (m.lf e)), rot w]
    ring
  have pos : 0 < ∑ e ∈ I, (w e + w (m.lf e) + w (m.lf (m.lf e))) := by
    apply Finset.sum_pos
    · intro e he
      have De := (mI.1 he).1
      have t := tI he
      have o1 : m.org (m.lf e).opp = m.org e := by
        show m.org (m.next e).opp.opp = _
        rw [Ref.opp_opp, h.org De]
      have o2 : m.org (m.lf (m.lf e)).opp = m.org (m.lf e) := by
        show m.org (m.next (m.lf e)).opp.opp = _
        rw [Ref.opp_opp, h.org (h.lf_dart De)]
      have o3 : m.org (m.lf (m.lf e)) = m.org e.opp := by
        rw [← h.org (h.lf_dart (h.lf_dart De)), ← Ref.opp_opp (m.next (m.lf (m.lf e)))]
        exact congrArg (fun r => m.org r.opp) t.three
      have := t.pos
      simp only [hw]
      rw [o1, o2, o3]
      refine lt_of_lt_of_eq this ?_
      show cross (m.org e) (m.org e.opp) (m.org (m.lf e)) = _
      unfold cross areaTerm
      ring
    · obtain ⟨e, he⟩ := List.exists_mem_of_ne_nil _ h.nonempty
      exact ⟨e, mI.2 ⟨h.bd e he, h.one e he⟩⟩
  have : 0 < ∑ e ∈ I, w e := by
    rw [sum3] at pos
    linarith
  linarith

end HG
