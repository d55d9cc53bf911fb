import Verif.Delaunay.SimpleCyc
import Verif.Delaunay.Area
import Verif.Props.Multisegments
import Verif.Props.Borders

/-!
# Contours: reversal, convex contours, edges
-/

set_option linter.unusedSectionVars false

namespace HG

open Spec

section
variable {K : Type} [CommRing K] [LinearOrder K] [IsStrictOrderedRing K]

/-! ## Convex contours are good -/

theorem fan_sum (o : Point K) (l : List (Point K)) (z : Point K) : ∀ a,
    pathSum areaTerm (a :: (l ++ [z])) =
      pathSum (fun p q => area2 o p q) (a :: (l ++ [z])) - areaTerm o a + areaTerm o z := by
  induction l with
  | nil => intro a; simp only [List.nil_append, pathSum]; unfold areaTerm area2; ring
  | cons b l ih =>
    intro a
    rw [List.cons_append]
    simp only [pathSum]
    rw [ih b]; unfold areaTerm area2; ring

theorem pathSum_nonneg {f : Point K → Point K → K} : ∀ l : List (Point K),
    l.IsChain (fun p q => 0 ≤ f p q) → 0 ≤ pathSum f l
  | [], _ => le_refl _
  | [_], _ => le_refl _
  | a :: b :: l, h => by
    rw [List.isChain_cons_cons] at h
    simp only [pathSum]
    have := pathSum_nonneg (b :: l) h.2
    linarith [h.1]

theorem strictlyConvex_area {l : List (Point K)} (h : StrictlyConvex l) (h3 : 3 ≤ l.length) :
    0 < shoelace l := by
  have e : shoelace l = cycSum areaTerm l := rfl
  rw [e, cycSum_path]
  rcases l with _ | ⟨a, _ | ⟨b, _ | ⟨c, l⟩⟩⟩
  · simp at h3
  · simp at h3
  · simp at h3
  rw [show a :: b :: c :: l ++ (a :: b :: c :: l).take 1 = a :: ((b :: c :: l) ++ [a]) by simp,
    fan_sum a]
  have e0 : areaTerm a a = 0 := by unfold areaTerm; ring
  rw [e0, sub_zero, add_zero]
  simp only [List.cons_append, pathSum]
  have e1 : area2 a a b = 0 := by unfold area2; ring
  rw [e1, zero_add]
  have hp : 0 < area2 a b c := h.2 0 1 2 (by omega) (by omega) (by simp)
  have := pathSum_nonneg (f := fun p q => area2 a p q) (c :: (l ++ [a])) ?_
  · linarith
  · have : (c :: (l ++ [a])) = (c :: l) ++ [a] := rfl
    rw [this, List.isChain_append]
    refine ⟨?_, List.isChain_singleton _, ?_⟩
    · rw [List.isChain_iff_getElem]
      intro i hi
      have := h.2 0 (i + 2) (i + 3) (by omega) (by omega) (by simp at hi ⊢; omega)
      unfold LeftTurn at this
      rw [List.getD_eq_getElem _ _ (by simp), List.getD_eq_getElem _ _ (by simp at hi ⊢; omega),
        List.getD_eq_getElem _ _ (by simp at hi ⊢; omega)] at this
      simpa using this.le
    · intro p _ q hq
      simp at hq
      subst hq
      unfold area2; exact le_of_eq (by ring)

/-- Strictly convex contours are well-formed borders. -/
theorem strictlyConvex_good {l : List (Point K)} (h : StrictlyConvex l) (h3 : 3 ≤ l.length) :
    GoodBorder l := by
  refine ⟨h.1, strictlyConvex_simple h h3, ?_, ?_, strictlyConvex_area h h3⟩
  · intro i j hij hj hx
    have left : ∀ k, 0 ≤ area2 (cyc l i) (cyc l (i + 1)) (cyc l k) := by
      intro k
      rw [← cyc_mod l k]
      by_cases h1 : k % l.length = i
      · rw [h1]; unfold area2; exact le_of_eq (by ring)
      by_cases h2 : k % l.length = (i + 1) % l.length
      · rw [h2, cyc_mod]; unfold area2; exact le_of_eq (by ring)
      exact (strictlyConvex_left h (by omega) (Nat.mod_lt _ (by omega)) h1 h2).le
    have := mul_nonneg (left j) (left (j + 1))
    exact absurd hx.1 (not_lt.2 this)
  · intro i hi hc
    have h1 : (i + 2) % l.length ≠ i ∧ (i + 2) % l.length ≠ (i + 1) % l.length := by
      rcases Nat.lt_or_ge (i + 2) l.length with k | k
      · rw [Nat.mod_eq_of_lt k, Nat.mod_eq_of_lt (by omega)]; omega
      · rw [show i + 2 = (i + 2 - l.length) + l.length by omega, Nat.add_mod_right,
          Nat.mod_eq_of_lt (a := i + 2 - l.length) (by omega)]
        rcases Nat.lt_or_ge (i + 1) l.length with k' | k'
        · rw [Nat.mod_eq_of_lt k']; omega
        · rw [show i + 1 = l.length by omega, Nat.mod_self]; omega
    have := strictlyConvex_left h hi (Nat.mod_lt (i + 2) (by omega)) h1.1 h1.2
    rw [cyc_mod] at this
    unfold Collinear at hc
    rw [hc] at this
    exact lt_irrefl _ this

/-! ## Reversal -/

theorem pathSum_reverse {f : Point K → Point K → K} (hf : ∀ p q, f q p = - f p q) :
    ∀ l : List (Point K), pathSum f l.reverse = - pathSum f l
  | [] => by simp [pathSum]
  | [_] => by simp [pathSum]
  | a :: b :: l => by
    rw [List.reverse_cons, List.reverse_cons, List.append_assoc]
    change pathSum f (l.reverse ++ b :: [a]) = _
    rw [pathSum_append, ← List.reverse_cons, pathSum_reverse hf (b :: l)]
    simp only [pathSum]
    rw [hf a b]; ring

theorem shoelace_reverse (l : List (Point K)) : shoelace (reverseVertices l) = - shoelace l := by
  have e : ∀ l : List (Point K), shoelace l = cycSum areaTerm l := fun _ => rfl
  rw [e, e, cycSum_path, cycSum_path, ← pathSum_reverse (fun p q => by unfold areaTerm; ring)]
  rcases l with _ | ⟨a, l⟩
  · simp [reverseVertices]
  · simp [reverseVertices]

theorem reverse_length (l : List (Point K)) : (reverseVertices l).length = l.length := by
  simp only [reverseVertices, List.length_append, List.length_take, List.length_reverse,
    List.length_drop]
  omega

theorem edge_reverse {l : List (Point K)} {i : Nat} (hi : i < l.length) :
    edge (reverseVertices l) i = ⟨(edge l (l.length - 1 - i)).stop, (edge l (l.length - 1 - i)).start⟩ := by
  unfold edge
  rw [cyc_reverse l i (by omega), cyc_reverse l (i + 1) (by omega)]
  simp only
  rw [show 2 * l.length - i = (l.length - 1 - i + 1) + l.length by omega, cyc_add,
    show 2 * l.length - (i + 1) = (l.length - 1 - i) + l.length by omega, cyc_add]

theorem simple_reverse {l : List (Point K)} (h : SimpleContour l) :
    SimpleContour (reverseVertices l) := by
  refine ⟨by rw [reverse_length]; exact h.1, fun i j hij hj p h1 h2 => ?_⟩
  rw [reverse_length] at hj
  rw [edge_reverse (by omega)] at h1
  rw [edge_reverse hj] at h2
  have := h.2 (l.length - 1 - j) (l.length - 1 - i) (by omega) (by omega) p (onSeg_swap h2)
    (onSeg_swap h1)
  rcases this with ⟨e, e'⟩ | ⟨e0, e1, e'⟩
  · left
    refine ⟨by omega, ?_⟩
    rw [e', cyc_reverse l j (by omega),
      show 2 * l.length - j = (l.length - 1 - i) + l.length by omega, cyc_add]
  · right
    refine ⟨by omega, by rw [reverse_length]; omega, ?_⟩
    rw [e', cyc_reverse l 0 (by omega), show 2 * l.length - 0 = 0 + l.length + l.length by omega,
      cyc_add, cyc_add]

theorem properCross_swap_left {s t : Segment K} (h : ProperCross s t) :
    ProperCross ⟨s.stop, s.start⟩ t := by
  obtain ⟨h1, h2⟩ := h
  constructor
  · have : ∀ q, area2 s.stop s.start q = - area2 s.start s.stop q := fun q => by
      unfold area2; ring
    simp only
    rw [this, this, neg_mul_neg]; exact h1
  · simp only; rw [mul_comm]; exact h2

theorem properCross_swap {s t : Segment K} (h : ProperCross s t) :
    ProperCross ⟨s.stop, s.start⟩ ⟨t.stop, t.start⟩ :=
  (properCross_swap_left (properCross_swap_left h).symm).symm

theorem noProperCross_reverse {l : List (Point K)} (h : NoProperCross l) :
    NoProperCross (reverseVertices l) := by
  intro i j hij hj hx
  rw [reverse_length] at hj
  rw [edge_reverse (by omega), edge_reverse hj] at hx
  exact h (l.length - 1 - j) (l.length - 1 - i) (by omega) (by omega) (properCross_swap hx).symm

theorem strict_reverse {l : List (Point K)} (h : StrictContour l) :
    StrictContour (reverseVertices l) := by
  intro i hi hc
  rw [reverse_length] at hi
  unfold Collinear at hc
  rw [C23_orientation l i hi] at hc
  have hp : 0 < l.length := by omega
  refine h ((2 * l.length - (i + 2)) % l.length) (Nat.mod_lt _ hp) ?_
  by_cases h2 : l.length = 1
  · obtain ⟨a, rfl⟩ := List.length_eq_one_iff.1 h2
    simp [Collinear, cyc, area2, Nat.mod_one]
  have e : ∀ k, cyc l ((2 * l.length - (i + 2)) % l.length + k) = cyc l (2 * l.length - (i + 2) + k) := by
    intro k
    rw [← cyc_mod, Nat.mod_add_mod, cyc_mod]
  have e0 := e 0
  rw [Nat.add_zero, Nat.add_zero] at e0
  unfold Collinear
  rw [e0, e, e, show 2 * l.length - (i + 2) + 1 = 2 * l.length - (i + 1) by omega,
    show 2 * l.length - (i + 2) + 2 = 2 * l.length - i by omega]
  linear_combination -hc

theorem nodup_reverse {l : List (Point K)} (h : l.Nodup) : (reverseVertices l).Nodup := by
  have : (reverseVertices l).Perm l := by
    unfold reverseVertices
    refine List.Perm.trans (List.Perm.append_left _ (List.reverse_perm _)) ?_
    rw [List.take_append_drop]
  exact this.nodup_iff.2 h

/-! ## Edges -/

/-- The edges of a contour, in the order of `contourEdges`. -/
theorem contourEdges_pairwise {R : Segment K → Segment K → Prop} (hR : ∀ s t, R s t → R t s)
    {l : List (Point K)} (h : ∀ i j, i < j → j < l.length → R (edge l i) (edge l j)) :
    (contourEdges l).Pairwise R := by
  have e : contourEdges l = (List.range l.length).map fun i => edge l ((i + (l.length - 1)) % l.length) := by
    unfold contourEdges
    refine List.map_congr_left fun i hi => ?_
    rw [List.mem_range] at hi
    unfold edge cyc
    rw [Nat.mod_mod, pyAt_nonneg]
    cases i with
    | zero =>
      rw [show ((0 : Nat) : Int) - 1 = -((1 : Nat) : Int) by rfl,
        pyAt_neg _ _ (by omega) (by omega), Nat.zero_add,
        Nat.mod_eq_of_lt (a := l.length - 1) (by omega),
        show l.length - 1 + 1 = l.length by omega, Nat.mod_self]
    | succ i =>
      rw [show ((i + 1 : Nat) : Int) - 1 = (i : Int) by omega, pyAt_nonneg,
        show i + 1 + (l.length - 1) = i + l.length by omega, Nat.add_mod_right,
        Nat.mod_eq_of_lt (a := i) (by omega), Nat.mod_eq_of_lt hi]
  rw [e, List.pairwise_map]
  refine (List.pairwise_lt_range).imp_of_mem ?_
  intro i j hi hj hij
  rw [List.mem_range] at hi hj
  have m1 : ∀ k, 0 < k → k < l.length → (k + (l.length - 1)) % l.length = k - 1 := by
    intro k k0 k1
    rw [show k + (l.length - 1) = (k - 1) + l.length by omega, Nat.add_mod_right,
      Nat.mod_eq_of_lt (by omega)]
  rw [m1 j (by omega) hj]
  rcases Nat.eq_zero_or_pos i with rfl | h0
  · rw [Nat.zero_add, Nat.mod_eq_of_lt (a := l.length - 1) (by omega)]
    rcases Nat.eq_or_lt_of_le (show j - 1 ≤ l.length - 1 by omega) with e | e
    · omega
    · exact hR _ _ (h _ _ e (by omega))
  · rw [m1 i h0 hi]
    exact h _ _ (by omega) (by omega)

theorem weights_eq {u v p q r : K} (hu : 0 < u) (hv : 0 < v) (hp : r ≤ p) (hq : r ≤ q)
    (h : u * p + v * q ≤ (u + v) * r) : p = r ∧ q = r := by
  have h1 := mul_nonneg hu.le (sub_nonneg.2 hp)
  have h2 := mul_nonneg hv.le (sub_nonneg.2 hq)
  have e1 : u * (p - r) = 0 := by nlinarith
  have e2 : v * (q - r) = 0 := by nlinarith
  constructor
  · rcases mul_eq_zero.1 e1 with e | e
    · exact absurd e hu.ne'
    · linear_combination e
  · rcases mul_eq_zero.1 e2 with e | e
    · exact absurd e hv.ne'
    · linear_combination e

/-- Properly crossing segments are not on different sides of a vertical line. -/
theorem properCross_x {a b c d : Point K} {r : K} (h : ProperCross ⟨a, b⟩ ⟨c, d⟩) (ha : a.x ≤ r)
    (hb : b.x ≤ r) (hc : r ≤ c.x) (hd : r ≤ d.x) : False := by
  wlog hpos : 0 < area2 a b c generalizing c d
  · refine this (properCross_swap_left h.symm).symm hd hc ?_
    obtain ⟨h1, -⟩ := h
    dsimp only at h1
    rcases mul_neg_iff.1 h1 with h | h
    · exact absurd h.1 hpos
    · exact h.2
  obtain ⟨h1, h2⟩ := h
  dsimp only at h1 h2
  have hneg : area2 a b d < 0 := by
    rcases mul_neg_iff.1 h1 with h | h
    · exact h.2
    · exact absurd hpos (not_lt.2 h.1.le)
  have hsum : area2 a b c - area2 a b d = area2 c d b - area2 c d a := by unfold area2; ring
  have hga : 0 < area2 c d b ∧ area2 c d a < 0 := by
    rcases mul_neg_iff.1 h2 with h | h
    · exfalso; linarith [h.1, h.2]
    · exact h.symm
  have ex : area2 a b c * d.x - area2 a b d * c.x = area2 c d b * a.x - area2 c d a * b.x := by
    unfold area2; ring
  have k1 := mul_le_mul_of_nonneg_left ha hga.1.le
  have k2 := mul_le_mul_of_nonneg_left hb (neg_pos.2 hga.2).le
  obtain ⟨e1, e2⟩ := weights_eq hpos (neg_pos.2 hneg) hd hc (by
    have : (area2 a b c + -area2 a b d) * r = (area2 c d b + -area2 c d a) * r := by
      rw [← sub_eq_add_neg, hsum, ← sub_eq_add_neg]
    rw [this]; linarith)
  have k3 := mul_le_mul_of_nonneg_left hd hpos.le
  have k4 := mul_le_mul_of_nonneg_left hc (neg_pos.2 hneg).le
  obtain ⟨e4, e3⟩ := weights_eq (p := -a.x) (q := -b.x) (r := -r) hga.1 (neg_pos.2 hga.2)
    (by linarith) (by linarith) (by
      have : (area2 c d b + -area2 c d a) * -r = (area2 a b c + -area2 a b d) * -r := by
        rw [← sub_eq_add_neg, ← hsum, ← sub_eq_add_neg]
      rw [this]; linarith)
  have e5 : b.x = r := by linear_combination -e3
  have e6 : a.x = r := by linear_combination -e4
  have : area2 a b c = 0 := by
    unfold area2; rw [e2, e5, e6]; ring
  rw [this] at hpos
  exact lt_irrefl _ hpos

/-- Properly crossing segments are not on different sides of a horizontal line. -/
theorem properCross_y {a b c d : Point K} {r : K} (h : ProperCross ⟨a, b⟩ ⟨c, d⟩) (ha : a.y ≤ r)
    (hb : b.y ≤ r) (hc : r ≤ c.y) (hd : r ≤ d.y) : False := by
  have e : ∀ p q s : Point K, area2 ⟨p.y, p.x⟩ ⟨q.y, q.x⟩ ⟨s.y, s.x⟩ = - area2 p q s := by
    intro p q s; unfold area2; ring
  refine properCross_x (a := ⟨a.y, a.x⟩) (b := ⟨b.y, b.x⟩) (c := ⟨c.y, c.x⟩) (d := ⟨d.y, d.x⟩)
    ?_ ha hb hc hd
  obtain ⟨h1, h2⟩ := h
  constructor
  · simp only [e]; rw [neg_mul_neg]; exact h1
  · simp only [e]; rw [neg_mul_neg]; exact h2

/-- Two segments on different sides of a point in a lexicographic order do not cross properly. -/
theorem Separated.noProper {s t : Segment K} (h : Separated [s.start, s.stop] [t.start, t.stop]) :
    ¬ ProperCross s t := by
  rcases h with h | h | ⟨k, q, h1, h2⟩
  · simp at h
  · simp at h
  · have a1 := h1 s.start (by simp)
    have a2 := h1 s.stop (by simp)
    have b1 := h2 t.start (by simp)
    have b2 := h2 t.stop (by simp)
    intro hx
    cases k
    · have le : ∀ p q : Point K, p = q ∨ keyOrder false p q → p.y ≤ q.y := by
        rintro p q (rfl | h)
        · exact le_refl _
        · simp only [keyOrder, Bool.false_eq_true, if_false] at h
          rcases h with h | h
          · exact h.le
          · exact h.1.le
      exact properCross_y hx (le _ _ a1) (le _ _ a2) (le _ _ (b1.imp_left Eq.symm))
        (le _ _ (b2.imp_left Eq.symm))
    · have le : ∀ p q : Point K, p = q ∨ keyOrder true p q → p.x ≤ q.x := by
        rintro p q (rfl | h)
        · exact le_refl _
        · simp only [keyOrder, if_true] at h
          rcases h with h | h
          · exact h.le
          · exact h.1.le
      exact properCross_x hx (le _ _ a1) (le _ _ a2) (le _ _ (b1.imp_left Eq.symm))
        (le _ _ (b2.imp_left Eq.symm))

/-- Edges of separated contours. -/
theorem Separated.edges {l m : List (Point K)} (h : Separated l m) {s t : Segment K}
    (hs : s ∈ contourEdges l) (ht : t ∈ contourEdges m) : NoCross s t ∧ ¬ ProperCross s t := by
  obtain ⟨i, hi, rfl⟩ := contourEdges_edge hs
  obtain ⟨j, hj, rfl⟩ := contourEdges_edge ht
  have hl : 0 < l.length := by omega
  have hm : 0 < m.length := by omega
  have hsep : Separated [(edge l i).start, (edge l i).stop] [(edge m j).start, (edge m j).stop] := by
    refine h.mono ?_ ?_ <;> intro v hv <;>
      simp only [List.mem_cons, List.not_mem_nil, or_false] at hv <;>
      rcases hv with rfl | rfl <;> exact cyc_mem (by assumption) _
  refine ⟨⟨fun p h1 h2 => .inl (h.noCross (List.ne_nil_of_length_pos hl)
    (List.ne_nil_of_length_pos hm) i j p h1 h2).1, fun p q h1 h2 h3 h4 => ?_⟩, hsep.noProper⟩
  exact (h.noCross (List.ne_nil_of_length_pos hl) (List.ne_nil_of_length_pos hm) i j q h3 h4).2.2
    p h1 h2

end
end HG
