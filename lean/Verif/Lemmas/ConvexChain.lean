import Verif.Props.AxisEdge

/-!
# Hulls of convex chains

A chain of vectors to the right, sorted by slopes that are different unless they are zero: the hull
of its points consists of all of them but the inner ones of the horizontal piece.
-/

set_option linter.unusedSectionVars false

namespace HG

open Spec

section
variable {K : Type} [CommRing K] [LinearOrder K] [IsStrictOrderedRing K]

/-- The corner of a hull where a linear functional is least. -/
theorem hull_corner {h pts : List (Point K)} (ho : HullOk h pts) (h3 : 3 ≤ h.length) (i : ℕ)
    (hi : i < h.length) : ∃ a ∈ h, ∃ b ∈ h, 0 < area2 a (cyc h i) b ∧
      (∀ q ∈ pts, 0 ≤ area2 a (cyc h i) q) ∧ ∀ q ∈ pts, 0 ≤ area2 (cyc h i) b q := by
  obtain ⟨k, hk, hki⟩ : ∃ k < h.length, (k + 1) % h.length = i := by
    by_cases h0 : i = 0
    · exact ⟨h.length - 1, by omega, by rw [h0, Nat.sub_add_cancel (by omega), Nat.mod_self]⟩
    · exact ⟨i - 1, by omega, by rw [Nat.sub_add_cancel (by omega), Nat.mod_eq_of_lt hi]⟩
  have ek : cyc h (k + 1) = cyc h i := by rw [← hki, cyc_mod]
  have hkne : k ≠ i ∧ k ≠ (i + 1) % h.length := by
    rcases Nat.lt_or_ge (k + 1) h.length with h1 | h1
    · rw [Nat.mod_eq_of_lt h1] at hki
      subst hki
      refine ⟨by omega, ?_⟩
      rcases Nat.lt_or_ge (k + 1 + 1) h.length with h2 | h2
      · rw [Nat.mod_eq_of_lt h2]; omega
      · rw [show k + 1 + 1 = h.length by omega, Nat.mod_self]; omega
    · rw [show k + 1 = h.length by omega, Nat.mod_self] at hki
      subst hki
      rw [Nat.mod_eq_of_lt (by omega)]
      omega
  refine ⟨cyc h k, cyc_mem (by omega) _, cyc h (i + 1), cyc_mem (by omega) _, ?_, fun q hq => ?_,
    fun q hq => ho.left i hi q hq⟩
  · have := strictlyConvex_left ho.convex hi hk hkne.1 hkne.2
    rw [← area2_rot]
    exact this
  · have := ho.left k hk q hq
    rwa [ek] at this

/-- Points not all of which are on a line have a hull with at least three vertices. -/
theorem hull_three {h pts : List (Point K)} (ho : HullOk h pts) {p q r : Point K} (hp : p ∈ pts)
    (hq : q ∈ pts) (hr : r ∈ pts) (hne : area2 p q r ≠ 0) : 3 ≤ h.length := by
  have hpq : p ≠ q := by rintro rfl; exact hne (area2_self'' _ _)
  have h2 := ho.two p hp q hq hpq
  by_contra hlt
  have hl : h.length = 2 := by omega
  match h, hl with
  | [a, b], _ =>
    have hab : a ≠ b := by
      have := ho.convex.1
      simpa using this
    have on : ∀ w ∈ pts, area2 a b w = 0 := by
      intro w hw
      have h0 := ho.left 0 (by simp) w hw
      have h1 := ho.left 1 (by simp) w hw
      simp only [cyc, List.length_cons, List.length_nil] at h0 h1
      simp at h0 h1
      rw [area2_swap] at h1
      linarith
    have e1 := on p hp
    have e2 := on q hq
    have e3 := on r hr
    unfold area2 at e1 e2 e3 hne
    have kx : (b.x - a.x) * ((q.x - p.x) * (r.y - p.y) - (q.y - p.y) * (r.x - p.x)) = 0 := by
      linear_combination (q.x - p.x) * (e3 - e1) - (r.x - p.x) * (e2 - e1)
    have ky : (b.y - a.y) * ((q.x - p.x) * (r.y - p.y) - (q.y - p.y) * (r.x - p.x)) = 0 := by
      linear_combination (q.y - p.y) * (e3 - e1) - (r.y - p.y) * (e2 - e1)
    apply hab
    have x0 := (mul_eq_zero.1 kx).resolve_right hne
    have y0 := (mul_eq_zero.1 ky).resolve_right hne
    cases a
    cases b
    simp only [Point.mk.injEq] at *
    exact ⟨by linarith, by linarith⟩

/-- The only point where a linear functional is least is a vertex of the hull. -/
theorem hull_mem_of_least {h pts : List (Point K)} (ho : HullOk h pts) (h3 : 3 ≤ h.length) (A B : K)
    {p : Point K} (hp : p ∈ pts) (hmin : ∀ r ∈ pts, r ≠ p → lin A B p < lin A B r) : p ∈ h := by
  by_contra hnot
  obtain ⟨i, hi, hmi⟩ : ∃ i < h.length, ∀ j, lin A B (cyc h i) ≤ lin A B (cyc h j) := by
    obtain ⟨i, hi, hm⟩ := Finset.exists_min_image (Finset.range h.length)
      (fun j => lin A B (cyc h j)) ⟨0, Finset.mem_range.2 (by omega)⟩
    refine ⟨i, Finset.mem_range.1 hi, fun j => ?_⟩
    have := hm (j % h.length) (Finset.mem_range.2 (Nat.mod_lt _ (by omega)))
    rwa [cyc_mod] at this
  have hle : ∀ a ∈ h, lin A B (cyc h i) ≤ lin A B a := by
    intro a ha
    obtain ⟨j, hj, rfl⟩ := List.mem_iff_getElem.1 ha
    have := hmi j
    rwa [show cyc h j = h[j] by
      unfold cyc; rw [Nat.mod_eq_of_lt hj, List.getD_eq_getElem _ _ hj]] at this
  obtain ⟨a, ha, b, hb, hc, h1, h2⟩ := hull_corner ho h3 i hi
  have hm : cyc h i ∈ h := cyc_mem (by omega) i
  have hlt := hmin _ (ho.sub _ hm) fun e => hnot (e ▸ hm)
  have l1 := h1 p hp
  have l2 := h2 p hp
  have f1 := hle a ha
  have f2 := hle b hb
  generalize cyc h i = w at *
  have id1 : area2 a w b * (lin A B p - lin A B w) =
      area2 a w p * (lin A B b - lin A B w) + area2 w b p * (lin A B a - lin A B w) := by
    simp only [lin, area2]; ring
  have t1 := mul_nonneg l1 (sub_nonneg.2 f2)
  have t2 := mul_nonneg l2 (sub_nonneg.2 f1)
  have t3 := mul_neg_of_pos_of_neg hc (sub_neg.2 hlt)
  linarith

/-- A point between two others is no vertex of the hull. -/
theorem hull_notMem_between {h pts : List (Point K)} (ho : HullOk h pts) (h3 : 3 ≤ h.length)
    {p : Point K} {s t : K} (hs : 0 < s) (ht : 0 < t) (hps : (⟨p.x - s, p.y⟩ : Point K) ∈ pts)
    (hpt : (⟨p.x + t, p.y⟩ : Point K) ∈ pts) : p ∉ h := by
  intro hp
  obtain ⟨i, hi, rfl⟩ := List.mem_iff_getElem.1 hp
  have hc : cyc h i = h[i] := by
    unfold cyc; rw [Nat.mod_eq_of_lt hi, List.getD_eq_getElem _ _ hi]
  obtain ⟨a, ha, b, hb, hc', h1, h2⟩ := hull_corner ho h3 i hi
  rw [hc] at hc' h1 h2
  generalize h[i] = w at *
  have a1 := h1 _ hps
  have a2 := h1 _ hpt
  have b1 := h2 _ hps
  have b2 := h2 _ hpt
  simp only [area2] at a1 a2 b1 b2 hc'
  have ea : w.y - a.y = 0 := by
    rcases lt_trichotomy (w.y - a.y) 0 with h | h | h
    · have := mul_neg_of_neg_of_pos h hs; linarith
    · exact h
    · have := mul_pos h ht; linarith
  have eb : b.y - w.y = 0 := by
    rcases lt_trichotomy (b.y - w.y) 0 with h | h | h
    · have := mul_neg_of_neg_of_pos h hs; linarith
    · exact h
    · have := mul_pos h ht; linarith
  rw [ea, show b.y - a.y = 0 by linarith] at hc'
  simp at hc'

/-! ### Chains -/

/-- The end of the first `k` vectors of a chain. -/
def chainPoint (s : Point K) (V : List (K × K)) (k : ℕ) : Point K :=
  ⟨s.x + ((V.take k).map Prod.fst).sum, s.y + ((V.take k).map Prod.snd).sum⟩

theorem chainPoint_succ (s : Point K) (V : List (K × K)) {k : ℕ} (hk : k < V.length) :
    chainPoint s V (k + 1) =
      ⟨(chainPoint s V k).x + V[k].1, (chainPoint s V k).y + V[k].2⟩ := by
  unfold chainPoint
  rw [List.take_succ_eq_append_getElem hk]
  simp only [List.map_append, List.map_cons, List.map_nil, List.sum_append, List.sum_cons,
    List.sum_nil, add_zero, Point.mk.injEq]
  exact ⟨by ring, by ring⟩

theorem least_of_steps (F : ℕ → K) (N i : ℕ) (hdec : ∀ k < i, F (k + 1) < F k)
    (hinc : ∀ k, i ≤ k → k < N → F k < F (k + 1)) (k : ℕ) (hk : k ≤ N) (hne : k ≠ i) :
    F i < F k := by
  rcases Nat.lt_or_gt_of_ne hne with h | h
  · have : ∀ d, 0 < d → d ≤ i → F i < F (i - d) := by
      intro d
      induction d with
      | zero => intro h; omega
      | succ d ih =>
        intro _ hd
        have h1 := hdec (i - (d + 1)) (by omega)
        rw [show i - (d + 1) + 1 = i - d by omega] at h1
        rcases Nat.eq_zero_or_pos d with rfl | h0
        · exact h1
        · exact (ih h0 (by omega)).trans h1
    have := this (i - k) (by omega) (by omega)
    rwa [show i - (i - k) = k by omega] at this
  · have : ∀ d, 0 < d → i + d ≤ N → F i < F (i + d) := by
      intro d
      induction d with
      | zero => intro h; omega
      | succ d ih =>
        intro _ hd
        have h1 := hinc (i + d) (by omega) (by omega)
        rcases Nat.eq_zero_or_pos d with rfl | h0
        · exact h1
        · exact (ih h0 (by omega)).trans h1
    have := this (k - i) (by omega) (by omega)
    rwa [show i + (k - i) = k by omega] at this

/-- The number of vertices of the hull of a convex chain. -/
theorem chain_hull {h pts : List (Point K)} (ho : HullOk h pts) (s : Point K)
    {D Z U : List (K × K)}
    (hpts : ∀ q, q ∈ pts ↔ ∃ k ≤ (D ++ Z ++ U).length, q = chainPoint s (D ++ Z ++ U) k)
    (hpos : ∀ v ∈ D ++ Z ++ U, 0 < v.1)
    (hconv : (D ++ Z ++ U).Pairwise fun v w =>
      0 < v.1 * w.2 - v.2 * w.1 ∨ (v.2 = 0 ∧ w.2 = 0))
    (hD : ∀ v ∈ D, v.2 ≠ 0) (hZ : ∀ v ∈ Z, v.2 = 0) (hU : ∀ v ∈ U, v.2 ≠ 0) (hZne : Z ≠ [])
    (hne : D ≠ [] ∨ U ≠ []) : h.length = D.length + U.length + 2 := by
  have hlen : (D ++ Z ++ U).length = D.length + Z.length + U.length := by
    simp [add_assoc]
  have hz0 := List.length_pos_iff.2 hZne
  have zero : ∀ i (hi : i < (D ++ Z ++ U).length), (D ++ Z ++ U)[i].2 = 0 ↔
      D.length ≤ i ∧ i < D.length + Z.length := by
    intro i hi
    rcases Nat.lt_or_ge i D.length with h1 | h1
    · have : (D ++ Z ++ U)[i] = D[i] := by
        rw [List.getElem_append_left (by simp; omega), List.getElem_append_left h1]
      rw [this]
      exact ⟨fun e => absurd e (hD _ (List.getElem_mem _)), fun e => by omega⟩
    · rcases Nat.lt_or_ge i (D.length + Z.length) with h2 | h2
      · have : (D ++ Z ++ U)[i] = Z[i - D.length] := by
          rw [List.getElem_append_left (by simp; omega), List.getElem_append_right h1]
        rw [this]
        exact ⟨fun _ => ⟨h1, h2⟩, fun _ => hZ _ (List.getElem_mem _)⟩
      · have : (D ++ Z ++ U)[i] = U[i - (D ++ Z).length]'(by simp at hi ⊢; omega) := by
          rw [List.getElem_append_right (by simp; omega)]
        rw [this]
        exact ⟨fun e => absurd e (hU _ (List.getElem_mem _)), fun e => by omega⟩
  generalize hV : D ++ Z ++ U = V at *
  have posn : ∀ i (hi : i < V.length), 0 < V[i].1 := fun i hi => hpos _ (List.getElem_mem _)
  have conv : ∀ i j (hi : i < V.length) (hj : j < V.length), i < j →
      0 < V[i].1 * V[j].2 - V[i].2 * V[j].1 ∨ (V[i].2 = 0 ∧ V[j].2 = 0) :=
    fun i j hi hj hij => List.pairwise_iff_getElem.1 hconv i j hi hj hij
  have conv' : ∀ i j (hi : i < V.length) (hj : j < V.length), i < j →
      0 ≤ V[i].1 * V[j].2 - V[i].2 * V[j].1 := by
    intro i j hi hj hij
    rcases conv i j hi hj hij with h | ⟨h1, h2⟩
    · exact h.le
    · rw [h1, h2]; simp
  have mem : ∀ k ≤ V.length, chainPoint s V k ∈ pts := fun k hk => (hpts _).2 ⟨k, hk, rfl⟩
  have xlt : ∀ i j, i ≤ V.length → j ≤ V.length → i ≠ j →
      chainPoint s V i ≠ chainPoint s V j := by
    have key : ∀ i j, i < j → j ≤ V.length → (chainPoint s V i).x < (chainPoint s V j).x := by
      intro i j hij hj
      induction j with
      | zero => omega
      | succ j ih =>
        have h1 := chainPoint_succ s V (k := j) (by omega)
        have h2 := posn j (by omega)
        rw [h1]
        dsimp only
        rcases Nat.lt_or_ge i j with h | h
        · have := ih h (by omega); linarith
        · rw [show i = j by omega]; linarith
    intro i j hi hj hne e
    rcases Nat.lt_or_gt_of_ne hne with h | h
    · have := key i j h hj; rw [e] at this; exact lt_irrefl _ this
    · have := key j i h hi; rw [e] at this; exact lt_irrefl _ this
  -- corners
  have corner : ∀ k (h0 : 0 < k) (hk : k < V.length), ¬ (D.length < k ∧ k < D.length + Z.length) →
      0 < V[k - 1].1 * V[k].2 - V[k - 1].2 * V[k].1 := by
    intro k h0 hk hnz
    rcases conv (k - 1) k (by omega) hk (by omega) with h | ⟨h1, h2⟩
    · exact h
    · rw [zero] at h1 h2
      omega
  have h3 : 3 ≤ h.length := by
    obtain ⟨k, h0, hk, hnz⟩ : ∃ k, 0 < k ∧ k < V.length ∧
        ¬ (D.length < k ∧ k < D.length + Z.length) := by
      rcases hne with hne | hne
      · have := List.length_pos_iff.2 hne
        exact ⟨D.length, by omega, by omega, by omega⟩
      · have := List.length_pos_iff.2 hne
        exact ⟨D.length + Z.length, by omega, by omega, by omega⟩
    have hc := corner k h0 hk hnz
    refine hull_three ho (mem (k - 1) (by omega)) (mem k (by omega)) (mem (k + 1) (by omega)) ?_
    have e1 := chainPoint_succ s V (k := k - 1) (by omega)
    simp only [show k - 1 + 1 = k by omega] at e1
    have e2 := chainPoint_succ s V hk
    rw [e2]
    simp only [area2]
    rw [e1]
    dsimp only
    intro e
    apply hc.ne'
    linear_combination e
  have least : ∀ (A B : K) (i : ℕ), i ≤ V.length →
      (∀ k (hk : k < V.length), k < i → A * V[k].1 + B * V[k].2 < 0) →
      (∀ k (hk : k < V.length), i ≤ k → 0 < A * V[k].1 + B * V[k].2) → chainPoint s V i ∈ h := by
    intro A B i hi hdec hinc
    refine hull_mem_of_least ho h3 A B (mem i hi) ?_
    intro r hr hne
    obtain ⟨k, hk, rfl⟩ := (hpts r).1 hr
    refine least_of_steps (fun k => lin A B (chainPoint s V k)) V.length i ?_ ?_ k hk ?_
    · intro k hki
      have := hdec k (by omega) hki
      rw [chainPoint_succ s V (by omega)]
      simp only [lin]
      linarith
    · intro k hik hk
      have := hinc k hk hik
      rw [chainPoint_succ s V hk]
      simp only [lin]
      linarith
    · rintro rfl; exact hne rfl
  have inside : ∀ k, D.length < k → k < D.length + Z.length → chainPoint s V k ∉ h := by
    intro k hk1 hk2
    have z1 := (zero (k - 1) (by omega)).2 (by omega)
    have z2 := (zero k (by omega)).2 (by omega)
    refine hull_notMem_between ho h3 (posn (k - 1) (by omega)) (posn k (by omega)) ?_ ?_
    · have e1 := chainPoint_succ s V (k := k - 1) (by omega)
      simp only [show k - 1 + 1 = k by omega] at e1
      have := mem (k - 1) (by omega)
      rw [e1, z1]
      simpa using this
    · have := mem (k + 1) (by omega)
      rw [chainPoint_succ s V (k := k) (by omega), z2] at this
      simpa using this
  have outside : ∀ k ≤ V.length, ¬ (D.length < k ∧ k < D.length + Z.length) →
      chainPoint s V k ∈ h := by
    intro k hk hnz
    rcases Nat.eq_zero_or_pos k with rfl | h0
    · exact least 1 0 0 hk (fun k _ h => by omega) fun k hk _ => by
        have := posn k hk; linarith
    rcases hk.eq_or_lt with rfl | hk'
    · exact least (-1) 0 _ hk (fun k hk _ => by have := posn k hk; linarith)
        fun k hk h => by omega
    have hc := corner k h0 hk' hnz
    refine least (-(V[k - 1].2 + V[k].2)) (V[k - 1].1 + V[k].1) k hk ?_ ?_
    · intro j hj hjk
      have c1 := conv' j k hj hk' hjk
      rcases Nat.lt_or_ge j (k - 1) with h | h
      · have c2 := conv' j (k - 1) hj (by omega) h
        have : ¬ (V[j].1 * V[k].2 - V[j].2 * V[k].1 = 0 ∧
            V[j].1 * V[k - 1].2 - V[j].2 * V[k - 1].1 = 0) := by
          rintro ⟨e1, e2⟩
          rcases conv j k hj hk' hjk with g | g
          · linarith
          · rcases conv j (k - 1) hj (by omega) h with g' | g'
            · linarith
            · rw [g.2, g'.2] at hc; simp at hc
        by_contra hge
        exact this ⟨by linarith, by linarith⟩
      · obtain rfl : j = k - 1 := by omega
        linarith
    · intro j hj hkj
      have c2 := conv' (k - 1) j (by omega) hj (by omega)
      rcases Nat.lt_or_ge k j with h | h
      · have c1 := conv' k j hk' hj h
        have : ¬ (V[k].1 * V[j].2 - V[k].2 * V[j].1 = 0 ∧
            V[k - 1].1 * V[j].2 - V[k - 1].2 * V[j].1 = 0) := by
          rintro ⟨e1, e2⟩
          rcases conv k j hk' hj h with g | g
          · linarith
          · rcases conv (k - 1) j (by omega) hj (by omega) with g' | g'
            · linarith
            · rw [g.1, g'.1] at hc; simp at hc
        by_contra hge
        exact this ⟨by linarith, by linarith⟩
      · obtain rfl : j = k := by omega
        linarith
  -- the count
  classical
  set E := (Finset.range (V.length + 1)).filter fun k =>
    ¬ (D.length < k ∧ k < D.length + Z.length) with hE
  have hset : h.toFinset = E.image (chainPoint s V) := by
    ext q
    simp only [List.mem_toFinset, Finset.mem_image, hE, Finset.mem_filter, Finset.mem_range]
    constructor
    · intro hq
      obtain ⟨k, hk, rfl⟩ := (hpts q).1 (ho.sub q hq)
      exact ⟨k, ⟨by omega, fun hz => inside k hz.1 hz.2 hq⟩, rfl⟩
    · rintro ⟨k, ⟨hk, hz⟩, rfl⟩
      exact outside k (by omega) hz
  have hnd : h.Nodup := ho.convex.1
  rw [← List.toFinset_card_of_nodup hnd, hset, Finset.card_image_of_injOn]
  · have hcard : E.card + (Finset.Ioo D.length (D.length + Z.length)).card = V.length + 1 := by
      have h1 := Finset.card_filter_add_card_filter_not (s := Finset.range (V.length + 1))
        (fun k => D.length < k ∧ k < D.length + Z.length)
      rw [Finset.card_range] at h1
      rw [← h1, add_comm, hE]
      congr 1
      congr 1
      ext k
      simp only [Finset.mem_Ioo, Finset.mem_filter, Finset.mem_range]
      omega
    rw [Nat.card_Ioo] at hcard
    omega
  · intro i hi j hj e
    simp only [hE, Finset.coe_filter, Finset.mem_range, Set.mem_ofPred_eq] at hi hj
    by_contra hne
    exact xlt i j (by omega) (by omega) hne e

end
end HG
