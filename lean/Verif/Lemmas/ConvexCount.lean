import Verif.Lemmas.ConvexVectors

/-!
# Convex contours with a given number of vertices from given coordinates
-/

set_option linter.unusedSectionVars false

namespace HG

open Spec

section
variable {K : Type} [CommRing K] [LinearOrder K] [IsStrictOrderedRing K]

/-- To the right the angle function respects slopes. -/
def Spec.SlopeOk (atan2 : K → K → ℚ) : Prop :=
  ∀ x y x' y' : K, 0 < x → 0 < x' → y * x' < y' * x → atan2 y x < atan2 y' x'

theorem splitEnds_concat (a : K) (l : List K) (b : K) :
    splitEnds (a :: (l ++ [b])) = .ok (a, l, b) := by
  simp [splitEnds]
  rfl

theorem doubled_getLast (S : List K) (hS : S ≠ []) :
    S.flatMap (fun c => [c, c]) = (S.flatMap fun c => [c, c]).dropLast ++ [S.getLast hS] := by
  induction S with
  | nil => exact absurd rfl hS
  | cons c S ih =>
    cases S with
    | nil => rfl
    | cons d S =>
      have := ih (by simp)
      rw [List.getLast_cons (by simp)]
      rw [List.flatMap_cons, List.dropLast_append_of_ne_nil (by simp), List.append_assoc, ← this]

theorem split_by {l : List (K × K)}
    (h : l.Pairwise fun v w => 0 < v.1 * w.2 - v.2 * w.1 ∨ (v.2 = 0 ∧ w.2 = 0))
    (hpos : ∀ v ∈ l, 0 < v.1) :
    ∃ D Z U, l = D ++ Z ++ U ∧ (∀ v ∈ D, v.2 < 0) ∧ (∀ v ∈ Z, v.2 = 0) ∧ ∀ v ∈ U, 0 < v.2 := by
  let f : K × K → ℕ := fun v => if v.2 < 0 then 0 else if v.2 = 0 then 1 else 2
  have hf : l.Pairwise fun v w => f v ≤ f w := by
    refine h.imp_of_mem fun {v w} hv hw hvw => ?_
    have p1 := hpos v hv
    have p2 := hpos w hw
    rcases hvw with hvw | ⟨h1, h2⟩
    · rcases lt_trichotomy v.2 0 with h1 | h1 | h1
      · simp [f, h1]
      · have : 0 < w.2 := by
          rw [h1, zero_mul, sub_zero] at hvw
          exact (pos_iff_pos_of_mul_pos hvw).1 p1
        simp [f, h1, this.not_gt, this.ne']
      · have : 0 < w.2 := by
          have h2 := mul_pos h1 p2
          exact (pos_iff_pos_of_mul_pos (show 0 < v.1 * w.2 by linarith)).1 p1
        simp [f, h1.not_gt, h1.ne', this.not_gt, this.ne']
    · simp [f, h1, h2]
  obtain ⟨D, l', rfl, h1, h2⟩ := split_sorted f 1 l hf
  obtain ⟨Z, U, rfl, h3, h4⟩ := split_sorted f 2 l' (List.pairwise_append.1 hf).2.1
  refine ⟨D, Z, U, (List.append_assoc _ _ _).symm, fun v hv => ?_, fun v hv => ?_, fun v hv => ?_⟩
  · have := h1 v hv
    by_contra hc
    simp only [f, if_neg hc] at this
    split at this <;> omega
  · have a1 := h2 v (by simp [hv])
    have a2 := h3 v hv
    by_contra hc
    simp only [f, if_neg hc] at a1 a2
    split at a2 <;> simp_all
  · have a2 := h4 v hv
    by_contra hc
    simp only [f] at a2
    rcases lt_or_eq_of_le (not_lt.1 hc) with h | h
    · simp [h] at a2
    · simp [h] at a2

theorem walk_points (p : Point K) (b : K × K) (V : List (K × K)) (hx : b.1 + (V.map Prod.fst).sum = 0)
    (hy : b.2 + (V.map Prod.snd).sum = 0) (hV : V ≠ []) (q : Point K) :
    q ∈ walk p (b :: V) ↔ ∃ k ≤ V.length, q = chainPoint ⟨p.x + b.1, p.y + b.2⟩ V k := by
  rw [walk_eq]
  constructor
  · intro hq
    obtain ⟨l1, l2, e, e1, e2⟩ := chainPositions_mem _ _ _ hq
    cases l1 with
    | nil =>
      refine ⟨V.length, le_rfl, ?_⟩
      cases q
      simp only [List.map_nil, List.sum_nil, add_zero] at e1 e2
      simp only [chainPoint, List.take_length, Point.mk.injEq]
      exact ⟨by rw [e1]; linear_combination -hx, by rw [e2]; linear_combination -hy⟩
    | cons a l1 =>
      rw [List.cons_append, List.cons.injEq] at e
      obtain ⟨rfl, rfl⟩ := e
      refine ⟨l1.length, by simp, ?_⟩
      cases q
      simp only [List.map_cons, List.sum_cons] at e1 e2
      simp only [chainPoint, List.take_left', Point.mk.injEq]
      exact ⟨by rw [e1]; ring, by rw [e2]; ring⟩
  · rintro ⟨k, hk, rfl⟩
    rcases hk.eq_or_lt with rfl | hk
    · have := mem_chainPositions [] (b :: V) p (by simp)
      simp only [List.map_nil, List.sum_nil, add_zero, List.nil_append] at this
      have e : chainPoint ⟨p.x + b.1, p.y + b.2⟩ V V.length = p := by
        cases p
        simp only [chainPoint, List.take_length, Point.mk.injEq]
        exact ⟨by linear_combination hx, by linear_combination hy⟩
      rw [e]
      exact this
    · have := mem_chainPositions (b :: V.take k) (V.drop k) p (by
        intro h; rw [List.drop_eq_nil_iff] at h; omega)
      rw [List.cons_append, List.take_append_drop] at this
      simp only [List.map_cons, List.sum_cons] at this
      have e : chainPoint ⟨p.x + b.1, p.y + b.2⟩ V k =
          ⟨p.x + (b.1 + ((V.take k).map Prod.fst).sum),
            p.y + (b.2 + ((V.take k).map Prod.snd).sum)⟩ := by
        simp only [chainPoint, Point.mk.injEq]
        exact ⟨by ring, by ring⟩
      rw [e]
      exact this

/-- The random choices can be made so that the hull has a given number of vertices. -/
theorem convex_count_exact {env : Env K} (hhull : ∀ pts, HullOk (env.convexHull pts) pts)
    (hsec : SectorOk env.atan2) (hslope : SlopeOk env.atan2) {pts : List (Point K)} {x0 x1 v0 : K}
    {l S : List K}
    (hx : pySort (fun a b : K => decide (a ≤ b)) (pts.map Point.x) = x0 :: (l ++ [x1]))
    (hxs : (x0 :: (l ++ [x1])).Pairwise (· < ·))
    (hy : pySort (fun a b : K => decide (a ≤ b)) (pts.map Point.y) =
      v0 :: S.flatMap fun c => [c, c])
    (hvs : (v0 :: S).Pairwise (· < ·)) (hg : (gaps v0 S).Nodup)
    (hl : l.length + 1 = 2 * S.length) {j : ℕ} (hj : j < S.length) :
    ∃ r : ConvexRandom K, (∀ l, (r.shuffle l).Perm l) ∧
      ∃ vs, toConvexVertexSequence env pts r = .ok vs ∧ vs.length = S.length + j + 2 := by
  have hS : S ≠ [] := by rintro rfl; simp at hj
  classical
  obtain ⟨xb, hxb⟩ := zip_bits (l.map fun c => (c, true)) l (by simp [Function.comp_def])
  obtain ⟨yb, hyb⟩ := zip_bits (paired j S) _ (paired_fst j S)
  obtain ⟨b, hb, hvy⟩ := vectorCoordinates_paired j S hS hj v0
  have sx : splitEnds (pySort (fun a b : K => decide (a ≤ b)) (pts.map Point.x)) =
      .ok (x0, l, x1) := by rw [hx, splitEnds_concat]
  have sy : splitEnds (pySort (fun a b : K => decide (a ≤ b)) (pts.map Point.y)) =
      .ok (v0, (S.flatMap fun c => [c, c]).dropLast, S.getLast hS) := by
    rw [hy, doubled_getLast S hS, splitEnds_concat, ← doubled_getLast S hS]
  set c := b - S.getLast hS with hc
  have hc0 : c < 0 := by
    have hlast : S.getLast hS ∈ S.drop j := by
      rw [← List.getLast_drop (l := S) (i := j) (by
        intro h; rw [List.drop_eq_nil_iff] at h; omega)]
      exact List.getLast_mem _
    have hv := hvs
    rw [← List.take_append_drop j S, ← List.cons_append, List.pairwise_append] at hv
    have := hv.2.2 b hb _ hlast
    rw [hc]
    linarith
  set E := gaps x0 (l ++ [x1]) with hE
  have hEpos : ∀ e ∈ E, 0 < e := gaps_pos hxs
  have hw0 : x0 - x1 < 0 := by
    have := (List.pairwise_cons.1 hxs).1 x1 (by simp)
    linarith
  have hU := gaps_pos hvs
  obtain ⟨T, t1, t2⟩ := exists_pairing (E := E) (U := gaps v0 S)
    (D := ((gaps v0 S).take j).map Neg.neg) (m := S.length - j) hEpos hU hg (by
      intro d hd
      obtain ⟨e, he, rfl⟩ := List.mem_map.1 hd
      have := hU e (List.mem_of_mem_take he)
      linarith) ((hg.sublist (List.take_sublist _ _)).map neg_injective) (by
      rw [hE, gaps_length, gaps_length, List.length_map, List.length_take, gaps_length,
        List.length_append, List.length_singleton]
      omega)
  set vy := vectorCoordinates (paired j S) v0 v0 (S.getLast hS) with hvyd
  have tperm : (T ++ [c]).Perm vy := by
    refine (t1.append_right _).trans (List.Perm.trans (List.Perm.of_eq ?_) hvy.symm)
    simp only [List.append_assoc]
  let r : ConvexRandom K := ⟨xb, yb, fun l => if l = vy then T ++ [c] else l⟩
  have hr : ∀ l, (r.shuffle l).Perm l := by
    intro l
    simp only [r]
    split
    · rename_i h; rw [h]; exact tperm
    · exact List.Perm.refl _
  have hTl : E.length = T.length := by
    have h1 := tperm.length_eq
    have h2 := hvy.length_eq
    simp only [List.length_append, List.length_singleton, List.length_map, List.length_take,
      List.length_replicate, gaps_length] at h1 h2
    rw [hE, gaps_length, List.length_append, List.length_singleton]
    omega
  obtain ⟨x1', x2', x3'⟩ := axis_parts sx xb
  obtain ⟨y1', y2', y3'⟩ := axis_parts sy yb
  rw [hxb, vectorCoordinates_right] at x1' x2' x3'
  rw [hyb] at y1' y2' y3'
  set V := pySort (fun v w : K × K => decide (env.atan2 v.2 v.1 ≤ env.atan2 w.2 w.1))
    ((E ++ [x0 - x1]).zip (T ++ [c])) with hV
  have hperm : V.Perm (E.zip T ++ [(x0 - x1, c)]) := by
    refine (pySort_perm _ _).trans ?_
    rw [List.zip_append hTl]
    rfl
  have hsort : V.Pairwise (fun v w => env.atan2 v.2 v.1 ≤ env.atan2 w.2 w.1) := by
    refine (pySort_sorted _ ?_ ?_ _).imp ?_
    · intro v w; simp only [decide_eq_true_eq]; exact le_total _ _
    · intro v w u; simp only [decide_eq_true_eq]; exact le_trans
    · intro v w h; simpa using h
  have pf : (V.map Prod.fst).Perm (E ++ [x0 - x1]) := by
    refine (hperm.map _).trans ?_
    rw [List.map_append, List.map_fst_zip (by omega)]
    rfl
  have ps : (V.map Prod.snd).Perm vy := by
    refine (hperm.map _).trans ?_
    rw [List.map_append, List.map_snd_zip (by omega)]
    exact tperm
  have h1 : ((V.map Prod.fst).map fun w => max w 0).sum = x1 - x0 := by
    rw [(pf.map _).sum_eq, x2']
  have h2 : ((V.map Prod.fst).map fun w => min w 0).sum = -(x1 - x0) := by
    rw [(pf.map _).sum_eq, x3']
  have h3 : ((V.map Prod.snd).map fun w => max w 0).sum = S.getLast hS - v0 := by
    rw [(ps.map _).sum_eq, y2']
  have h4 : ((V.map Prod.snd).map fun w => min w 0).sum = -(S.getLast hS - v0) := by
    rw [(ps.map _).sum_eq, y3']
  have sumx : (V.map Prod.fst).sum = 0 := by rw [← sum_parts, h1, h2]; ring
  have sumy : (V.map Prod.snd).sum = 0 := by rw [← sum_parts, h3, h4]; ring
  have hcand : convexCandidates env pts r = .ok (walk
      ⟨0 + (x0 - chainMin Prod.fst 0 0 V), 0 + (v0 - chainMin Prod.snd 0 0 V)⟩ V) := by
    have e1 := candidates_walk h1 h2 h3 h4
    rw [walk_shift] at e1
    dsimp only at e1
    rw [← e1]
    simp only [convexCandidates, sx, sy, bind, Except.bind, pure, Except.pure, r, hxb, hyb,
      vectorCoordinates_right]
    rw [← hvyd, if_pos rfl]
  refine ⟨r, hr, env.convexHull _, by
    simp only [toConvexVertexSequence, hcand, bind, Except.bind, pure, Except.pure]; rfl, ?_⟩
  -- the step to the left comes first
  have hsub : ∀ v ∈ E.zip T, 0 < v.1 := fun v hv => hEpos _ (List.of_mem_zip hv).1
  obtain ⟨V', hV', hperm'⟩ : ∃ V', V = (x0 - x1, c) :: V' ∧ V'.Perm (E.zip T) := by
    have hp := hperm.trans (List.perm_append_singleton _ _)
    cases hVc : V with
    | nil => rw [hVc] at hp; exact absurd hp.length_eq (by simp)
    | cons u V' =>
      rw [hVc] at hp hsort
      have hu : u = (x0 - x1, c) := by
        by_contra hne
        have hu' : u ∈ E.zip T := by
          rcases List.mem_cons.1 (hp.mem_iff.1 (show u ∈ u :: V' by simp)) with h | h
          · exact absurd h hne
          · exact h
        have hin : (x0 - x1, c) ∈ V' := by
          rcases List.mem_cons.1 (hp.mem_iff.2
            (show (x0 - x1, c) ∈ (x0 - x1, c) :: E.zip T by simp)) with h | h
          · exact absurd h.symm hne
          · exact h
        have hle := (List.pairwise_cons.1 hsort).1 _ hin
        have hp0 := hsub u hu'
        have : sector (x0 - x1) c < sector u.1 u.2 := by
          have := (sector_pos (y := u.2) hp0).1
          have h0 : sector (x0 - x1) c = 0 := by simp [sector, hc0, hw0]
          omega
        exact absurd (hsec _ _ _ _ (.inl hw0.ne) (.inl hp0.ne') this) (not_lt.2 hle)
      subst hu
      exact ⟨V', rfl, (List.perm_cons _).1 hp⟩
  have hpos' : ∀ v ∈ V', 0 < v.1 := fun v hv => hsub v (hperm'.mem_iff.1 hv)
  have hap : V'.Pairwise Apart := (hperm'.pairwise_iff fun {v w} h => Apart.symm h).2 t2
  have hconv : V'.Pairwise fun v w => 0 < v.1 * w.2 - v.2 * w.1 ∨ (v.2 = 0 ∧ w.2 = 0) := by
    rw [hV', List.pairwise_cons] at hsort
    refine (hap.and hsort.2).imp_of_mem fun {v w} hv hw h => ?_
    rcases h.1 with h1 | h1
    · left
      refine lt_of_le_of_ne ?_ h1.symm
      by_contra hlt
      have := hslope w.1 w.2 v.1 v.2 (hpos' w hw) (hpos' v hv) (by
        have := not_le.1 hlt; linarith)
      exact absurd this (not_lt.2 h.2)
    · exact .inr h1
  obtain ⟨D, Z, U, rfl, hD, hZ, hUp⟩ := split_by hconv hpos'
  -- counts
  have hcount : ∀ P : K → Bool, ((D ++ Z ++ U).map Prod.snd).countP P =
      (gaps v0 S ++ (((gaps v0 S).take j).map Neg.neg ++
        List.replicate (S.length - j) 0)).countP P := by
    intro P
    refine List.Perm.countP_eq _ ?_
    refine (hperm'.map _).trans ?_
    rw [List.map_snd_zip (by omega)]
    exact t1
  have all0 : ∀ (P : K → Bool) (L : List K), (∀ a ∈ L, P a = false) → L.countP P = 0 := by
    intro P L h
    rw [List.countP_eq_zero]
    intro a ha
    simp [h a ha]
  have all1 : ∀ (P : K → Bool) (L : List K), (∀ a ∈ L, P a = true) → L.countP P = L.length := by
    intro P L h
    rw [List.countP_eq_length]
    exact h
  have cD : D.length = j := by
    have := hcount fun a => decide (a < 0)
    simp only [List.map_append, List.countP_append] at this
    rw [all1 _ (D.map Prod.snd) (by simpa using fun a b h => hD (b, a) h), all0 _ (Z.map Prod.snd) (by
        intro a ha; obtain ⟨v, hv, rfl⟩ := List.mem_map.1 ha; simp [hZ v hv]),
      all0 _ (U.map Prod.snd) (by
        intro a ha; obtain ⟨v, hv, rfl⟩ := List.mem_map.1 ha; simp [(hUp v hv).le]),
      all0 _ (gaps v0 S) (by intro a ha; simp [(hU a ha).le]),
      all1 _ (List.map _ _) (by
        intro a ha
        obtain ⟨e, he, rfl⟩ := List.mem_map.1 ha
        simp [hU e (List.mem_of_mem_take he)]),
      all0 _ (List.replicate _ _) (by
        intro a ha; rw [List.eq_of_mem_replicate ha]; simp)] at this
    simp only [List.length_map, List.length_take, gaps_length] at this
    omega
  have cU : U.length = S.length := by
    have := hcount fun a => decide (0 < a)
    simp only [List.map_append, List.countP_append] at this
    rw [all0 _ (D.map Prod.snd) (by
        intro a ha; obtain ⟨v, hv, rfl⟩ := List.mem_map.1 ha; simp [(hD v hv).le]),
      all0 _ (Z.map Prod.snd) (by
        intro a ha; obtain ⟨v, hv, rfl⟩ := List.mem_map.1 ha; simp [hZ v hv]),
      all1 _ (U.map Prod.snd) (by
        intro a ha; obtain ⟨v, hv, rfl⟩ := List.mem_map.1 ha; simp [hUp v hv]),
      all1 _ (gaps v0 S) (by intro a ha; simp [hU a ha]),
      all0 _ (List.map _ _) (by
        intro a ha
        obtain ⟨e, he, rfl⟩ := List.mem_map.1 ha
        simp [(hU e (List.mem_of_mem_take he)).le]),
      all0 _ (List.replicate _ _) (by
        intro a ha; rw [List.eq_of_mem_replicate ha]; simp)] at this
    simp only [List.length_map, gaps_length] at this
    omega
  have cZ : Z ≠ [] := by
    rintro rfl
    have := hperm'.length_eq
    rw [List.length_zip, hE, gaps_length, ← hTl, hE, gaps_length] at this
    simp only [List.append_nil, List.length_append, List.length_singleton] at this
    omega
  generalize (⟨0 + (x0 - chainMin Prod.fst 0 0 V), 0 + (v0 - chainMin Prod.snd 0 0 V)⟩ :
    Point K) = s0
  have := chain_hull (hhull (walk s0 V)) _ (fun q => by
    rw [hV']
    refine walk_points s0 _ _ ?_ ?_ ?_ q
    · rw [hV'] at sumx; simpa using sumx
    · rw [hV'] at sumy; simpa using sumy
    · intro h
      simp only [List.append_eq_nil_iff] at h
      exact cZ h.1.2) hpos' hconv (fun v hv => (hD v hv).ne) hZ (fun v hv => (hUp v hv).ne') cZ
    (.inr (by rintro rfl; simp at cU; exact hS (List.length_eq_zero_iff.1 cU.symm)))
  rw [this, cD, cU]
  omega

end
end HG
