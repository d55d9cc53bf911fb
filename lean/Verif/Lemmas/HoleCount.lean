import Verif.Lemmas.InnerPoints

/-!
# Numbers of holes and of vertices of the border

Points no three of which are on a line give all the holes asked for, and a border with as many
vertices as asked for, or as the convex hull has.
-/

set_option linter.unusedSectionVars false

namespace HG

open Strategy Spec

section
variable {K : Type} [CommRing K] [LinearOrder K] [IsStrictOrderedRing K]

/-- Every hole asked for is made, with at most as many vertices as asked for. -/
theorem holeLoop_count {env : Env K} (hcoin : Coins env.coinChange)
    (l : List (Int × Bool)) {s s' : HoleState K} {prior : Option Bool} (hn : s.innerPoints.Nodup)
    (hno : NoThree s.innerPoints) (h3 : ∀ a ∈ l, 3 ≤ a.1)
    (hs : (l.map Prod.fst).sum ≤ s.innerPoints.length) (h : holeLoop env s prior l = .ok s') :
    ∃ hs : List (Contour K), s'.holes = s.holes ++ hs ∧
      List.Forall₂ (fun (c : Contour K) (a : Int × Bool) =>
        3 ≤ c.vertices.length ∧ (c.vertices.length : Int) ≤ a.1) hs l := by
  induction l generalizing s prior with
  | nil =>
    simp only [holeLoop, exc_pure_ok] at h
    subst h
    exact ⟨[], by simp, .nil⟩
  | cons a l ih =>
    obtain ⟨size, key⟩ := a
    have hsize : 3 ≤ size := h3 (size, key) (by simp)
    have h3' : ∀ a ∈ l, 3 ≤ a.1 := fun a ha => h3 a (by simp [ha])
    have hrest : 0 ≤ (l.map Prod.fst).sum := List.sum_nonneg (by
      intro a ha
      obtain ⟨b, hb, rfl⟩ := List.mem_map.1 ha
      have := h3' b hb
      omega)
    simp only [List.map_cons, List.sum_cons] at hs
    simp only [holeLoop, exc_bind_ok] at h
    obtain ⟨vs, hvs, h⟩ := h
    have hperm : (if prior ≠ some key then sortByKey key s.innerPoints else s.innerPoints).Perm
        s.innerPoints := by
      split
      · exact sortByKey_perm _ _
      · exact List.Perm.refl _
    generalize (if prior ≠ some key then sortByKey key s.innerPoints else s.innerPoints) = q
      at hperm h hvs
    have hqn : q.Nodup := hperm.nodup_iff.2 hn
    have hql := hperm.length_eq
    have hqo : NoThree q := fun a ha b hb c hc =>
      hno a (hperm.mem_iff.1 ha) b (hperm.mem_iff.1 hb) c (hperm.mem_iff.1 hc)
    have hlt : (q.take size.toNat).length = size.toNat := by
      rw [List.length_take]; omega
    have hm : ∀ p ∈ q.take size.toNat, p ∈ q := fun p hp => List.mem_of_mem_take hp
    obtain ⟨k1, k2⟩ := toVertexSequence_length (hqn.sublist (List.take_sublist size.toNat q))
      (hcoin.sums _ (by omega))
      (fun a ha b hb c hc => hqo a (hm a ha) b (hm b hb) c (hm c hc)) (by omega) hvs
    rw [if_pos k1] at h
    split at h
    · simp only [exc_throw_ok] at h
    · simp only [exc_bind_ok] at h
      obtain ⟨b, -, h⟩ := h
      obtain ⟨hs', e1, e2⟩ := ih (s := ⟨_, _, _, _⟩) (hqn.sublist (List.drop_sublist _ _)) (fun a ha b hb c hc =>
            hqo a (List.mem_of_mem_drop ha) b (List.mem_of_mem_drop hb) c (List.mem_of_mem_drop hc))
          h3' (by
            have := b2i_cases b
            dsimp only
            rw [List.length_drop, hlt]
            omega) h
      refine ⟨⟨reverseVertices vs⟩ :: hs', ?_, .cons ?_ e2⟩
      · rw [e1]; simp
      · rw [reverseVertices_length]
        exact ⟨k1, by omega⟩

/-- Distinct points no three of which are on a line are not compressed. -/
theorem compressContour_noThree {l P : List (Point K)} (hn : l.Nodup) (hm : ∀ v ∈ l, v ∈ P)
    (hP : NoThree P) (h3 : 3 ≤ l.length) : compressContour l = l := by
  refine compressContour_id l fun i hi => ?_
  have mem : ∀ j, cyc l j ∈ P := fun j => hm _ (cyc_mem (by omega) j)
  have inj : ∀ j k, cyc l j = cyc l k → j % l.length = k % l.length := by
    intro j k h
    unfold cyc at h
    rw [List.getD_eq_getElem _ _ (Nat.mod_lt _ (by omega)),
      List.getD_eq_getElem _ _ (Nat.mod_lt _ (by omega))] at h
    exact hn.getElem_inj_iff.1 h
  have small : ∀ j k, j < k → k < j + l.length → cyc l j ≠ cyc l k := by
    intro j k h1 h2 he
    have h0 := inj j k he
    have hd : l.length ∣ k - j := (Nat.modEq_iff_dvd' h1.le).1 h0
    have := Nat.le_of_dvd (by omega) hd
    omega
  exact hP _ (mem _) _ (mem _) _ (mem _) (small _ _ (by omega) (by omega))
    (small _ _ (by omega) (by omega)) (small _ _ (by omega) (by omega))

variable {P : List (Point K)} {D : Ref → Prop} {B : List Ref}

/-- The loop over the border counts the edges of the border, up to the number asked for. -/
theorem BInv.loop_size {env : Env K} {he : List (Segment K)} {bs : Int}
    (fuel : Nat) {s s' : BorderState K} (hs : BInv P s D B) (h0 : (B.length : Int) ≤ s.size)
    (h : borderLoop env he bs fuel s = .ok s') :
    ∃ D' B', BInv P s' D' B' ∧ (B'.length : Int) ≤ max s.size bs := by
  induction fuel generalizing s D B with
  | zero => simp [borderLoop, exc_throw_ok] at h
  | succ n ih =>
    unfold borderLoop at h
    split at h
    · rename_i hlt
      split at h
      · simp only [exc_pure_ok] at h
        exact h ▸ ⟨D, B, hs, by omega⟩
      · rename_i e rest hp
        have hv := KeyedSet.vals_popmax hp
        have hcand := hs.cand
        have hnd := hs.nodup
        rw [hv] at hcand hnd
        rw [List.nodup_append] at hnd
        have hrest : ∀ c ∈ rest.vals, c ∈ B ∧ c ≠ e := fun c hc =>
          ⟨hcand c (by simp [hc]), hnd.2.2 c hc e (by simp)⟩
        dsimp only at h
        split at h
        · exact ih (s := { s with candidates := rest })
            ⟨hs.bord, hs.head, hs.pts, fun c hc => (hrest c hc).1, hnd.1, hs.nbs⟩ h0 h
        · rename_i hmouth
          rw [Bool.not_eq_false] at hmouth
          have hm := hs.step hp (isPolygonMouth_new hmouth)
          simp only [exc_bind_ok] at h
          obtain ⟨⟨m, t⟩, hd, h⟩ := h
          obtain ⟨hmm, -⟩ := triDelete_left hd
          subst hmm
          dsimp only at h
          split at h
          · simp only [exc_throw_ok] at h
          · rename_i ns hns
            rw [hs.nbs e hm.mem, Option.some.injEq] at hns
            subst hns
            simp only [List.foldlM_cons, List.foldlM_nil, exc_bind_ok, exc_pure_ok] at h
            obtain ⟨⟨nb, cs⟩, ⟨⟨nb1, cs1⟩, ⟨k1, -, hk1⟩, ⟨nb2, cs2⟩, ⟨k2, -, hk2⟩, hk3⟩, h⟩ := h
            simp only [Prod.mk.injEq] at hk1 hk2 hk3
            obtain ⟨rfl, rfl⟩ := hk1
            obtain ⟨rfl, rfl⟩ := hk2
            obtain ⟨rfl, rfl⟩ := hk3
            have hsz : (s.after e t rest k1 k2).size = s.size + 1 := rfl
            obtain ⟨D', B', e1, e2⟩ := ih (hs.after hp hm hd k1 k2) (by
              rw [mouthBorder_length hs.bord hm.mem]; push_cast; omega) h
            exact ⟨D', B', e1, e2.trans (by omega)⟩
    · simp only [exc_pure_ok] at h
      exact h ▸ ⟨D, B, hs, by omega⟩

/-- What a polygon looks like that is made from points no three of which are on a line: it has as many
vertices of the border as asked for, or as the hull has, and all the holes asked for. -/
theorem toPolygon_counts {env : Env K} (hcoin : Coins env.coinChange)
    (hset : ∀ l, (env.setOrder l).Perm l) {pts : List (Point K)} (hn : pts.Nodup)
    (hno : NoThree pts) (h2 : 3 ≤ pts.length) {bs : Int} {hss : List Int} (h3 : ∀ h ∈ hss, 3 ≤ h)
    (hsum : hss.sum ≤ pts.length - (toMaxConvexHull pts).length) {ch : Nat → Bool}
    {p : Polygon K} (h : toPolygon env pts bs hss ch = .ok p) :
    3 ≤ p.border.vertices.length ∧
    (p.border.vertices.length : Int) ≤ max ((toMaxConvexHull pts).length : Int) bs ∧
    List.Forall₂ (fun (c : Contour K) (a : Int) =>
        3 ≤ c.vertices.length ∧ (c.vertices.length : Int) ≤ a) p.holes hss := by
  obtain ⟨nc, -⟩ := toPolygon_run hn (hcoin.sums _ (by omega)) h
  simp only [toPolygon, exc_bind_ok] at h
  obtain ⟨⟨m, t⟩, hd, es, hes, hst, hh, cs, hcs, s, hs, bd, hbd, h⟩ := h
  split at h
  swap
  · simp only [exc_throw_ok] at h
  rename_i h3'
  simp only [exc_pure_ok] at h
  subst h
  simp only [triToBorderVertices, exc_bind_ok, exc_pure_ok] at hbd
  obtain ⟨es', hes', rfl⟩ := hbd
  obtain ⟨D, hT⟩ := delaunay_tgl hn (hcoin.sums _ (by omega)) hd
  obtain ⟨hB, hiff, hhead⟩ := hT.bord nc hes
  have hbm : ∀ q ∈ es.map m.start, q ∈ toMaxConvexHull pts := by
    intro q hq
    obtain ⟨f, hf, rfl⟩ := List.mem_map.1 hq
    exact hull_sub_max hn (by omega) hB (fun e he => (hiff e).1 he) f hf
  have hbpts : ∀ q ∈ es.map m.start, q ∈ pts := by
    intro q hq
    obtain ⟨f, hf, rfl⟩ := List.mem_map.1 hq
    exact hB.mem (hB.bd f hf)
  have hlen3 : 3 ≤ (es.map m.start).length :=
    hB.three_vertices.trans (compressContour_sublist _).length_le
  have hcomp : compressContour (es.map m.start) = es.map m.start :=
    compressContour_noThree hB.nodup hbpts hno hlen3
  have hbl : (es.map m.start).length ≤ (toMaxConvexHull pts).length :=
    (hB.nodup.subperm hbm).length_le
  refine ⟨h3', ?_, ?_⟩
  · have hbp : ∀ f ∈ es, m.org f ∈ hst.boundaryPoints := by
      intro f hf
      refine holeLoop_bp _ hh _ ?_
      dsimp only
      rw [List.mem_dedup]
      exact List.mem_map_of_mem hf
    have hv := vals_foldlM _ hcs (by
      rw [KeyedSet.vals, List.map_nil, List.append_nil]
      exact (List.Nodup.of_map _ hB.nodup).filter _)
    have hinv : BInv pts { mesh := m, tri := t, boundaryPoints := hst.boundaryPoints
                           neighbours := es.map (fun e => (e, m.edgeNeighbours e))
                           candidates := cs
                           size := (compressContour (es.map m.start)).length } D es := by
      refine ⟨hB, hhead, hbp, ?_, hv.1, ?_⟩
      · intro c hc
        have := hv.2 c hc
        rw [KeyedSet.vals, List.map_nil, List.append_nil] at this
        exact List.mem_of_mem_filter this
      · intro f hf
        dsimp only
        rw [lookup_map hf, hB.neighbours hf]
    obtain ⟨D', B', hI, hC⟩ := hinv.loop_size _ (by
      dsimp only; rw [hcomp, List.length_map]) hs
    have hw := hI.bord.walk hI.head hes'
    subst hw
    dsimp only at hC ⊢
    rw [hcomp] at hC
    have := (compressContour_sublist (es'.map s.mesh.start)).length_le
    rw [List.length_map] at this
    omega
  · have hp := hset (pts.filter (fun p => p ∉ (es.map m.start).dedup))
    have hmem : ∀ p ∈ env.setOrder (pts.filter (fun p => p ∉ (es.map m.start).dedup)), p ∈ pts :=
      fun p h => (List.mem_filter.1 (hp.mem_iff.1 h)).1
    have hlen : pts.length = (pts.filter fun p => p ∈ (es.map m.start).dedup).length +
        (pts.filter fun p => p ∉ (es.map m.start).dedup).length := by
      have := List.length_eq_length_filter_add (l := pts) (fun p => decide (p ∈ (es.map m.start).dedup))
      simpa only [decide_not] using this
    have hle : (pts.filter fun p => p ∈ (es.map m.start).dedup).length ≤
        (toMaxConvexHull pts).length := by
      refine ((hn.filter _).subperm fun p h => ?_).length_le
      have := (List.mem_filter.1 h).2
      rw [decide_eq_true_iff, List.mem_dedup] at this
      exact hbm p this
    obtain ⟨hs', e1, e2⟩ := holeLoop_count hcoin _ (hp.nodup_iff.2 (hn.filter _))
      (fun a ha b hb c hc => hno a (hmem a ha) b (hmem b hb) c (hmem c hc)) (by
        intro a ha
        exact h3 _ (List.of_mem_zip ha).1) (by
        dsimp only
        rw [List.map_fst_zip (by simp), hp.length_eq]
        omega) hh
    dsimp only at e1 ⊢
    rw [e1, List.nil_append]
    have e3 : List.Forall₂ (fun (c : Contour K) (a : Int) =>
        3 ≤ c.vertices.length ∧ (c.vertices.length : Int) ≤ a) hs'
        ((hss.zip ((List.range hss.length).map ch)).map Prod.fst) := by
      rw [List.forall₂_map_right_iff]; exact e2
    rwa [List.map_fst_zip (by simp)] at e3

end

end HG
