import Verif.Delaunay.TotalSeq
import Verif.Delaunay.PolyBorder
import Verif.Delaunay.Area
import Verif.Lemmas.Support

/-!
# The polygon construction always succeeds
-/

set_option linter.unusedSectionVars false

namespace HG

open Spec

/-- Expected of `coin_change(n, {2, 3})`: numbers two and three with the sum `n`. -/
def Spec.Coins (change : Nat → List Nat) : Prop :=
  ∀ n, 2 ≤ n → (change n).sum = n ∧ ∀ k ∈ change n, k = 2 ∨ k = 3

section
variable {K : Type} [CommRing K] [LinearOrder K] [IsStrictOrderedRing K]
variable {P : List (Point K)} {m : Mesh K} {D : Ref → Prop} {t : Tri} {B : List Ref} {e : Ref}

/-! ## The border loop -/

theorem KeyedSet.length_add {s : KeyedSet K} {k : EdgeKey K} : (s.add k e).length ≤ s.length + 1 := by
  rcases KeyedSet.vals_add (s := s) (k := k) (e := e) with h | h
  · have := congrArg List.length h
    simp only [KeyedSet.vals, List.length_map] at this
    omega
  · have := h.length_eq
    simp only [KeyedSet.vals, List.length_map, List.length_cons] at this
    omega

/-- The border loop terminates without an exception. -/
theorem BInv.loop_total {env : Env K} {he : List (Segment K)} {bs : Int}
    (hf : P.length * P.length ≤ env.fuel) (fuel : Nat) {s : BorderState K} (hs : BInv P s D B)
    (hfu : 3 * missing P s.boundaryPoints + s.candidates.length < fuel) :
    ∃ s', borderLoop env he bs fuel s = .ok s' := by
  induction fuel generalizing s D B with
  | zero => omega
  | succ n ih =>
    unfold borderLoop
    split
    swap
    · exact ⟨_, rfl⟩
    by_cases hne : s.candidates = []
    · have : s.candidates.popmax = none := by rw [hne]; rfl
      rw [this]
      exact ⟨_, rfl⟩
    obtain ⟨e, rest, hp, hr⟩ := KeyedSet.popmax_some hne
    rw [hp]
    have hv := KeyedSet.vals_popmax hp
    have hcand := hs.cand
    have hnd := hs.nodup
    rw [hv] at hcand hnd
    rw [List.nodup_append] at hnd
    dsimp only
    split
    · exact ih (s := { s with candidates := rest })
        ⟨hs.bord, hs.head, hs.pts, fun c hc => hcand c (by simp [hc]), hnd.1, hs.nbs⟩ (by
          dsimp only; omega)
    · rename_i hmouth
      rw [Bool.not_eq_false] at hmouth
      have hnew := isPolygonMouth_new hmouth
      have hm := hs.step hp hnew
      have hB := hs.bord
      have De := hB.bd e hm.mem
      obtain ⟨t', hd⟩ := hB.delete_total hm.mem s.tri
      rw [hd, hs.nbs e hm.mem]
      have hB' := hB.delete hm
      have mem1 : s.mesh.next e ∈ mouthBorder s.mesh B e := (mem_mouthBorder hm.mem).2 (by tauto)
      have mem2 : s.mesh.next (s.mesh.next e).opp ∈ mouthBorder s.mesh B e :=
        (mem_mouthBorder hm.mem).2 (by tauto)
      obtain ⟨k1, hk1⟩ := hB'.net.key (hB'.bd _ mem1) hf
      obtain ⟨k2, hk2⟩ := hB'.net.key (hB'.bd _ mem2) hf
      simp only [List.foldlM_cons, List.foldlM_nil, bind, Except.bind, hk1, hk2]
      refine ih (hs.after hp hm hd k1 k2) ?_
      have m1 := missing_insert (hB.mem (hB.opp (hB.next De))) hnew
      have l1 := KeyedSet.length_add (s := rest) (k := k1) (e := s.mesh.next e)
      have l2 := KeyedSet.length_add (s := KeyedSet.add k1 (s.mesh.next e) rest) (k := k2)
        (e := s.mesh.next (s.mesh.next e).opp)
      show 3 * missing P (insertSet (s.mesh.stop (s.mesh.lfs e)) s.boundaryPoints) +
        (KeyedSet.add k2 (s.mesh.next (s.mesh.next e).opp)
          (KeyedSet.add k1 (s.mesh.next e) rest)).length < n
      have m2 : missing P (insertSet (s.mesh.stop (s.mesh.lfs e)) s.boundaryPoints)
          < missing P s.boundaryPoints := m1
      omega

/-- The candidates of the border loop. -/
theorem Net.candidates_total (h : Net P m D) {fuel : Nat} (hf : P.length * P.length ≤ fuel)
    (l : List Ref) (hl : ∀ c ∈ l, D c) (s : KeyedSet K) :
    ∃ s', l.foldlM (fun c e => do
      let k ← edgeKey fuel m e
      pure (KeyedSet.add k e c)) s = (Except.ok s' : Except Exc (KeyedSet K)) ∧
      s'.length ≤ s.length + l.length := by
  induction l generalizing s with
  | nil => exact ⟨s, rfl, by simp⟩
  | cons a l ih =>
    obtain ⟨k, hk⟩ := h.key (hl a (by simp)) hf
    obtain ⟨s', h1, h2⟩ := ih (fun c hc => hl c (by simp [hc])) (KeyedSet.add k a s)
    refine ⟨s', ?_, ?_⟩
    · rw [List.foldlM_cons, hk]; exact h1
    · have := KeyedSet.length_add (s := s) (k := k) (e := a)
      simp only [List.length_cons]
      omega

/-! ## The holes -/

theorem reverseVertices_length (vs : List (Point K)) : (reverseVertices vs).length = vs.length := by
  unfold reverseVertices
  rw [List.length_append, List.length_take, List.length_reverse, List.length_drop]
  omega

/-- Every hole gets all its points, hence exists. -/
theorem holeLoop_total {env : Env K} (hcoin : Coins env.coinChange)
    (hcheck : ∀ l, env.segmentsCrossOrOverlap l = false) {N : Nat} (hf : (N + 2) * (N + 2) ≤ env.fuel)
    (l : List (Int × Bool)) {s : HoleState K} {prior : Option Bool} (hn : s.innerPoints.Nodup)
    (hno : NoThree s.innerPoints) (hN : s.innerPoints.length ≤ N) (h3 : ∀ a ∈ l, 3 ≤ a.1)
    (hs : (l.map Prod.fst).sum ≤ s.innerPoints.length) :
    ∃ s', holeLoop env s prior l = .ok s' := by
  induction l generalizing s prior with
  | nil => exact ⟨s, rfl⟩
  | cons a l ih =>
    obtain ⟨size, key⟩ := a
    have hsize : 3 ≤ size := h3 (size, key) (by simp)
    have h3' : ∀ a ∈ l, 3 ≤ a.1 := fun a ha => h3 a (by simp [ha])
    have hrest : 0 ≤ (l.map Prod.fst).sum := List.sum_nonneg (by
      intro a ha
      obtain ⟨b, hb, rfl⟩ := List.mem_map.1 ha
      have := h3' b hb
      omega)
    simp only [List.map_cons, List.sum_cons] at hs
    rw [holeLoop]
    dsimp only
    generalize hq : (if prior ≠ some key then sortByKey key s.innerPoints else s.innerPoints) = q
    have hperm : q.Perm s.innerPoints := by
      rw [← hq]
      split
      · exact sortByKey_perm key _
      · exact List.Perm.refl _
    have hqn : q.Nodup := hperm.nodup_iff.2 hn
    have hql := hperm.length_eq
    have hqo : NoThree q := fun a ha b hb c hc =>
      hno a (hperm.mem_iff.1 ha) b (hperm.mem_iff.1 hb) c (hperm.mem_iff.1 hc)
    have hlt : (q.take size.toNat).length = size.toNat := by
      rw [List.length_take]; omega
    have hm : ∀ p ∈ q.take size.toNat, p ∈ q := fun p hp => List.mem_of_mem_take hp
    obtain ⟨c1, c2⟩ := hcoin (q.take size.toNat).length (by omega)
    obtain ⟨vs, hvs⟩ := toVertexSequence_total (fuel := env.fuel) (coins := env.coinChange) size
      (hqn.sublist (List.take_sublist size.toNat q)) (by
        intro h0; rw [h0] at hlt; simp at hlt; omega) c1 c2
      (fun a ha b hb c hc => hqo a (hm a ha) b (hm b hb) c (hm c hc)) (by
        rw [hlt]
        have : size.toNat ≤ N := by omega
        exact (Nat.mul_le_mul (by omega) (by omega)).trans hf)
    rw [hvs]
    show ∃ s', (if 3 ≤ vs.length then _ else _) = _
    split
    · rename_i hv
      rw [if_neg (by rw [hcheck]; simp)]
      cases ht : touchPredicate key (contourEdges (reverseVertices vs)) with
      | error e => exact absurd ht (touchPredicate_no_error (by rw [reverseVertices_length]; exact hv) e)
      | ok b =>
        refine ih (s := { innerPoints := _, boundaryPoints := _, holes := _, holeEdges := _ })
          (hqn.sublist (List.drop_sublist _ _)) (fun a ha b hb c hc =>
            hqo a (List.mem_of_mem_drop ha) b (List.mem_of_mem_drop hb) c (List.mem_of_mem_drop hc))
          ?_ h3' ?_
        · dsimp only; rw [List.length_drop]; omega
        · have := b2i_cases b
          dsimp only
          rw [List.length_drop, hlt]
          omega
    · exact ih (s := { s with innerPoints := q }) hqn hqo (by dsimp only; omega) h3' (by
        dsimp only; omega)

/-! ## The hull -/

/-- The points of the convex hull of a triangulation belong to the maximal hull. -/
theorem hull_sub_max {pts : List (Point K)} (hn : pts.Nodup) (h2 : 2 ≤ pts.length)
    (hB : Bord pts m D B) (hh : ∀ e ∈ B, HullDart pts m D e) : ∀ f ∈ B, m.org f ∈ toMaxConvexHull pts := by
  intro f hf
  obtain ⟨Df, hside⟩ := hh f hf
  have hne := hB.ne Df
  obtain ⟨b, hb⟩ : ∃ b, m.org f = b := ⟨_, rfl⟩
  obtain ⟨c, hc⟩ : ∃ c, m.org f.opp = c := ⟨_, rfl⟩
  rw [hb, hc] at hne hside
  rw [hb]
  have hlin : ∀ q : Point K, lin (c.y - b.y) (b.x - c.x) b - lin (c.y - b.y) (b.x - c.x) q
      = cross b c q := by
    intro q; unfold lin cross; ring
  refine support_mem_max hn h2 (A := c.y - b.y) (B := b.x - c.x) ?_ (hb ▸ hB.mem Df) ?_
  · have n1 := mul_self_nonneg (c.y - b.y)
    have n2 := mul_self_nonneg (b.x - c.x)
    rcases eq_or_ne (c.y - b.y) 0 with h1 | h1
    · rcases eq_or_ne (b.x - c.x) 0 with h3 | h3
      · exfalso; apply hne
        cases b; cases c
        simp only [sub_eq_zero] at h1 h3
        simp [h1, h3]
      · have := mul_self_pos.2 h3; linarith
    · have := mul_self_pos.2 h1; linarith
  · intro q hq
    have := hlin q
    have := hside q hq
    linarith

/-- The polygon construction succeeds on points that are not all on one line, if the construction of
the holes does. -/
theorem toPolygon_total_of {env : Env K} (hcoin : Coins env.coinChange) {pts : List (Point K)}
    (hn : pts.Nodup) (nc : ¬ AllCol pts) (hf : (pts.length + 2) * (pts.length + 2) ≤ env.fuel)
    (bs : Int) (hss : List Int) (ch : Nat → Bool)
    (hholes : ∀ bp : List (Point K), bp.Nodup → (∀ p ∈ bp, p ∈ pts) →
      (∀ p ∈ bp, p ∈ toMaxConvexHull pts) →
      ∃ s', holeLoop env
        { innerPoints := env.setOrder (pts.filter (fun p => p ∉ bp))
          boundaryPoints := bp, holes := [], holeEdges := [] } none
        (hss.zip ((List.range hss.length).map ch)) = .ok s') :
    ∃ p, toPolygon env pts bs hss ch = .ok p := by
  have h2 : 2 ≤ pts.length := by
    rcases pts with _ | ⟨a, _ | ⟨b, l⟩⟩
    · exact absurd (fun x hx => by simp at hx) nc
    · refine absurd ?_ nc
      intro x hx y hy z hz
      simp only [List.mem_singleton] at hx hy hz
      rw [hx, hy, hz]; simp
    · simp
  have hf' : pts.length * pts.length ≤ env.fuel := by nlinarith
  obtain ⟨c1, c2⟩ := hcoin pts.length h2
  obtain ⟨⟨m, t⟩, hd⟩ := delaunay_total hn (by rintro rfl; simp at h2) c1 c2 (fuel := env.fuel)
    (by nlinarith)
  obtain ⟨D, hT⟩ := delaunay_tgl hn c1 hd
  obtain ⟨es, hes⟩ := hT.net.boundary hT.dl hf'
  obtain ⟨hB, hiff, hhead⟩ := hT.bord nc hes
  have nd : es.Nodup := List.Nodup.of_map _ hB.nodup
  obtain ⟨hst, hh⟩ := hholes (es.map m.start).dedup (List.nodup_dedup _)
    (fun p hp => by
      rw [List.mem_dedup] at hp
      obtain ⟨f, hf, rfl⟩ := List.mem_map.1 hp
      exact hB.mem (hB.bd f hf))
    (fun p hp => by
      rw [List.mem_dedup] at hp
      obtain ⟨f, hf, rfl⟩ := List.mem_map.1 hp
      exact hull_sub_max hn h2 hB (fun e he => (hiff e).1 he) f hf)
  have hbp : ∀ f ∈ es, m.org f ∈ hst.boundaryPoints := by
    intro f hf
    refine holeLoop_bp _ hh _ ?_
    dsimp only
    rw [List.mem_dedup]
    exact List.mem_map_of_mem hf
  obtain ⟨cs, hcs, hcl⟩ := hB.net.candidates_total hf'
    (es.filter (isPolygonMouth env hst.holeEdges m hst.boundaryPoints))
    (fun c hc => hB.bd c (List.mem_of_mem_filter hc)) []
  have hv := vals_foldlM _ hcs (by
    rw [KeyedSet.vals, List.map_nil, List.append_nil]
    exact nd.filter _)
  have hinv : BInv pts { mesh := m, tri := t, boundaryPoints := hst.boundaryPoints
                         neighbours := es.map (fun e => (e, m.edgeNeighbours e))
                         candidates := cs
                         size := (compressContour (es.map m.start)).length } D es := by
    refine ⟨hB, hhead, hbp, ?_, hv.1, ?_⟩
    · intro c hc
      have := hv.2 c hc
      rw [KeyedSet.vals, List.map_nil, List.append_nil] at this
      exact List.mem_of_mem_filter this
    · intro f hf
      dsimp only
      rw [lookup_map hf, hB.neighbours hf]
  obtain ⟨s, hs⟩ := hinv.loop_total (env := env) (he := hst.holeEdges) (bs := bs) hf' env.fuel (by
    have l1 := missing_le pts hst.boundaryPoints
    have l2 := hB.length_le
    have l3 := List.length_filter_le (isPolygonMouth env hst.holeEdges m hst.boundaryPoints) es
    simp only [List.length_nil, zero_add] at hcl
    dsimp only
    nlinarith)
  obtain ⟨D', B', hI, -⟩ := hinv.loop (bp := hst.boundaryPoints) (Φ := fun _ _ _ => True)
    (fun _ _ _ _ _ _ _ _ _ _ _ => trivial) _ (fun p hp => hp) trivial hs
  have hB' := hI.bord
  have dl : D' s.tri.leftSide := hB'.bd _ (List.mem_of_mem_head? hI.head)
  obtain ⟨es', hes'⟩ := hB'.net.boundary dl hf'
  have hw := hB'.walk hI.head hes'
  subst hw
  have hbv : triToBorderVertices env.fuel s.mesh s.tri = .ok (compressContour (es'.map s.mesh.org)) := by
    unfold triToBorderVertices
    rw [hes']; rfl
  have h3 := hB'.three_vertices
  refine ⟨⟨⟨compressContour (es'.map s.mesh.org)⟩, hst.holes⟩, ?_⟩
  simp only [toPolygon, exc_bind_ok]
  exact ⟨(m, t), hd, es, hes, hst, hh, cs, hcs, s, hs, _, hbv, by rw [if_pos h3]; rfl⟩

/-- The polygon construction without holes succeeds on points that are not all on one line. -/
theorem toPolygon_total_nil {env : Env K} (hcoin : Coins env.coinChange) {pts : List (Point K)}
    (hn : pts.Nodup) (nc : ¬ AllCol pts) (hf : (pts.length + 2) * (pts.length + 2) ≤ env.fuel)
    (bs : Int) (ch : Nat → Bool) : ∃ p, toPolygon env pts bs [] ch = .ok p :=
  toPolygon_total_of hcoin hn nc hf bs [] ch fun _ _ _ _ => ⟨_, rfl⟩

/-- The polygon construction succeeds on points that are not all on one line and no three of which
are on a line, if the check of crossings is silent. -/
theorem toPolygon_total {env : Env K} (hcoin : Coins env.coinChange)
    (hset : ∀ l, (env.setOrder l).Perm l) (hcheck : ∀ l, env.segmentsCrossOrOverlap l = false)
    {pts : List (Point K)} (hn : pts.Nodup) (nc : ¬ AllCol pts) (hN : NoThree pts)
    (hf : (pts.length + 2) * (pts.length + 2) ≤ env.fuel)
    (bs : Int) (hss : List Int) (ch : Nat → Bool) (h3 : ∀ h ∈ hss, 3 ≤ h)
    (hsum : hss.sum ≤ pts.length - (toMaxConvexHull pts).length) :
    ∃ p, toPolygon env pts bs hss ch = .ok p := by
  refine toPolygon_total_of hcoin hn nc hf bs hss ch fun bp hbn hbp hbm => ?_
  have hp := hset (pts.filter (fun p => p ∉ bp))
  have hmem : ∀ p ∈ env.setOrder (pts.filter (fun p => p ∉ bp)), p ∈ pts :=
    fun p h => (List.mem_filter.1 (hp.mem_iff.1 h)).1
  have hlen : pts.length = (pts.filter fun p => p ∈ bp).length + (pts.filter fun p => p ∉ bp).length := by
    have := List.length_eq_length_filter_add (l := pts) (fun p => decide (p ∈ bp))
    simpa only [decide_not] using this
  have hle : (pts.filter fun p => p ∈ bp).length ≤ (toMaxConvexHull pts).length := by
    refine ((hn.filter _).subperm fun p h => ?_).length_le
    have := (List.mem_filter.1 h).2
    rw [decide_eq_true_iff] at this
    exact hbm p this
  refine holeLoop_total hcoin hcheck (N := pts.length) hf _ (hp.nodup_iff.2 (hn.filter _))
    (fun a ha b hb c hc => hN a (hmem a ha) b (hmem b hb) c (hmem c hc)) ?_ ?_ ?_
  · dsimp only
    rw [hp.length_eq]; exact List.length_filter_le _ _
  · intro a ha
    exact h3 _ (List.of_mem_zip ha).1
  · dsimp only
    rw [List.map_fst_zip (by simp), hp.length_eq]
    omega

end
end HG
