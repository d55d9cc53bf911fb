import Verif.Delaunay.HullIn
import Verif.Delaunay.Meets
import Verif.Props.Slabs

/-!
# The border of a polygon stays away from its holes
-/

set_option linter.unusedSectionVars false

namespace HG

open Spec

variable {K : Type} [CommRing K] [LinearOrder K] [IsStrictOrderedRing K]
variable {P : List (Point K)} {m : Mesh K} {D : Ref → Prop} {t : Tri} {B : List Ref} {e f : Ref}

/-- What the hole loop guarantees about its state; `pts` are all points, `out` those of the hull. -/
structure HoleFacts (pts out : List (Point K)) (s : HoleState K) : Prop where
  inner : ∀ p ∈ s.innerPoints, p ∈ pts ∧ p ∉ out
  edges : s.holeEdges = s.holes.flatMap fun c => contourEdges c.vertices
  start : ∀ t ∈ s.holeEdges, t.start ∈ pts ∧ t.start ∉ out ∧ t.start ∈ s.boundaryPoints
  stop : ∀ t ∈ s.holeEdges, t.stop ∈ pts ∧ t.stop ∉ out ∧ t.stop ∈ s.boundaryPoints
  free : ∀ p ∈ pts, p ∉ s.boundaryPoints → p ∈ s.innerPoints ∧ ∀ t ∈ s.holeEdges, ¬ OnSeg t p

theorem HoleFacts.loop {env : Env K} {pts out : List (Point K)} (l : List (Int × Bool))
    {s s' : HoleState K} {prior : Option Bool} (hs : HoleFacts pts out s) (hn : s.innerPoints.Nodup)
    (hp : ∀ k', prior = some k' → s.innerPoints.Pairwise (keyOrder k'))
    (h : holeLoop env s prior l = .ok s') : HoleFacts pts out s' := by
  induction l generalizing s prior with
  | nil =>
    simp only [holeLoop, exc_pure_ok] at h
    subst h; exact hs
  | cons a l ih =>
    obtain ⟨size, key⟩ := a
    simp only [holeLoop, exc_bind_ok] at h
    obtain ⟨vs, hvs, h⟩ := h
    obtain ⟨ho, hnd⟩ := keyOrder_sortedBy (k := key) hn hp
    have hmem : ∀ v, v ∈ (if prior ≠ some key then sortByKey key s.innerPoints else s.innerPoints) ↔
        v ∈ s.innerPoints := by
      intro v
      split
      · exact (sortByKey_perm key _).mem_iff
      · exact Iff.rfl
    generalize (if prior ≠ some key then sortByKey key s.innerPoints else s.innerPoints) = ps
      at ho hnd h hvs hmem
    have hv := toVertexSequence_mem hvs
    split at h
    · rename_i h3
      split at h
      · simp only [exc_throw_ok] at h
      · simp only [exc_bind_ok] at h
        obtain ⟨b, -, h⟩ := h
        have hvr : ∀ v ∈ reverseVertices vs, v ∈ ps.take size.toNat :=
          fun v hvm => hv v (mem_reverseVertices.1 hvm)
        have hpt : ∀ v ∈ ps.take size.toNat, v ∈ pts ∧ v ∉ out :=
          fun v hvm => hs.inner v ((hmem v).1 (List.mem_of_mem_take hvm))
        refine ih ⟨?_, ?_, ?_, ?_, ?_⟩ (by exact hnd.sublist (List.drop_sublist _ _)) ?_ h
        · exact fun p hp => hs.inner p ((hmem p).1 (List.mem_of_mem_drop hp))
        · rw [List.flatMap_append, hs.edges]; simp
        · intro t ht
          rcases List.mem_append.1 ht with ht | ht
          · obtain ⟨h1, h2, h4⟩ := hs.start t ht
            exact ⟨h1, h2, List.mem_append_left _ h4⟩
          · have := hvr _ (contourEdges_mem ht).1
            exact ⟨(hpt _ this).1, (hpt _ this).2, List.mem_append_right _ this⟩
        · intro t ht
          rcases List.mem_append.1 ht with ht | ht
          · obtain ⟨h1, h2, h4⟩ := hs.stop t ht
            exact ⟨h1, h2, List.mem_append_left _ h4⟩
          · have := hvr _ (contourEdges_mem ht).2
            exact ⟨(hpt _ this).1, (hpt _ this).2, List.mem_append_right _ this⟩
        · intro p hpp hpn
          rw [List.mem_append, not_or] at hpn
          obtain ⟨f1, f2⟩ := hs.free p hpp hpn.1
          have f1' := (hmem p).2 f1
          have hd : p ∈ ps.drop size.toNat := by
            rw [← List.take_append_drop size.toNat ps, List.mem_append] at f1'
            exact f1'.resolve_left hpn.2
          have hlen : (ps.take size.toNat).length ≤ size.toNat := List.length_take_le _ _
          have hb := b2i_cases b
          refine ⟨?_, fun t ht => ?_⟩
          · show p ∈ ps.drop (((ps.take size.toNat).length : Int) - b2i b).toNat
            refine (List.drop_sublist_drop_left ps ?_).subset hd
            omega
          · rcases List.mem_append.1 ht with ht | ht
            · exact f2 t ht
            · intro hon
              have m1 := hvr _ (contourEdges_mem ht).1
              have m2 := hvr _ (contourEdges_mem ht).2
              have hpw : ∀ v ∈ ps.take size.toNat, keyOrder key v p := by
                intro v hvm
                rw [← List.take_append_drop size.toNat ps, List.pairwise_append] at ho
                exact ho.2.2 v hvm p hd
              have := extreme_mem key (inHull_of_onSeg hon) (by
                intro v hvm
                simp only [List.mem_cons, List.not_mem_nil, or_false] at hvm
                rcases hvm with rfl | rfl
                · exact .inr (hpw _ m1)
                · exact .inr (hpw _ m2))
              simp only [List.mem_cons, List.not_mem_nil, or_false] at this
              rcases this with rfl | rfl
              · exact hpn.2 m1
              · exact hpn.2 m2
        · intro k' hk'
          cases hk'
          exact ho.sublist (List.drop_sublist _ _)
    · refine ih (s := { s with innerPoints := ps }) ⟨?_, hs.edges, hs.start, hs.stop, ?_⟩ hnd ?_ h
      · exact fun p hp => hs.inner p ((hmem p).1 hp)
      · exact fun p hpp hpn => ⟨(hmem p).2 (hs.free p hpp hpn).1, (hs.free p hpp hpn).2⟩
      · intro k' hk'
        cases hk'
        exact ho

theorem properCross_detected {s t : Segment K} (h : ProperCross s t) :
    segmentPairCrossOrOverlap t s = true := by
  obtain ⟨o2, o1⟩ := h
  obtain ⟨f1, f2, f3⟩ := orient_ne_of o1
  obtain ⟨g1, g2, g3⟩ := orient_ne_of o2
  have : segmentsProperCross t s = true := by
    unfold segmentsProperCross
    simp [f1, f2, f3, g1, g2, g3]
  unfold segmentPairCrossOrOverlap
  rw [this]; rfl

/-- A side accepted by the mouth test meets no hole edge. -/
theorem side_free {env : Env K} {he : List (Segment K)} (near : FindsNearest env.nearestSegment)
    {s : Segment K} (hs : crossOrOverlapHoles env he s = false) (h1 : ∀ t ∈ he, ¬ OnSeg t s.start)
    (h2 : ∀ t ∈ he, ¬ OnSeg t s.stop) (h3 : ∀ t ∈ he, ¬ OnSeg s t.start)
    (h4 : ∀ t ∈ he, ¬ OnSeg s t.stop) : ∀ t ∈ he, ¬ Meets s t := by
  intro t ht hm
  have hne := List.ne_nil_of_mem ht
  unfold crossOrOverlapHoles at hs
  rw [if_neg hne] at hs
  obtain ⟨n1, n2⟩ := near he s hne
  generalize env.nearestSegment he s = n at *
  rcases n2 ⟨t, ht, hm⟩ with h | h | h | h | h
  · rw [properCross_detected h] at hs; cases hs
  · exact h3 _ n1 h
  · exact h4 _ n1 h
  · exact h1 _ n1 h
  · exact h2 _ n1 h

/-- The border is away from the hole edges and winds once around them. -/
structure Around (he : List (Segment K)) (m : Mesh K) (B : List Ref) : Prop where
  apart : ∀ f ∈ B, ∀ t ∈ he, ¬ Meets (seg m f) t
  wind : ∀ t ∈ he, ∀ q, OnSeg t q → winding (B.map m.org) q = 1

theorem Bord.org_apex (h : Bord P m D B) (he : e ∈ B) :
    m.org (m.next (m.next e).opp).opp = m.org e.opp := by
  have T := h.triFace he
  have De := h.bd e he
  have t3 := T.three
  have : m.lf (m.lf e) = (m.next (m.next e).opp).opp := rfl
  rw [← this, ← h.org (h.lf_dart (h.lf_dart De)), ← Ref.opp_opp (m.next (m.lf (m.lf e)))]
  exact congrArg (fun r => m.org r.opp) t3

/-- Removing a mouth keeps the border around the holes. -/
theorem Around.step {env : Env K} {he : List (Segment K)} {bp bps : List (Point K)}
    (near : FindsNearest env.nearestSegment)
    (v1 : ∀ t ∈ he, t.start ∈ P ∧ t.start ∈ bp) (v2 : ∀ t ∈ he, t.stop ∈ P ∧ t.stop ∈ bp)
    (fr : ∀ p ∈ P, p ∉ bp → ∀ t ∈ he, ¬ OnSeg t p)
    (h : Bord P m D B) (hm : Mouth P m D B e) (hbps : ∀ p ∈ bp, p ∈ bps)
    (hmouth : isPolygonMouth env he m bps e = true) (ha : Around he m B) :
    Around he (m.delete e) (mouthBorder m B e) := by
  have De := h.bd e hm.mem
  have T := h.triFace hm.mem
  have hB' := h.delete hm
  unfold isPolygonMouth at hmouth
  simp only [Bool.and_eq_true, decide_eq_true_eq, Bool.not_eq_true'] at hmouth
  obtain ⟨⟨k1, k2⟩, k3⟩ := hmouth
  have k1' : m.org (m.next e).opp ∉ bps := k1
  have k2' : crossOrOverlapHoles env he ⟨m.org e, m.org (m.next e).opp⟩ = false := k2
  have k3' : crossOrOverlapHoles env he ⟨m.org e.opp, m.org (m.next e).opp⟩ = false := k3
  clear k1 k2 k3
  have Dn := h.next De
  have Dl := h.opp Dn
  have o1 : m.org (m.next e) = m.org e := h.org De
  have o2 : m.org (m.next (m.next e).opp) = m.org (m.next e).opp := h.org Dl
  have o3 := h.org_apex hm.mem
  have Da := h.next Dl
  -- the vertices of the triangle are on no hole edge
  have fa : ∀ t ∈ he, ¬ OnSeg t (m.org e) := fun t ht ho =>
    ha.apart e hm.mem t ht (.inr (.inr (.inr (.inl ho))))
  have fb : ∀ t ∈ he, ¬ OnSeg t (m.org e.opp) := fun t ht ho =>
    ha.apart e hm.mem t ht (.inr (.inr (.inr (.inr ho))))
  have fc : ∀ t ∈ he, ¬ OnSeg t (m.org (m.next e).opp) :=
    fr _ (h.mem Dl) (fun hh => k1' (hbps _ hh))
  -- hole vertices are on no edge
  have on : ∀ {x}, D x → (∀ t ∈ he, ¬ OnSeg t (m.org x)) → (∀ t ∈ he, ¬ OnSeg t (m.org x.opp)) →
      ∀ p ∈ P, (∃ t ∈ he, OnSeg t p) → ¬ OnSeg ⟨m.org x, m.org x.opp⟩ p := by
    intro x hx hx1 hx2 p hp ⟨t, ht, htp⟩ ho
    rcases onSeg_cases (h.ne hx) ho with e1 | e1 | e1
    · exact hx1 t ht (e1 ▸ htp)
    · exact hx2 t ht (e1 ▸ htp)
    · exact h.nomid hx hp e1
  have s1 : ∀ t ∈ he, ¬ Meets ⟨m.org e, m.org (m.next e).opp⟩ t := by
    have on1 := on Dn (by rw [o1]; exact fa) fc
    rw [o1] at on1
    exact side_free near k2' fa fc (fun t ht => on1 _ (v1 t ht).1 ⟨t, ht, onSeg_start t⟩)
      (fun t ht => on1 _ (v2 t ht).1 ⟨t, ht, onSeg_stop t⟩)
  have s2 : ∀ t ∈ he, ¬ Meets ⟨m.org e.opp, m.org (m.next e).opp⟩ t := by
    have on1 := on (h.opp Da) (by rw [o3]; exact fb) (by rw [Ref.opp_opp, o2]; exact fc)
    rw [Ref.opp_opp, o2, o3] at on1
    exact side_free near k3' fb fc (fun t ht => on1 _ (v1 t ht).1 ⟨t, ht, onSeg_start t⟩)
      (fun t ht => on1 _ (v2 t ht).1 ⟨t, ht, onSeg_stop t⟩)
  refine ⟨fun f hf t ht => ?_, fun t ht q hq => ?_⟩
  · have hsg : seg (m.delete e) f = seg m f := by unfold seg; rw [delete_org]
    rw [hsg]
    rcases (mem_mouthBorder hm.mem).1 hf with ⟨hf, -⟩ | rfl | rfl
    · exact ha.apart f hf t ht
    · unfold seg; rw [o1]; exact s1 t ht
    · unfold seg; rw [o2, o3]; exact fun hh => s2 t ht (Meets.swap hh)
  · rw [h.winding_delete hm.mem hB', ha.wind t ht q hq]
    rintro ⟨q1, q2, q3⟩
    have out : ¬ (0 ≤ cross (m.org e) (m.org e.opp) t.start ∧
        0 ≤ cross (m.org e.opp) (m.org (m.next e).opp) t.start ∧
        0 ≤ cross (m.org (m.next e).opp) (m.org e) t.start) := by
      rintro ⟨p1, p2, p3⟩
      rcases T.empty _ (v1 t ht).1 p1 p2 p3 with h1 | h1 | h1
      · exact fa t ht (h1 ▸ onSeg_start t)
      · exact fb t ht (h1 ▸ onSeg_start t)
      · exact fc t ht (h1 ▸ onSeg_start t)
    rcases tri_meets T.pos (h := t.start) (h' := t.stop) hq q1 q2 q3 out with h1 | h1 | h1
    · exact ha.apart e hm.mem t ht h1
    · exact s2 t ht h1
    · exact s1 t ht (Meets.swap h1)

theorem onSeg_pos {a b : Point K} {t : Segment K} {q : Point K} (ho : OnSeg t q)
    (h1 : 0 < cross a b t.start) (h2 : 0 < cross a b t.stop) : 0 < cross a b q := by
  obtain ⟨u, v⟩ := t
  obtain ⟨s, t, hs, ht, hst, e1, e2⟩ := onSeg_combination ho
  have e := area2_combination (a := a) (b := b) e1 e2
  rw [← cross_area2, ← cross_area2, ← cross_area2] at e
  dsimp only at h1 h2
  have l1 := mul_nonneg hs h1.le
  have l2 := mul_nonneg ht h2.le
  by_contra hc
  have l3 := mul_nonpos_of_nonneg_of_nonpos hst.le (not_lt.1 hc)
  have z1 := (mul_eq_zero.1 (show s * cross a b u = 0 by linarith)).resolve_right h1.ne'
  have z2 := (mul_eq_zero.1 (show t * cross a b v = 0 by linarith)).resolve_right h2.ne'
  rw [z1, z2] at hst; simp at hst

theorem leB_x {p q : Point K} (h : Point.leB p q = true) : p.x ≤ q.x := by
  unfold Point.leB at h
  rcases of_decide_eq_true h with h | h
  · exact h.le
  · exact h.1.le

/-- The hull is around segments strictly inside. -/
theorem Around.hull (h : Tgl m D P t) (nc : ¬ AllCol P) (hB : Bord P m D B)
    (hiff : ∀ e, e ∈ B ↔ HullDart P m D e) {he : List (Segment K)}
    (v1 : ∀ t ∈ he, t.start ∈ P ∧ t.start ∉ B.map m.org)
    (v2 : ∀ t ∈ he, t.stop ∈ P ∧ t.stop ∉ B.map m.org) : Around he m B := by
  have p1 : ∀ s ∈ he, ∀ f ∈ B, 0 < cross (m.org f) (m.org f.opp) s.start :=
    fun s hs f hf => hull_strict h nc hB hiff (v1 s hs).1 (v1 s hs).2 hf
  have p2 : ∀ s ∈ he, ∀ f ∈ B, 0 < cross (m.org f) (m.org f.opp) s.stop :=
    fun s hs f hf => hull_strict h nc hB hiff (v2 s hs).1 (v2 s hs).2 hf
  have pos : ∀ s ∈ he, ∀ q, OnSeg s q → ∀ f ∈ B, 0 < cross (m.org f) (m.org f.opp) q :=
    fun s hs q hq f hf => onSeg_pos hq (p1 s hs f hf) (p2 s hs f hf)
  refine ⟨fun f hf s hs hm => ?_, fun s hs q hq => ?_⟩
  · have a1 := p1 s hs f hf
    have a2 := p2 s hs f hf
    rcases hm with hm | hm | hm | hm | hm
    · have := hm.1
      unfold seg at this
      dsimp only at this
      rw [← cross_area2, ← cross_area2] at this
      have := mul_pos a1 a2
      linarith
    · have := (onSeg_iff.1 hm).1
      linarith
    · have := (onSeg_iff.1 hm).1
      linarith
    · have := pos s hs _ hm f hf
      unfold seg at this; simp at this
    · have := pos s hs _ hm f hf
      unfold seg at this; simp at this
  · refine hull_winding h hB hiff (pos s hs q hq) ?_ ?_
    · have l1 := leB_x (h.lmin _ (v1 s hs).1)
      have l2 := leB_x (h.lmin _ (v2 s hs).1)
      exact (le_min l1 l2).trans hq.2.1
    · have l1 := leB_x (h.rmax _ (v1 s hs).1)
      have l2 := leB_x (h.rmax _ (v2 s hs).1)
      exact hq.2.2.1.trans (max_le l1 l2)

/-- The border of a generated polygon goes once around every point of the edges of its holes and
does not meet them. -/
theorem PolyRun.around {env : Env K} (near : FindsNearest env.nearestSegment)
    (hset : ∀ l, (env.setOrder l).Perm l) {pts : List (Point K)} (hn : pts.Nodup) {hss : List Int}
    {ch : Nat → Bool} {p : Polygon K} (h : PolyRun env pts hss ch p) :
    ∀ c ∈ p.holes, ∀ s ∈ contourEdges c.vertices, (∀ i, ¬ Meets (edge p.border.vertices i) s) ∧
      ∀ q, OnSeg s q → winding p.border.vertices q = 1 := by
  obtain ⟨nc, m, t, es, hst, D, m', D', B', hT, hB, hiff, hh, eh, hC, hB', eb, -⟩ := h
  have facts : HoleFacts pts (es.map m.org).dedup hst := by
    refine HoleFacts.loop _ ⟨?_, by simp, by simp, by simp, ?_⟩ ?_ (by simp) hh
    · intro p hp
      have := (hset _).mem_iff.1 hp
      simpa using this
    · intro p hp hpn
      refine ⟨?_, by simp⟩
      exact (hset _).mem_iff.2 (by simpa using ⟨hp, by simpa using hpn⟩)
    · exact (hset _).nodup_iff.2 (hn.filter _)
  have key : Around hst.holeEdges m' B' := by
    clear eb hB'
    induction hC with
    | refl =>
      refine Around.hull hT nc hB hiff (fun s hs => ?_) (fun s hs => ?_)
      · have := facts.start s hs
        rw [List.mem_dedup] at this
        exact ⟨this.1, this.2.1⟩
      · have := facts.stop s hs
        rw [List.mem_dedup] at this
        exact ⟨this.1, this.2.1⟩
    | step hc hb hm _ h5 h6 ih =>
      exact ih.step near (fun s hs => ⟨(facts.start s hs).1, (facts.start s hs).2.2⟩)
        (fun s hs => ⟨(facts.stop s hs).1, (facts.stop s hs).2.2⟩)
        (fun p hp hpn => (facts.free p hp hpn).2) hb hm h5 h6
  intro c hc s hs
  have hs' : s ∈ hst.holeEdges := by
    rw [facts.edges, ← eh]
    exact List.mem_flatMap.2 ⟨c, hc, hs⟩
  rw [eb]
  refine ⟨hB'.sc.compress_meets fun i => ?_, fun q hq => ?_⟩
  · rw [← edge_mod]
    have hi := hB'.sc.idx i
    rw [List.length_map] at hi ⊢
    rw [hB'.edge_eq hi]
    exact key.apart _ (List.getElem_mem _) s hs'
  · rw [winding_compress]
    exact key.wind s hs' q hq

end HG
