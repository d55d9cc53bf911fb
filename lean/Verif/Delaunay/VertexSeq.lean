import Verif.Delaunay.MouthLoop
import Verif.Delaunay.Area

/-!
# Vertex sequences of points no three of which are on a line
-/

set_option linter.unusedSectionVars false

namespace HG

open Spec

variable {K : Type} [CommRing K] [LinearOrder K] [IsStrictOrderedRing K] {o : EdgeOrder}
variable {P : List (Point K)} {m : Mesh K} {D : Ref → Prop} {t : Tri} {B : List Ref} {e : Ref}

/-- No three different points of a list are on one line. -/
def Spec.NoThree (l : List (Point K)) : Prop :=
  ∀ a ∈ l, ∀ b ∈ l, ∀ c ∈ l, a ≠ b → a ≠ c → b ≠ c → ¬ Collinear a b c

theorem Bord.turn (h : Bord P m D B) (hg : NoThree P) {g : Ref} (hgB : g ∈ B) (he : e ∈ B)
    (hn : m.next g.opp = e) : cross (m.org g) (m.org e) (m.org e.opp) ≠ 0 := by
  have Dg := h.bd g hgB
  have De := h.bd e he
  have o1 : m.org e = m.org g.opp := by rw [← hn, h.org (h.opp Dg)]
  intro h0
  refine hg _ (h.mem Dg) _ (h.mem De) _ (h.mem (h.opp De)) ?_ ?_ (h.ne De) ?_
  · rw [o1]; exact h.ne Dg
  · intro hh
    have : g.opp = e := h.simple (h.opp Dg) De o1.symm (by rw [Ref.opp_opp, hh])
    exact h.one g hgB (this ▸ he)
  · unfold Collinear; rw [← cross_area2]; exact h0

theorem Bord.ear_le (h : Bord P m D B) (hg : NoThree P) (he : e ∈ B) : earToIncrement m e ≤ -1 := by
  have De := h.bd e he
  have n1 := h.rfe he
  have n2 := h.rfe n1
  have t1 := h.turn hg n1 n2 rfl
  obtain ⟨g, hgB, hge⟩ := h.pred he
  have t2 := h.turn hg hgB he hge
  have e1 : isCol m (m.rfe e) (m.stop (m.rfe (m.rfe e))) = false := by
    unfold isCol
    rw [decide_eq_false_iff_not]
    unfold Mesh.orientationOf Mesh.start Mesh.stop Mesh.rfe
    rw [orient_col_iff]
    intro h0; apply t1
    rw [h.org (h.opp (h.bd _ n1))]; exact h0
  have e2 : isCol m e (m.stop (m.rfs e)) = false := by
    have : m.rfs e = g.opp := ((eq_rfs_iff h.wf (h.edge De) (h.edge (h.opp (h.bd g hgB)))).2 hge).symm
    unfold isCol
    rw [decide_eq_false_iff_not]
    unfold Mesh.orientationOf Mesh.start Mesh.stop
    rw [this, Ref.opp_opp, orient_col_iff]
    intro h0; apply t2
    rw [← h0]; unfold cross; ring
  have pos : ∀ b : Bool, 0 ≤ b2i b := fun b => by cases b <;> decide
  unfold earToIncrement
  rw [e1, e2]
  have p1 := pos (isCol m (m.rfs e) (m.stop (m.rfe e)))
  have p2 := pos (isCol m (m.rfe (m.rfe e)) (m.start e))
  have p3 : b2i false = 0 := rfl
  rw [p3]; omega

theorem ears_low {fuel : Nat} (l : List Ref) {b b' : Buckets K} (hl : ∀ c ∈ l, earToIncrement m c ≤ -1)
    (hb : ∀ j, 3 ≤ j → b.getD j [] = [])
    (h : l.foldlM (fun b e => Buckets.add fuel m b (earToIncrement m e + 3) e) b = .ok b') :
    ∀ j, 3 ≤ j → b'.getD j [] = [] := by
  induction l generalizing b with
  | nil =>
    simp only [List.foldlM_nil, exc_pure_ok] at h
    exact h ▸ hb
  | cons a l ih =>
    simp only [List.foldlM_cons, exc_bind_ok] at h
    obtain ⟨b1, h1, h⟩ := h
    refine ih (fun c hc => hl c (by simp [hc])) ?_ h
    unfold Buckets.add at h1
    split at h1
    · simp [exc_throw_ok, exc_bind_ok] at h1
    simp only [exc_bind_ok, exc_pure_ok] at h1
    obtain ⟨k, -, rfl⟩ := h1
    intro j hj
    have := hl a (by simp)
    have hb' := hb j hj
    have hij : (earToIncrement m a + 3).toNat ≠ j := by omega
    rw [List.getD_eq_getElem?_getD] at hb' ⊢
    rw [List.getElem?_modify]
    simp only [if_neg hij]
    simpa using hb'

/-- Without collinear points the second loop does nothing. -/
theorem Bord.no_ears (h : Bord P m D B) (hg : NoThree P) {fuel inner : Nat} {b : Buckets K}
    (hb : toEarsIncrements inner m (o.order B) = .ok b) {s' : EarState K} {left : Int}
    (hl : earLoop o inner fuel { mesh := m, tri := t, candidates := B, buckets := b, left := left } = .ok s') :
    s'.mesh = m ∧ s'.tri = t := by
  rcases fuel with _ | fuel
  · simp [earLoop, exc_throw_ok] at hl
  unfold toEarsIncrements at hb
  have low := ears_low _ (fun c hc => h.ear_le hg (o.mem.1 hc)) (by
    intro j hj
    rw [List.getD_eq_getElem?_getD, List.getElem?_replicate]
    split <;> rfl) hb
  have ht : targetIncrement b 3 left = none := by
    unfold targetIncrement
    rw [List.getLast?_eq_none_iff, List.filter_eq_nil_iff]
    intro i _
    rw [low (i + 3) (by omega)]
    simp
  unfold earLoop at hl
  split at hl
  · dsimp only at hl
    rw [ht] at hl
    simp only [exc_pure_ok] at hl
    subst hl; exact ⟨rfl, rfl⟩
  · simp only [exc_pure_ok] at hl
    subst hl; exact ⟨rfl, rfl⟩

/-- A region has a border with three vertices. -/
theorem Bord.three_vertices (h : Bord P m D B) : 3 ≤ (compressContour (B.map m.org)).length := by
  by_contra hlt
  have hpos := h.area_pos
  rw [← shoelace_compress] at hpos
  generalize compressContour (B.map m.org) = l at hlt hpos
  match l with
  | [] => simp [shoelace] at hpos
  | [a] => simp [shoelace] at hpos
  | [a, b] => simp [shoelace] at hpos
  | a :: b :: c :: l => simp at hlt

/-- The vertex sequence of points no three of which are on a line is the border of a triangulated
region, unless all points are on one line. -/
theorem toVertexSequence_region {fuel : Nat} {coins : Nat → List Nat} {pts : List (Point K)}
    {size : Int} {vs : List (Point K)} (hn : pts.Nodup) (hc : (coins pts.length).sum = pts.length)
    (hg : NoThree pts) (nc : ¬ AllCol pts) (h : toVertexSequence fuel coins o pts size = .ok vs) :
    ∃ m D B, Bord pts m D B ∧ vs = compressContour (B.map m.org) := by
  simp only [toVertexSequence, exc_bind_ok] at h
  obtain ⟨⟨m, t⟩, hd, es, hes, h⟩ := h
  unfold toVertexSequence' at h
  dsimp only at h
  obtain ⟨D, hT⟩ := delaunay_tgl hn hc hd
  obtain ⟨hB, hiff, hhead⟩ := hT.bord nc hes
  split at h
  · rename_i hs
    have := hB.three_vertices
    exact absurd hs (not_lt.2 this)
  rename_i hs
  simp only [exc_bind_ok] at h
  obtain ⟨b, hb, s, hl, ec, hec, eb, heb, s', hl', h⟩ := h
  have nd : es.Nodup := List.Nodup.of_map _ hB.nodup
  have hinv : MInv pts { mesh := m, tri := t, boundaryPoints := (es.map m.start).dedup
                         candidates := es, buckets := b
                         left := size - (compressContour (es.map m.start)).length } D es := by
    refine ⟨hB, hhead, fun f hf => ?_, fun c hc => hc, nd, BOk.mouths (fun c hc => hc) nd hb⟩
    dsimp only
    rw [List.mem_dedup]
    exact List.mem_map_of_mem hf
  obtain ⟨D', B', hI⟩ := hinv.loop _ hl
  have same : s'.mesh = s.mesh ∧ s'.tri = s.tri := by
    split at hec
    · have := hI.bord.walk hI.head hec
      subst this
      exact hI.bord.no_ears hg heb hl'
    · rename_i hleft
      simp only [exc_pure_ok] at hec
      subst hec
      rcases fuel with _ | fuel
      · simp [earLoop, exc_throw_ok] at hl'
      unfold earLoop at hl'
      rw [if_neg hleft] at hl'
      simp only [exc_pure_ok] at hl'
      subst hl'; exact ⟨rfl, rfl⟩
  simp only [triToBorderVertices, exc_bind_ok, exc_pure_ok] at h
  obtain ⟨es', hes', rfl⟩ := h
  rw [same.1, same.2] at hes'
  have hw := hI.bord.walk hI.head hes'
  subst hw
  exact ⟨s.mesh, D', es', hI.bord, by rw [same.1]; rfl⟩

/-- The same for a vertex sequence with three vertices. -/
theorem toVertexSequence_bord {fuel : Nat} {coins : Nat → List Nat} {pts : List (Point K)} {size : Int}
    {vs : List (Point K)} (hn : pts.Nodup) (hc : (coins pts.length).sum = pts.length) (hg : NoThree pts)
    (h : toVertexSequence fuel coins o pts size = .ok vs) (h3 : 3 ≤ vs.length) :
    ∃ m D B, Bord pts m D B ∧ vs = compressContour (B.map m.org) := by
  refine toVertexSequence_region hn hc hg ?_ h
  simp only [toVertexSequence, exc_bind_ok] at h
  obtain ⟨⟨m, t⟩, hd, es, hes, h⟩ := h
  unfold toVertexSequence' at h
  dsimp only at h
  split at h
  · rename_i hs
    simp only [exc_pure_ok] at h
    subst h
    omega
  rename_i hs
  intro hcol
  obtain ⟨g, ht⟩ := Good.delaunay hd
  have hE := g.boundaryEdges ht hes
  have hall : ∀ v ∈ es.map m.start, v ∈ pts := by
    intro v hv
    obtain ⟨e, he, rfl⟩ := List.mem_map.1 hv
    exact g.start (hE e he)
  have := compressContour_col (l := es.map m.start)
    (fun x hx y hy z hz => hcol x (hall x hx) y (hall y hy) z (hall z hz))
  omega

/-- Points no three of which are on a line have a contour of at least three vertices, and at most
as many as there are points. -/
theorem toVertexSequence_length {fuel : Nat} {coins : Nat → List Nat} {pts : List (Point K)}
    {size : Int} {vs : List (Point K)} (hn : pts.Nodup) (hc : (coins pts.length).sum = pts.length)
    (hg : NoThree pts) (h3 : 3 ≤ pts.length) (h : toVertexSequence fuel coins o pts size = .ok vs) :
    3 ≤ vs.length ∧ vs.length ≤ pts.length := by
  have nc : ¬ AllCol pts := by
    match pts, hn, h3 with
    | a :: b :: c :: l, hn, _ =>
      intro hcol
      simp only [List.nodup_cons, List.mem_cons, not_or] at hn
      refine hg a (by simp) b (by simp) c (by simp) hn.1.1 hn.1.2.1 hn.2.1.1 ?_
      have := hcol a (by simp) b (by simp) c (by simp)
      unfold cross at this
      unfold Collinear area2
      linarith
  obtain ⟨m, D, B, hB, rfl⟩ := toVertexSequence_region hn hc hg nc h
  refine ⟨hB.three_vertices, ?_⟩
  refine (compressContour_sublist _).length_le.trans ?_
  refine (hB.nodup.subperm fun v hv => ?_).length_le
  obtain ⟨e, he, rfl⟩ := List.mem_map.1 hv
  exact hB.mem (hB.bd e he)

end HG
