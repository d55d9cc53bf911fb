import Verif.Delaunay.Total
import Verif.Delaunay.TotalMouth
import Verif.Delaunay.VertexSeq

/-!
# The vertex sequence of points in general position always exists
-/

set_option linter.unusedSectionVars false

namespace HG

open Spec

section
variable {K : Type} [CommRing K] [LinearOrder K] [IsStrictOrderedRing K] {o : EdgeOrder}
variable {P : List (Point K)} {m : Mesh K} {D : Ref → Prop} {t : Tri} {B : List Ref} {e : Ref}

theorem replicate_getD (j : Nat) : (List.replicate 5 ([] : KeyedSet K)).getD j [] = [] := by
  rw [List.getD_eq_getElem?_getD, List.getElem?_replicate]
  split <;> rfl

theorem replicate_vals : Buckets.vals (List.replicate 5 ([] : KeyedSet K)) = [] := by
  simp [Buckets.vals, KeyedSet.vals, List.replicate]

theorem targetIncrement_none {b : Buckets K} {shift : Nat} {left : Int}
    (h : ∀ j, shift ≤ j → b.getD j [] = []) : targetIncrement b shift left = none := by
  unfold targetIncrement
  rw [List.getLast?_eq_none_iff, List.filter_eq_nil_iff]
  intro i _
  rw [h (i + shift) (by omega)]
  simp

theorem missing_le (P bp : List (Point K)) : missing P bp ≤ P.length := List.length_filter_le _ _

theorem Bord.length_le (h : Bord P m D B) : B.length ≤ P.length := by
  have h1 : (B.map m.org) ⊆ P := by
    intro p hp
    obtain ⟨f, hf, rfl⟩ := List.mem_map.1 hp
    exact h.mem (h.bd f hf)
  have := (h.nodup.subperm h1).length_le
  simpa using this

theorem Bord.ear_ge (m : Mesh K) (e : Ref) : -3 ≤ earToIncrement m e := by
  have pos : ∀ b : Bool, 0 ≤ b2i b ∧ b2i b ≤ 1 := fun b => by cases b <;> decide
  have p1 := pos (isCol m (m.rfe e) (m.stop (m.rfe (m.rfe e))))
  have p2 := pos (isCol m e (m.stop (m.rfs e)))
  have p3 := pos (isCol m (m.rfs e) (m.stop (m.rfe e)))
  have p4 := pos (isCol m (m.rfe (m.rfe e)) (m.start e))
  unfold earToIncrement
  omega

/-- The first loop of the vertex sequence terminates without an exception. -/
theorem mouths_total {fuel : Nat} (hN : NoThree P) (hf : (P.length + 2) * (P.length + 2) ≤ fuel)
    (hB : Bord P m D B) (hhead : B.head? = some t.leftSide) (left : Int) :
    ∃ b s, toMouthsIncrements fuel m B = .ok b ∧ mouthLoop o fuel fuel
      { mesh := m, tri := t, boundaryPoints := (B.map m.start).dedup, candidates := B,
        buckets := b, left := left } = .ok s := by
  have nd : B.Nodup := List.Nodup.of_map _ hB.nodup
  have hf' : P.length * P.length ≤ fuel := by nlinarith
  have hinv : ∀ {b}, toMouthsIncrements fuel m B = .ok b →
      MInv P { mesh := m, tri := t, boundaryPoints := (B.map m.start).dedup
               candidates := B, buckets := b, left := left } D B := by
    intro b hb
    refine ⟨hB, hhead, fun f hf => ?_, fun c hc => hc, nd, BOk.mouths (fun c hc => hc) nd hb⟩
    dsimp only
    rw [List.mem_dedup]
    exact List.mem_map_of_mem hf
  by_cases hF : Free m B
  · obtain ⟨b, h1, h2, h3, h4, h5⟩ := hB.net.fill_total hf' (f := fun e => mouthToIncrement m e + 1)
      B (b := List.replicate 5 []) (fun c hc => hB.bd c hc) (lo := 1) (hi := 2)
      (by omega) (fun c hc => by
        have := hB.inc_free hN hF hc
        omega) rfl
    have hMT : MT P { mesh := m, tri := t, boundaryPoints := (B.map m.start).dedup
                      candidates := B, buckets := b, left := left } D B := by
      refine ⟨hinv h1, hF, h2, fun i hi => ?_, fun c hc => ?_⟩
      · dsimp only; rw [h3 i hi, replicate_getD]
      · rcases h5 c hc with hc | hc
        · exact hc
        · rw [replicate_vals] at hc; simp at hc
    obtain ⟨s, hs⟩ := hMT.loop_total hN hf' fuel (by
      have l1 := missing_le P (B.map m.start).dedup
      have l2 := hB.length_le
      -- the points on the border are not missing
      have l3 : missing P (B.map m.start).dedup + B.length ≤ P.length := by
        have hnd : (B.map m.org).Nodup := hB.nodup
        have hs : (B.map m.org) ⊆ P.filter (fun p => p ∈ (B.map m.start).dedup) := by
          intro p hp
          rw [List.mem_filter]
          refine ⟨?_, by rw [decide_eq_true_iff, List.mem_dedup]; exact hp⟩
          obtain ⟨f, hf, rfl⟩ := List.mem_map.1 hp
          exact hB.mem (hB.bd f hf)
        have h6 := (hnd.subperm hs).length_le
        rw [List.length_map] at h6
        have h7 := List.length_eq_length_filter_add (l := P) (fun p => decide (p ∈ (B.map m.start).dedup))
        unfold missing
        simp only [decide_not]
        omega
      dsimp only
      split <;> nlinarith)
    exact ⟨b, s, h1, hs⟩
  · obtain ⟨b, h1, h2, h3, -, -⟩ := hB.net.fill_total hf' (f := fun e => mouthToIncrement m e + 1)
      B (b := List.replicate 5 []) (fun c hc => hB.bd c hc) (lo := 0) (hi := 0)
      (by omega) (fun c hc => by
        have := (hB.lone hN hF hc).1
        omega) rfl
    have hI := hinv h1
    have ht : targetIncrement b 1 left = none :=
      targetIncrement_none fun j hj => by rw [h3 j (by omega), replicate_getD]
    obtain ⟨s, hs⟩ := hI.neg_total (inner := fuel) hN _ hF le_rfl (by
      dsimp only; intro hh; rw [hh] at h2; simp at h2)
    obtain ⟨fuel', rfl⟩ : ∃ k, fuel = k + 1 := ⟨fuel - 1, by
      have : 0 < (P.length + 2) * (P.length + 2) := by positivity
      omega⟩
    refine ⟨b, ?_⟩
    by_cases hleft : 0 < left
    · refine ⟨s, h1, ?_⟩
      unfold mouthLoop
      dsimp only at hs ⊢
      rw [if_pos hleft, ht]
      dsimp only
      rw [hs]
      rfl
    · refine ⟨⟨m, t, (B.map m.start).dedup, B, b, left⟩, h1, ?_⟩
      unfold mouthLoop
      dsimp only
      rw [if_neg hleft]
      rfl

/-- The vertex sequence of distinct points no three of which are on a line always exists. -/
theorem toVertexSequence_total {fuel : Nat} {coins : Nat → List Nat} {pts : List (Point K)} (size : Int)
    (hn : pts.Nodup) (hne : pts ≠ []) (hs : (coins pts.length).sum = pts.length)
    (h23 : ∀ n ∈ coins pts.length, n = 2 ∨ n = 3) (hN : NoThree pts)
    (hf : (pts.length + 2) * (pts.length + 2) ≤ fuel) :
    ∃ vs, toVertexSequence fuel coins o pts size = .ok vs := by
  have hf' : pts.length * pts.length ≤ fuel := by nlinarith
  obtain ⟨⟨m, t⟩, hd⟩ := delaunay_total hn hne hs h23 (fuel := fuel) (by nlinarith)
  obtain ⟨D, hT⟩ := delaunay_tgl hn hs hd
  obtain ⟨es, hes⟩ := hT.net.boundary hT.dl hf'
  unfold toVertexSequence
  rw [hd]
  show ∃ vs, (boundaryEdges fuel m t >>= _) = _
  rw [hes]
  show ∃ vs, toVertexSequence' fuel o m t es size = _
  unfold toVertexSequence'
  dsimp only
  split
  · exact ⟨_, rfl⟩
  rename_i h3
  have nc : ¬ AllCol pts := by
    intro hcol
    obtain ⟨g, ht⟩ := Good.delaunay hd
    have hE := g.boundaryEdges ht hes
    have hall : ∀ v ∈ es.map m.start, v ∈ pts := by
      intro v hv
      obtain ⟨e, he, rfl⟩ := List.mem_map.1 hv
      exact g.start (hE e he)
    have := compressContour_col (l := es.map m.start)
      (fun x hx y hy z hz => hcol x (hall x hx) y (hall y hy) z (hall z hz))
    omega
  obtain ⟨hB, hiff, hhead⟩ := hT.bord nc hes
  obtain ⟨b, s, hb, hl⟩ := mouths_total hN hf hB hhead
    (size - (compressContour (es.map m.start)).length)
  have nd : es.Nodup := List.Nodup.of_map _ hB.nodup
  have hinv : MInv pts { mesh := m, tri := t, boundaryPoints := (es.map m.start).dedup
                         candidates := es, buckets := b
                         left := size - (compressContour (es.map m.start)).length } D es := by
    refine ⟨hB, hhead, fun f hf => ?_, fun c hc => hc, nd, BOk.mouths (fun c hc => hc) nd hb⟩
    dsimp only
    rw [List.mem_dedup]
    exact List.mem_map_of_mem hf
  obtain ⟨D', B', hI⟩ := hinv.loop _ hl
  have hB' := hI.bord
  have hhead' := hI.head
  have dl : D' s.tri.leftSide := hB'.bd _ (List.mem_of_mem_head? hhead')
  obtain ⟨es', hes'⟩ := hB'.net.boundary dl hf'
  have hw := hB'.walk hhead' hes'
  subst hw
  rw [hb]
  show ∃ vs, (mouthLoop o fuel fuel _ >>= _) = _
  rw [hl]
  obtain ⟨fuel', hfe⟩ : ∃ k, fuel = k + 1 := ⟨fuel - 1, by
    have : 0 < (pts.length + 2) * (pts.length + 2) := by positivity
    omega⟩
  -- the second loop returns at once
  have second : ∀ ec, (∀ c ∈ ec, c ∈ es') → (0 < s.left → ec = es') →
      ∃ eb s', toEarsIncrements fuel s.mesh (o.order ec) = .ok eb ∧
      earLoop o fuel fuel { mesh := s.mesh, tri := s.tri, candidates := ec, buckets := eb, left := s.left }
        = .ok s' ∧ s'.mesh = s.mesh ∧ s'.tri = s.tri := by
    intro ec hec hleft
    obtain ⟨eb, h1, h2, h3, -, -⟩ := hB'.net.fill_total hf' (f := fun e => earToIncrement s.mesh e + 3)
      (o.order ec) (b := List.replicate 5 []) (fun c hc => hB'.bd c (hec c (o.mem.1 hc))) (lo := 0) (hi := 2)
      (by omega) (fun c hc => by
        have := hB'.ear_le hN (hec c (o.mem.1 hc))
        have := Bord.ear_ge s.mesh c
        omega) rfl
    have ht : targetIncrement eb 3 s.left = none :=
      targetIncrement_none fun j hj => by rw [h3 j (by omega), replicate_getD]
    refine ⟨eb, { mesh := s.mesh, tri := s.tri, candidates := ec, buckets := eb, left := s.left },
      h1, ?_, rfl, rfl⟩
    rw [hfe]
    unfold earLoop
    dsimp only
    rw [ht]
    split <;> rfl
  have fin : ∀ ec, (∀ c ∈ ec, c ∈ es') → (0 < s.left → ec = es') → ∃ vs, (do
      let eb ← toEarsIncrements fuel s.mesh (o.order ec)
      let s' ← earLoop o fuel fuel
        { mesh := s.mesh, tri := s.tri, candidates := ec, buckets := eb, left := s.left }
      triToBorderVertices fuel s'.mesh s'.tri) = Except.ok vs := by
    intro ec h1 h2
    obtain ⟨eb, s', a1, a2, a3, a4⟩ := second ec h1 h2
    rw [a1]
    show ∃ vs, (earLoop o fuel fuel _ >>= _) = _
    rw [a2]
    show ∃ vs, triToBorderVertices fuel s'.mesh s'.tri = _
    unfold triToBorderVertices
    rw [a3, a4, hes']
    exact ⟨_, rfl⟩
  show ∃ vs, ((if s.left > 0 then boundaryEdges fuel s.mesh s.tri else pure []) >>= _) = _
  split
  · rw [hes']
    exact fin es' (fun c hc => hc) (fun _ => rfl)
  · rename_i hl0
    exact fin [] (by simp) (fun h => absurd h hl0)

end
end HG
