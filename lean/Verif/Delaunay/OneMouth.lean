import Verif.Delaunay.TotalSeq
import Verif.Delaunay.TotalPoly
import Verif.Lemmas.HoleCount
import Verif.Props.Star

/-!
# One mouth is cut off

Five or more points no three of which are on a line, with three or four of them on the convex hull:
asked for one vertex more than the hull has, `_to_vertex_sequence` cuts off exactly one triangle, and
the contour turns in different directions.
-/

set_option linter.unusedSectionVars false

namespace HG

open Spec

section
variable {K : Type} [CommRing K] [LinearOrder K] [IsStrictOrderedRing K] {o : EdgeOrder}
variable {P : List (Point K)} {m : Mesh K} {D : Ref → Prop} {t : Tri} {B : List Ref} {e : Ref}

/-! ## Triangles next to a small hull -/

/-- A triangle next to the border whose corners are the three given points contains no other point. -/
theorem TriFace.out {a b c p : Point K} (h : TriFace P m e) (ha : m.org e = a) (hb : m.org e.opp = b)
    (hc : apex m e = c) (hp : p ∈ P) (h1 : 0 ≤ cross a b p) (h2 : 0 ≤ cross b c p)
    (h3 : 0 ≤ cross c a p) : p = a ∨ p = b ∨ p = c := by
  have := h.empty p hp
  unfold apex at hc
  rw [ha, hb, hc] at this
  exact this h1 h2 h3

theorem cross_swap (a b p : Point K) (h : ¬ 0 ≤ cross a b p) : 0 ≤ cross b a p := by
  have : cross b a p = - cross a b p := by unfold cross; ring
  rw [this]; linarith

/-- A hull with three or four edges and a point inside has an edge whose triangle ends inside. -/
theorem Bord.inner_mouth (h : Bord P m D B) (hh : ∀ e ∈ B, HullDart P m D e) (h4 : B.length ≤ 4)
    {p : Point K} (hp : p ∈ P) (hpB : p ∉ B.map m.org) :
    ∃ e ∈ B, apex m e ∉ B.map m.org := by
  by_contra hno
  push Not at hno
  have h3 := h.three
  have nl : ∀ e ∈ B, apex m e ≠ m.org e := fun e he hh => by
    have pos := (h.triFace he).pos
    unfold apex at hh; rw [hh] at pos; simp [cross] at pos
  have nr : ∀ e ∈ B, apex m e ≠ m.org e.opp := fun e he hh => by
    have pos := (h.triFace he).pos
    unfold apex at hh; rw [hh] at pos
    have : cross (m.org e) (m.org e.opp) (m.org e.opp) = 0 := by unfold cross; ring
    rw [this] at pos; exact lt_irrefl _ pos
  have ho : ∀ {f g}, f ∈ B → m.next f.opp = g → m.org f.opp = m.org g := fun hf hg => by
    rw [← hg, h.org (h.opp (h.bd _ hf))]
  have hc := h.cyc
  rcases B with _ | ⟨e0, _ | ⟨e1, _ | ⟨e2, _ | ⟨e3, _ | ⟨e4, l⟩⟩⟩⟩⟩
  · simp at h3
  · simp at h3
  · simp at h3
  · simp only [List.take_succ_cons, List.take_zero, List.cons_append, List.nil_append,
      List.isChain_cons_cons] at hc
    obtain ⟨c0, c1, c2, -⟩ := hc
    have o0 := ho (by simp) c0
    have o1 := ho (by simp) c1
    have o2 := ho (by simp) c2
    have s0 := (hh e0 (by simp)).2 p hp
    have s1 := (hh e1 (by simp)).2 p hp
    have s2 := (hh e2 (by simp)).2 p hp
    rw [o0] at s0; rw [o1] at s1; rw [o2] at s2
    have a0 := hno e0 (by simp)
    have l0 := nl e0 (by simp)
    have r0 := nr e0 (by simp)
    rw [o0] at r0
    simp only [List.map_cons, List.map_nil, List.mem_cons, List.not_mem_nil, or_false] at a0 hpB
    have ap : apex m e0 = m.org e2 := by tauto
    have := (h.triFace (e := e0) (by simp)).out rfl o0 ap hp s0 s1 s2
    tauto
  · simp only [List.take_succ_cons, List.take_zero, List.cons_append, List.nil_append,
      List.isChain_cons_cons] at hc
    obtain ⟨c0, c1, c2, c3, -⟩ := hc
    have o0 := ho (by simp) c0
    have o1 := ho (by simp) c1
    have o2 := ho (by simp) c2
    have o3 := ho (by simp) c3
    have s0 := (hh e0 (by simp)).2 p hp
    have s1 := (hh e1 (by simp)).2 p hp
    have s2 := (hh e2 (by simp)).2 p hp
    have s3 := (hh e3 (by simp)).2 p hp
    rw [o0] at s0; rw [o1] at s1; rw [o2] at s2; rw [o3] at s3
    have a0 := hno e0 (by simp)
    have a1 := hno e1 (by simp)
    have a2 := hno e2 (by simp)
    have a3 := hno e3 (by simp)
    have l0 := nl e0 (by simp)
    have l1 := nl e1 (by simp)
    have l2 := nl e2 (by simp)
    have l3 := nl e3 (by simp)
    have r0 := nr e0 (by simp)
    have r1 := nr e1 (by simp)
    have r2 := nr e2 (by simp)
    have r3 := nr e3 (by simp)
    rw [o0] at r0; rw [o1] at r1; rw [o2] at r2; rw [o3] at r3
    simp only [List.map_cons, List.map_nil, List.mem_cons, List.not_mem_nil, or_false] at a0 a1 a2 a3 hpB
    simp only [not_or] at hpB
    obtain ⟨b0, b1, b2, b3⟩ := hpB
    have T0 := h.triFace (e := e0) (by simp)
    have T1 := h.triFace (e := e1) (by simp)
    have T2 := h.triFace (e := e2) (by simp)
    have T3 := h.triFace (e := e3) (by simp)
    have p0 : apex m e0 = m.org e2 ∨ apex m e0 = m.org e3 := by
      rcases a0 with a | a | a | a
      exacts [absurd a l0, absurd a r0, .inl a, .inr a]
    have p1 : apex m e1 = m.org e3 ∨ apex m e1 = m.org e0 := by
      rcases a1 with a | a | a | a
      exacts [.inr a, absurd a l1, absurd a r1, .inl a]
    have p2 : apex m e2 = m.org e0 ∨ apex m e2 = m.org e1 := by
      rcases a2 with a | a | a | a
      exacts [.inl a, .inr a, absurd a l2, absurd a r2]
    have p3 : apex m e3 = m.org e1 ∨ apex m e3 = m.org e2 := by
      rcases a3 with a | a | a | a
      exacts [absurd a r3, .inl a, .inr a, absurd a l3]
    clear a0 a1 a2 a3 l0 l1 l2 l3 r0 r1 r2 r3
    -- where `p` is when it is not inside the triangle
    have q0 : ∀ {c}, apex m e0 = c → c = m.org e2 ∨ c = m.org e3 →
        ¬ (0 ≤ cross (m.org e1) c p ∧ 0 ≤ cross c (m.org e0) p) := fun {c} hc hm hq => by
      rcases T0.out rfl o0 hc hp s0 hq.1 hq.2 with k | k | k
      · exact b0 k
      · exact b1 k
      · rcases hm with hm | hm
        · exact b2 (k.trans hm)
        · exact b3 (k.trans hm)
    have q1 : ∀ {c}, apex m e1 = c → c = m.org e3 ∨ c = m.org e0 →
        ¬ (0 ≤ cross (m.org e2) c p ∧ 0 ≤ cross c (m.org e1) p) := fun {c} hc hm hq => by
      rcases T1.out rfl o1 hc hp s1 hq.1 hq.2 with k | k | k
      · exact b1 k
      · exact b2 k
      · rcases hm with hm | hm
        · exact b3 (k.trans hm)
        · exact b0 (k.trans hm)
    have q2 : ∀ {c}, apex m e2 = c → c = m.org e0 ∨ c = m.org e1 →
        ¬ (0 ≤ cross (m.org e3) c p ∧ 0 ≤ cross c (m.org e2) p) := fun {c} hc hm hq => by
      rcases T2.out rfl o2 hc hp s2 hq.1 hq.2 with k | k | k
      · exact b2 k
      · exact b3 k
      · rcases hm with hm | hm
        · exact b0 (k.trans hm)
        · exact b1 (k.trans hm)
    have q3 : ∀ {c}, apex m e3 = c → c = m.org e1 ∨ c = m.org e2 →
        ¬ (0 ≤ cross (m.org e0) c p ∧ 0 ≤ cross c (m.org e3) p) := fun {c} hc hm hq => by
      rcases T3.out rfl o3 hc hp s3 hq.1 hq.2 with k | k | k
      · exact b3 k
      · exact b0 k
      · rcases hm with hm | hm
        · exact b1 (k.trans hm)
        · exact b2 (k.trans hm)
    rcases p0 with p0 | p0
    · have k0 := cross_swap _ _ _ fun hk => q0 p0 (by simp) ⟨s1, hk⟩
      rcases p2 with p2 | p2
      · exact q2 p2 (by simp) ⟨s3, k0⟩
      · have k1 := cross_swap _ _ _ fun hk => q2 p2 (by simp) ⟨hk, s1⟩
        rcases p3 with p3 | p3
        · exact q3 p3 (by simp) ⟨s0, k1⟩
        · exact q3 p3 (by simp) ⟨k0, s2⟩
    · have k0 := cross_swap _ _ _ fun hk => q0 p0 (by simp) ⟨hk, s3⟩
      rcases p1 with p1 | p1
      · exact q1 p1 (by simp) ⟨s2, k0⟩
      · have k1 := cross_swap _ _ _ fun hk => q1 p1 (by simp) ⟨hk, s0⟩
        rcases p2 with p2 | p2
        · exact q2 p2 (by simp) ⟨s3, k1⟩
        · exact q2 p2 (by simp) ⟨k0, s1⟩
  · simp only [List.length_cons] at h4; omega

/-- An edge of a small hull with increment one ends inside. -/
theorem Bord.inner_of_one (h : Bord P m D B) (hN : NoThree P) (h4 : B.length ≤ 4) (he : e ∈ B)
    (h1 : mouthToIncrement m e = 1) : apex m e ∉ B.map m.org := by
  have h3 := h.three
  have nl : apex m e ≠ m.org e := fun hh => by
    have pos := (h.triFace he).pos
    unfold apex at hh; rw [hh] at pos; simp [cross] at pos
  have nr : apex m e ≠ m.org e.opp := fun hh => by
    have pos := (h.triFace he).pos
    unfold apex at hh; rw [hh] at pos
    have : cross (m.org e) (m.org e.opp) (m.org e.opp) = 0 := by unfold cross; ring
    rw [this] at pos; exact lt_irrefl _ pos
  obtain ⟨g, hg, hge⟩ := h.pred he
  have hf := h.rfe he
  have hf' := h.rfe hf
  have o1 : m.org (m.next e.opp) = m.org e.opp := h.org (h.opp (h.bd _ he))
  have o2 : m.org (m.next (m.next e.opp).opp) = m.org (m.next e.opp).opp := h.org (h.opp (h.bd _ hf))
  rw [h.increment hN hg hge] at h1
  have c1 : apex m e ≠ m.org g := fun hh => by
    rw [decide_eq_true hh] at h1
    cases hd : decide (apex m e = m.org (m.next e.opp).opp) <;> rw [hd] at h1 <;> simp [b2i] at h1
  have c2 : apex m e ≠ m.org (m.next e.opp).opp := fun hh => by
    rw [decide_eq_true hh] at h1
    cases hd : decide (apex m e = m.org g) <;> rw [hd] at h1 <;> simp [b2i] at h1
  rw [← o1] at nr
  rw [← o2] at c2
  have hc := h.cyc
  rcases B with _ | ⟨e0, _ | ⟨e1, _ | ⟨e2, _ | ⟨e3, _ | ⟨e4, l⟩⟩⟩⟩⟩
  · simp at h3
  · simp at h3
  · simp at h3
  · simp only [List.take_succ_cons, List.take_zero, List.cons_append, List.nil_append,
      List.isChain_cons_cons] at hc
    obtain ⟨d0, d1, d2, -⟩ := hc
    simp only [List.mem_cons, List.not_mem_nil, or_false] at he
    simp only [List.map_cons, List.map_nil, List.mem_cons, List.not_mem_nil, or_false]
    rcases he with rfl | rfl | rfl
    · rw [d0, d1] at c2; rw [d0] at nr; tauto
    · rw [d1, d2] at c2; rw [d1] at nr; tauto
    · rw [d2, d0] at c2; rw [d2] at nr; tauto
  · simp only [List.take_succ_cons, List.take_zero, List.cons_append, List.nil_append,
      List.isChain_cons_cons] at hc
    obtain ⟨d0, d1, d2, d3, -⟩ := hc
    have hnd := h.nodup
    simp only [List.mem_cons, List.not_mem_nil, or_false] at he hg
    simp only [List.map_cons, List.map_nil, List.mem_cons, List.not_mem_nil, or_false]
    simp only [List.map_cons, List.map_nil, List.nodup_cons, List.mem_cons, List.not_mem_nil, or_false,
      not_or, List.nodup_nil, and_true, not_false_iff] at hnd
    obtain ⟨⟨n1, n2, n3⟩, ⟨n4, n5⟩, n6⟩ := hnd
    rcases he with rfl | rfl | rfl | rfl
    · rw [d0, d1] at c2; rw [d0] at nr
      rcases hg with rfl | rfl | rfl | rfl
      · rw [d0] at hge; exact absurd (congrArg m.org hge.symm) n1
      · rw [d1] at hge; exact absurd (congrArg m.org hge.symm) n2
      · rw [d2] at hge; exact absurd (congrArg m.org hge.symm) n3
      · tauto
    · rw [d1, d2] at c2; rw [d1] at nr
      rcases hg with rfl | rfl | rfl | rfl
      · tauto
      · rw [d1] at hge; exact absurd (congrArg m.org hge.symm) n4
      · rw [d2] at hge; exact absurd (congrArg m.org hge.symm) n5
      · rw [d3] at hge; exact absurd (congrArg m.org hge) n1
    · rw [d2, d3] at c2; rw [d2] at nr
      rcases hg with rfl | rfl | rfl | rfl
      · rw [d0] at hge; exact absurd (congrArg m.org hge) n4
      · tauto
      · rw [d2] at hge; exact absurd (congrArg m.org hge.symm) n6
      · rw [d3] at hge; exact absurd (congrArg m.org hge) n2
    · rw [d3, d0] at c2; rw [d3] at nr
      rcases hg with rfl | rfl | rfl | rfl
      · rw [d0] at hge; exact absurd (congrArg m.org hge) n5
      · rw [d1] at hge; exact absurd (congrArg m.org hge) n6
      · tauto
      · rw [d3] at hge; exact absurd (congrArg m.org hge) n3
  · simp only [List.length_cons] at h4; omega

/-- A small hull with a point inside is not one triangle. -/
theorem Bord.free_inner (h : Bord P m D B) (hh : ∀ e ∈ B, HullDart P m D e) {p : Point K} (hp : p ∈ P)
    (hpB : p ∉ B.map m.org) : Free m B := by
  rcases Nat.lt_or_ge B.length 4 with h4 | h4
  swap
  · exact h.free_of_four h4
  intro g hg hx
  have h3 := h.three
  have ho : ∀ {f g}, f ∈ B → m.next f.opp = g → m.org f.opp = m.org g := fun hf hg => by
    rw [← hg, h.org (h.opp (h.bd _ hf))]
  have he := h.rfe hg
  have hf := h.rfe he
  -- the three edges
  have hthree : m.next (m.next (m.next g.opp).opp).opp = g := by
    have hc := h.cyc
    rcases B with _ | ⟨e0, _ | ⟨e1, _ | ⟨e2, _ | ⟨e3, l⟩⟩⟩⟩
    · simp at h3
    · simp at h3
    · simp at h3
    · simp only [List.take_succ_cons, List.take_zero, List.cons_append, List.nil_append,
        List.isChain_cons_cons] at hc
      obtain ⟨d0, d1, d2, -⟩ := hc
      simp only [List.mem_cons, List.not_mem_nil, or_false] at hg
      rcases hg with rfl | rfl | rfl
      · rw [d0, d1, d2]
      · rw [d1, d2, d0]
      · rw [d2, d0, d1]
    · simp only [List.length_cons] at h4; omega
  have s0 := (hh g hg).2 p hp
  have s1 := (hh _ he).2 p hp
  have s2 := (hh _ hf).2 p hp
  rw [ho hg rfl] at s0
  rw [ho he rfl] at s1
  rw [ho hf hthree] at s2
  have := (h.triFace he).out rfl (ho he rfl) hx.1 hp s1 s2 s0
  apply hpB
  rw [List.mem_map]
  rcases this with h | h | h
  · exact ⟨_, he, h.symm⟩
  · exact ⟨_, hf, h.symm⟩
  · exact ⟨_, hg, h.symm⟩

/-! ## Buckets -/

/-- Every edge is in the bucket of its increment. -/
theorem fill_mem {fuel : Nat} {f : Ref → Int} (l : List Ref) {b b' : Buckets K}
    (h : l.foldlM (fun b e => Buckets.add fuel m b (f e) e) b = .ok b')
    (hb : ∀ i, ∀ c ∈ (b.getD i []).vals, f c = i) : ∀ i, ∀ c ∈ (b'.getD i []).vals, f c = i := by
  induction l generalizing b with
  | nil =>
    simp only [List.foldlM_nil, exc_pure_ok] at h
    subst h; exact hb
  | cons a l ih =>
    rw [List.foldlM_cons, exc_bind_ok] at h
    obtain ⟨b1, h1, h2⟩ := h
    refine ih h2 fun i c hc => ?_
    unfold Buckets.add at h1
    split at h1
    · simp [exc_throw_ok, exc_bind_ok] at h1
    rename_i hi
    simp only [exc_bind_ok, exc_pure_ok] at h1
    obtain ⟨k, hk, rfl⟩ := h1
    rw [List.getD_eq_getElem?_getD, List.getElem?_modify] at hc
    by_cases hia : (f a).toNat = i
    · have hlt : i < b.length := by omega
      simp only [if_pos hia, List.getElem?_eq_getElem hlt, Option.map_eq_map, Option.map_some, Option.getD_some] at hc
      have key : c = a ∨ c ∈ (b[i]).vals := by
        rcases KeyedSet.vals_add (s := b[i]) (k := k) (e := a) with h | h
        · right; rwa [h] at hc
        · rw [h.mem_iff] at hc; simpa using hc
      rcases key with rfl | hc
      · omega
      · refine hb i c ?_
        rw [List.getD_eq_getElem _ _ hlt]; exact hc
    · simp only [if_neg hia] at hc
      refine hb i c ?_
      rw [List.getD_eq_getElem?_getD]
      simpa using hc

/-! ## The loop -/

/-- Asked for one more vertex, the first loop removes one mouth and stops. -/
theorem mouths_one {fuel : Nat} (hN : NoThree P) (hf : (P.length + 2) * (P.length + 2) ≤ fuel)
    (hB : Bord P m D B) (hh : ∀ e ∈ B, HullDart P m D e) (h4 : B.length ≤ 4)
    {p : Point K} (hp : p ∈ P) (hpB : p ∉ B.map m.org) (hhead : B.head? = some t.leftSide)
    {b : Buckets K} {s : MouthState K} (hb : toMouthsIncrements fuel m B = .ok b)
    (hs : mouthLoop o fuel fuel
      { mesh := m, tri := t, boundaryPoints := (B.map m.start).dedup, candidates := B,
        buckets := b, left := 1 } = .ok s) :
    ∃ c, Mouth P m D B c ∧ s.left = 0 ∧
      MInv P s (fun x => D x ∧ x ≠ c ∧ x ≠ c.opp) (mouthBorder m B c) ∧ s.mesh = m.delete c := by
  have nd : B.Nodup := List.Nodup.of_map _ hB.nodup
  have hf' : P.length * P.length ≤ fuel := by nlinarith
  have hinv : MInv P { mesh := m, tri := t, boundaryPoints := (B.map m.start).dedup
                       candidates := B, buckets := b, left := 1 } D B := by
    refine ⟨hB, hhead, fun f hf => ?_, fun c hc => hc, nd, BOk.mouths (fun c hc => hc) nd hb⟩
    dsimp only
    rw [List.mem_dedup]
    exact List.mem_map_of_mem hf
  have hF := hB.free_inner hh hp hpB
  obtain ⟨b', h1, h2, h3, h4', h5⟩ := hB.net.fill_total hf' (f := fun e => mouthToIncrement m e + 1)
    B (b := List.replicate 5 []) (fun c hc => hB.bd c hc) (lo := 1) (hi := 2)
    (by omega) (fun c hc => by
      have := hB.inc_free hN hF hc
      omega) rfl
  obtain rfl : b' = b := by
    have : Except.ok (ε := Exc) b' = .ok b := h1.symm.trans hb
    exact Except.ok.inj this
  have hmem := fill_mem (f := fun e => mouthToIncrement m e + 1) B h1 (by
    intro i c hc; rw [replicate_getD] at hc; simp [KeyedSet.vals] at hc)
  have hMT : MT P { mesh := m, tri := t, boundaryPoints := (B.map m.start).dedup
                    candidates := B, buckets := b', left := 1 } D B := by
    refine ⟨hinv, hF, h2, fun i hi => ?_, fun c hc => ?_⟩
    · dsimp only; rw [h3 i hi, replicate_getD]
    · rcases h5 c hc with hc | hc
      · exact hc
      · rw [replicate_vals] at hc; simp at hc
  have hne : b'.getD 2 [] ≠ [] := by
    obtain ⟨e, he, hap⟩ := hB.inner_mouth hh h4 hp hpB
    refine h4' 2 (.inr ⟨e, he, ?_⟩)
    rw [hB.inc_one hN he (bp := B.map m.org) (fun f hf => List.mem_map_of_mem hf) hap]
    norm_num
  obtain ⟨c, rest, hpop, -⟩ := KeyedSet.popmax_some hne
  obtain ⟨hcB, hcc, hcv, hMT1, -⟩ := hMT.pop (.inr rfl) hpop
  have hi1 : mouthToIncrement m c = 1 := by
    have := hmem 2 c (by rw [KeyedSet.vals_popmax hpop]; simp)
    push_cast at this
    omega
  have hap := hB.inner_of_one hN h4 hcB hi1
  have hapb : apex m c ∉ (B.map m.start).dedup := by
    rw [List.mem_dedup]; exact hap
  obtain ⟨fuel', rfl⟩ : ∃ k, fuel = k + 2 := ⟨fuel - 2, by
    have : 2 ≤ (P.length + 2) * (P.length + 2) := by nlinarith
    omega⟩
  have hpos : mouthLoopPos (fuel' + 2) 1 (b'.getD (1 + 1) []).length
      { mesh := m, tri := t, boundaryPoints := (B.map m.start).dedup, candidates := B,
        buckets := b', left := 1 } = .ok
      ({ mesh := m, tri := t, boundaryPoints := (B.map m.start).dedup, candidates := B,
         buckets := b'.set 2 rest, left := 1 }, some (c, 1)) := by
    obtain ⟨n, hn⟩ : ∃ n, (b'.getD (1 + 1) []).length = n + 1 :=
      ⟨(b'.getD 2 []).length - 1, by
        have := List.length_pos_iff.2 hne
        show (b'.getD 2 []).length = _
        omega⟩
    rw [hn]
    unfold mouthLoopPos
    dsimp only
    rw [show (1 + 1 : ℕ) = 2 from rfl, hpop]
    dsimp only
    rw [isMouth_total (m := m) (e := c) (bp := (B.map m.start).dedup) (hinv.pts c hcB),
      decide_eq_true hapb]
    simp only [exc_bind_ok]
    refine ⟨true, rfl, ?_⟩
    simp only [hi1, if_true, Bool.true_eq_false, false_and, if_false, Nat.cast_one, exc_pure_ok]
  obtain ⟨s2, D', B', d1, -, -, -⟩ := hMT1.del_total hN hf' hcB hcv hcc hapb
  have hM := hMT1.inv.del hcB hcv d1
  rcases targetIncrement_cases (left := 1) hMT.len hMT.empty (by norm_num) with ht | ⟨ht, k1, k2⟩ | ⟨ht, k2⟩
  · exfalso
    revert ht
    dsimp only
    unfold targetIncrement
    rw [List.getLast?_eq_none_iff, List.filter_eq_nil_iff]
    intro ht
    have := ht 1 (by rw [List.mem_range]; omega)
    simp only [List.getD_eq_getElem?_getD] at this hne
    simp [hne] at this
  · exact absurd k2 hne
  · have hleft : s2.left = 0 ∧ s2.mesh = m.delete c := by
      obtain ⟨t', ht'⟩ := hB.delete_total hcB t
      unfold mouthDelete at d1
      rw [if_neg (by simp), isMouth_total (m := m) (e := c) (bp := (B.map m.start).dedup) (hinv.pts c hcB),
        decide_eq_true hapb] at d1
      simp only [exc_bind_ok] at d1
      obtain ⟨mo, hmo, d1⟩ := d1
      obtain rfl : true = mo := Except.ok.inj hmo
      simp only [if_true, exc_bind_ok] at d1
      obtain ⟨cs, -, mt, hmt, q, -, d1⟩ := d1
      have := Except.ok.inj (hmt.symm.trans ht')
      subst this
      simp only [exc_pure_ok] at d1
      subst d1
      exact ⟨by norm_num, rfl⟩
    have : s = s2 := by
      unfold mouthLoop at hs
      rw [if_pos (by norm_num)] at hs
      dsimp only at hs ht
      rw [ht] at hs
      dsimp only at hs
      rw [hpos] at hs
      simp only [exc_bind_ok] at hs
      obtain ⟨q, hq, hs⟩ := hs
      have hq' := Except.ok.inj hq
      subst hq'
      dsimp only at hs
      simp only [exc_bind_ok] at hs
      obtain ⟨s3, h3', hs⟩ := hs
      have : s3 = s2 := Except.ok.inj (h3'.symm.trans d1)
      subst this
      unfold mouthLoop at hs
      rw [if_neg (by rw [hleft.1]; norm_num)] at hs
      simp only [exc_pure_ok] at hs
      exact hs.symm
    subst this
    refine ⟨c, ⟨hcB, fun f hf hx => hap ?_⟩, hleft.1, hM, hleft.2⟩
    unfold apex; rw [← hx]; exact List.mem_map_of_mem hf

/-! ## Turns -/

theorem Bord.turn_mem (h : Bord P m D B) {f : Ref} (hf : f ∈ B) :
    orient (m.org f.opp) (m.org f) (m.org (m.next f.opp).opp) ∈ contourOrientations (B.map m.org) := by
  have h3 := h.three
  obtain ⟨i, hi, rfl⟩ := List.getElem_of_mem hf
  have hl : (B.map m.org).length = B.length := List.length_map _
  have g : ∀ (k : Nat) (hk : k < B.length), (B.map m.org).getD k default = m.org B[k] := by
    intro k hk
    rw [List.getD_eq_getElem _ _ (by omega), List.getElem_map]
  have nx : ∀ (k : Nat) (hk : k < B.length), m.next (B[k]).opp =
      B[(k + 1) % B.length]'(Nat.mod_lt _ (by omega)) := by
    intro k hk
    rcases Nat.lt_or_ge (k + 1) B.length with h1 | h1
    · rw [h.getElem_next h1]; simp only [Nat.mod_eq_of_lt h1]
    · have e' : k = B.length - 1 := by omega
      subst e'
      rw [h.getElem_last (by omega)]
      have : (B.length - 1 + 1) % B.length = 0 := by
        rw [Nat.sub_add_cancel (by omega), Nat.mod_self]
      simp only [this]
  have og : ∀ {k : Ref}, k ∈ B → m.org k.opp = m.org (m.next k.opp) := fun hk =>
    (h.org (h.opp (h.bd _ hk))).symm
  unfold contourOrientations
  rw [List.mem_map]
  refine ⟨(i + 1) % B.length, ?_, ?_⟩
  · rw [List.mem_range, hl]; exact Nat.mod_lt _ (by omega)
  · have e1 : ((i + 1) % B.length + B.length - 1) % B.length = i := by
      rcases Nat.lt_or_ge (i + 1) B.length with h1 | h1
      · rw [Nat.mod_eq_of_lt h1, show i + 1 + B.length - 1 = i + B.length by omega,
          Nat.add_mod_right, Nat.mod_eq_of_lt hi]
      · have : i + 1 = B.length := by omega
        rw [this, Nat.mod_self, Nat.zero_add, Nat.mod_eq_of_lt (by omega)]
        omega
    rw [hl, e1, g _ hi, g _ (Nat.mod_lt _ (by omega)), g _ (Nat.mod_lt _ (by omega)),
      og (List.getElem_mem hi), og (h.rfe (List.getElem_mem hi))]
    congr 2
    · rw [nx i hi]
    · simp only [nx i hi, nx _ (Nat.mod_lt (i + 1) (show 0 < B.length by omega))]

theorem nonConvex_of {vs : List (Point K)} {o₁ o₂ : Orientation} (h1 : o₁ ∈ contourOrientations vs)
    (h2 : o₂ ∈ contourOrientations vs) (h : o₁ ≠ o₂) : areVerticesNonConvexE vs = .ok true := by
  unfold areVerticesNonConvexE areVerticesNonConvex
  cases ho : contourOrientations vs with
  | nil => rw [ho] at h1; simp at h1
  | cons a l =>
    rw [ho] at h1 h2
    have : l.any (fun o' => decide (o' ≠ a)) = true := by
      rw [List.any_eq_true]
      by_cases h1a : o₁ = a
      · refine ⟨o₂, (List.mem_cons.1 h2).resolve_left fun hh => h (h1a.trans hh.symm), ?_⟩
        rw [decide_eq_true_eq, ← h1a]; exact h.symm
      · exact ⟨o₁, (List.mem_cons.1 h1).resolve_left h1a, by rw [decide_eq_true_eq]; exact h1a⟩
    show (match some (l.any fun o' => decide (o' ≠ a)) with
      | some b => pure b | none => throw Exc.stopIteration : Except Exc Bool) = _
    rw [this]; rfl

/-- A hull without one of the triangles next to it turns in different directions. -/
theorem Bord.delete_concave (h : Bord P m D B) (hh : ∀ e ∈ B, HullDart P m D e) {c : Ref}
    (hc : Mouth P m D B c) :
    areVerticesNonConvexE ((mouthBorder m B c).map (m.delete c).org) = .ok true := by
  have hB' := h.delete hc
  have De := h.bd c hc.mem
  have pos := (h.triFace hc.mem).pos
  obtain ⟨x, hx⟩ : ∃ x, x = m.next c := ⟨_, rfl⟩
  obtain ⟨y, hy⟩ : ∃ y, y = m.next x.opp := ⟨_, rfl⟩
  have hxB : x ∈ mouthBorder m B c := (mem_mouthBorder hc.mem).2 (.inr (.inl hx))
  have hyB : y ∈ mouthBorder m B c := (mem_mouthBorder hc.mem).2 (.inr (.inr (by rw [hy, hx])))
  have Dx : D x := hx ▸ h.next De
  have Dy : D y := hy ▸ h.next (h.opp Dx)
  -- corners of the triangle
  have ox : m.org x = m.org c := by rw [hx, h.org De]
  have oy : m.org y = m.org x.opp := by rw [hy, h.org (h.opp Dx)]
  have oy' : m.org y.opp = m.org c.opp := by
    have T := (h.triFace hc.mem).three
    rw [← h.org (h.opp Dy)]
    have := congrArg (fun r => m.org r.opp) T
    unfold Mesh.lf at this
    rw [hy, hx]
    simpa using this
  have nxy : (m.delete c).next x.opp = y := by
    obtain ⟨l₁, l₂, e1, n1, n2⟩ := h.split hc.mem
    have hb : mouthBorder m B c = l₁ ++ x :: y :: l₂ := by
      rw [e1, mouthBorder_append, mouthBorder_cons, mouthBorder_notMem m n1, mouthBorder_notMem m n2,
        hy, hx]
    have := hB'.cyc
    rw [hb, List.append_assoc] at this
    have := (List.isChain_append.1 this).2.1
    rw [List.cons_append, List.cons_append, List.isChain_cons_cons] at this
    exact this.1
  obtain ⟨g, hg, hgx⟩ := hB'.pred hxB
  have ogo : m.org g.opp = m.org x := by
    have := hB'.org (hB'.opp (hB'.bd g hg))
    rw [hgx, delete_org] at this
    exact this.symm
  have hgB : g ∈ B := by
    rcases (mem_mouthBorder hc.mem).1 hg with hg | hg | hg
    · exact hg.1
    · exfalso
      rw [← hx] at hg
      rw [hg] at ogo
      exact h.ne Dx ogo.symm
    · exfalso
      rw [← hx, ← hy] at hg
      rw [hg, oy', ox] at ogo
      exact h.ne De ogo.symm
  have t1 := hB'.turn_mem hxB
  have t2 := hB'.turn_mem hg
  rw [nxy] at t1
  rw [hgx] at t2
  simp only [delete_org] at t1 t2
  refine nonConvex_of t1 t2 ?_
  have s := (hh g hgB).2 _ (h.mem (h.opp Dx))
  rw [ogo] at s t2
  rw [ogo, oy', ox]
  rw [ox] at s
  have k1 : 0 < cross (m.org x.opp) (m.org c) (m.org c.opp) := by
    rw [← hx] at pos
    have : cross (m.org x.opp) (m.org c) (m.org c.opp) = cross (m.org c) (m.org c.opp) (m.org x.opp) := by
      unfold cross; ring
    rw [this]; exact pos
  have k2 : cross (m.org c) (m.org g) (m.org x.opp) ≤ 0 := by
    have : cross (m.org c) (m.org g) (m.org x.opp) = - cross (m.org g) (m.org c) (m.org x.opp) := by
      unfold cross; ring
    rw [this]; linarith
  rw [orient_def, orient_def]
  unfold signOrientation
  rw [if_neg k1.le.not_gt, if_neg k1.ne']
  split
  · simp
  · split
    · simp
    · rename_i n1 n2
      exact absurd (lt_of_le_of_ne k2 n2) n1

/-! ## The vertex sequence -/

/-- The contour of five or more points, asked for one vertex more than the hull has, when the hull
has at most four. -/
theorem toVertexSequence_one {fuel : Nat} {coins : Nat → List Nat} {pts : List (Point K)}
    (hn : pts.Nodup) (h5 : 5 ≤ pts.length) (hs : (coins pts.length).sum = pts.length)
    (h23 : ∀ n ∈ coins pts.length, n = 2 ∨ n = 3) (hN : NoThree pts)
    (hf : (pts.length + 2) * (pts.length + 2) ≤ fuel) (h4 : (toMaxConvexHull pts).length ≤ 4) :
    ∃ (size : Int) (vs : List (Point K)), 4 ≤ size ∧ size ≤ 5 ∧
      toVertexSequence fuel coins o pts size = .ok vs ∧ (vs.length : Int) = size ∧
      areVerticesNonConvexE vs = .ok true := by
  have hf' : pts.length * pts.length ≤ fuel := by nlinarith
  have hne : pts ≠ [] := by rintro rfl; simp at h5
  obtain ⟨⟨m, t⟩, hd⟩ := delaunay_total hn hne hs h23 (fuel := fuel) (by nlinarith)
  obtain ⟨D, hT⟩ := delaunay_tgl hn hs hd
  obtain ⟨es, hes⟩ := hT.net.boundary hT.dl hf'
  have nc : ¬ AllCol pts := by
    match pts, hn, h5 with
    | a :: b :: c :: l, hn, _ =>
      intro hcol
      simp only [List.nodup_cons, List.mem_cons, not_or] at hn
      refine hN a (by simp) b (by simp) c (by simp) hn.1.1 hn.1.2.1 hn.2.1.1 ?_
      have := hcol a (by simp) b (by simp) c (by simp)
      unfold cross at this
      unfold Collinear area2
      linarith
  obtain ⟨hB, hiff, hhead⟩ := hT.bord nc hes
  have hh : ∀ e ∈ es, HullDart pts m D e := fun e he => (hiff e).1 he
  have h3 := hB.three
  have hsub := hull_sub_max hn (by omega) hB hh
  have hlen : es.length ≤ 4 := by
    have : (es.map m.org) ⊆ toMaxConvexHull pts := by
      intro q hq
      obtain ⟨f, hf, rfl⟩ := List.mem_map.1 hq
      exact hsub f hf
    have := (hB.nodup.subperm this).length_le
    rw [List.length_map] at this
    omega
  obtain ⟨p, hp, hpB⟩ : ∃ p ∈ pts, p ∉ es.map m.org := by
    by_contra hno
    push Not at hno
    have := (hn.subperm hno).length_le
    rw [List.length_map] at this
    omega
  have compr : ∀ {m' : Mesh K} {D' : Ref → Prop} {B' : List Ref}, Bord pts m' D' B' →
      compressContour (B'.map m'.org) = B'.map m'.org := by
    intro m' D' B' hb
    refine compressContour_noThree hb.nodup (fun v hv => ?_) hN (by rw [List.length_map]; exact hb.three)
    obtain ⟨f, hf, rfl⟩ := List.mem_map.1 hv
    exact hb.mem (hb.bd f hf)
  obtain ⟨vs, hvs⟩ := toVertexSequence_total (o := o) ((es.length : Int) + 1) hn hne hs h23 hN hf
  refine ⟨(es.length : Int) + 1, vs, by omega, by omega, hvs, ?_⟩
  have h := hvs
  simp only [toVertexSequence, exc_bind_ok] at h
  obtain ⟨⟨m', t'⟩, hd', es', hes', h⟩ := h
  obtain ⟨rfl, rfl⟩ : m = m' ∧ t = t' := by
    have := Except.ok.inj (hd.symm.trans hd')
    exact ⟨congrArg Prod.fst this, congrArg Prod.snd this⟩
  obtain rfl : es = es' := Except.ok.inj (hes.symm.trans hes')
  unfold toVertexSequence' at h
  dsimp only at h
  split at h
  · rename_i hs
    have := hB.three_vertices
    exact absurd hs (not_lt.2 this)
  rename_i hs
  simp only [exc_bind_ok] at h
  obtain ⟨b, hb, s, hl, ec, hec, eb, heb, s', hl', h⟩ := h
  have hleft : (es.length : Int) + 1 - ((compressContour (es.map m.start)).length : Int) = 1 := by
    have := compr hB
    rw [show es.map m.start = es.map m.org from rfl, this, List.length_map]
    omega
  rw [hleft] at hl
  obtain ⟨c, hc, hl0, hI, hmesh⟩ := mouths_one hN hf hB hh hlen hp hpB hhead hb hl
  have same : s'.mesh = s.mesh ∧ s'.tri = s.tri := by
    rw [if_neg (by rw [hl0]; norm_num)] at hec
    simp only [exc_pure_ok] at hec
    subst hec
    rcases fuel with _ | fuel
    · simp [earLoop, exc_throw_ok] at hl'
    unfold earLoop at hl'
    rw [if_neg (by dsimp only; rw [hl0]; norm_num)] at hl'
    simp only [exc_pure_ok] at hl'
    subst hl'; exact ⟨rfl, rfl⟩
  simp only [triToBorderVertices, exc_bind_ok, exc_pure_ok] at h
  obtain ⟨es', hes', rfl⟩ := h
  rw [same.1, same.2] at hes'
  have hw := hI.bord.walk hI.head hes'
  subst hw
  have e1 : compressContour ((mouthBorder m es c).map s'.mesh.start) =
      (mouthBorder m es c).map (m.delete c).org := by
    rw [same.1]
    have := compr hI.bord
    rw [hmesh] at this ⊢
    exact this
  rw [e1]
  refine ⟨?_, hB.delete_concave hh hc⟩
  rw [List.length_map, mouthBorder_length hB hc.mem]
  push_cast; rfl

end
end HG
