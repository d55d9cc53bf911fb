import Verif.Delaunay.TotalWalk
import Verif.Delaunay.BorderSimple

/-!
# The first loop of the vertex sequence construction terminates
-/

set_option linter.unusedSectionVars false

namespace HG

open Spec

variable {K : Type} [CommRing K] [LinearOrder K] [IsStrictOrderedRing K] {o : EdgeOrder}
variable {P : List (Point K)} {m : Mesh K} {D : Ref → Prop} {t : Tri} {B : List Ref} {e : Ref}

/-- The third point of the triangle to the left of an edge. -/
def apex (m : Mesh K) (e : Ref) : Point K := m.org (m.next e).opp

/-! ## Removal -/

theorem Bord.next_ne (h : Bord P m D B) (he : e ∈ B) : m.next e ≠ e ∧ m.next e.opp ≠ e.opp := by
  refine ⟨fun hh => ?_, fun hh => h.one e he (hh ▸ h.rfe he)⟩
  have pos := (h.triFace he).pos
  rw [hh] at pos
  simp at pos

/-- A border edge can always be deleted. -/
theorem Bord.delete_total (h : Bord P m D B) (he : e ∈ B) (t : Tri) :
    ∃ t', Tri.delete m t e = .ok (m.delete e, t') := by
  obtain ⟨n1, n2⟩ := h.next_ne he
  unfold Tri.delete
  have s1 : ∃ t1 : Tri, (if e = t.rightSide ∨ e.opp = t.rightSide then
      if t.rightSide = (m.rfe t.rightSide).opp then (throw .assertion : Except Exc Tri)
      else pure { t with rightSide := (m.rfe t.rightSide).opp }
    else pure t) = .ok t1 := by
    split
    · rename_i hc
      rw [if_neg]
      · exact ⟨_, rfl⟩
      · intro hh
        unfold Mesh.rfe at hh
        rcases hc with hc | hc
        · rw [← hc] at hh
          have := congrArg Ref.opp hh
          rw [Ref.opp_opp] at this
          exact n2 this.symm
        · rw [← hc, Ref.opp_opp] at hh
          exact n1 (opp_inj hh).symm
    · exact ⟨_, rfl⟩
  obtain ⟨t1, h1⟩ := s1
  have s2 : ∃ t2 : Tri, (if e = t1.leftSide ∨ e.opp = t1.leftSide then
      if t1.leftSide = m.lfs t1.leftSide then (throw .assertion : Except Exc Tri)
      else pure { t1 with leftSide := m.lfs t1.leftSide }
    else pure t1) = .ok t2 := by
    split
    · rename_i hc
      rw [if_neg]
      · exact ⟨_, rfl⟩
      · intro hh
        unfold Mesh.lfs at hh
        rcases hc with hc | hc
        · rw [← hc] at hh; exact n1 hh.symm
        · rw [← hc] at hh; exact n2 hh.symm
    · exact ⟨_, rfl⟩
  obtain ⟨t2, h2⟩ := s2
  refine ⟨t2, ?_⟩
  simp only [exc_bind_ok]
  exact ⟨t1, h1, t2, h2, rfl⟩

/-! ## Flips -/

/-- A flip next to a border edge gives border edges their old or a new inner apex. -/
theorem Bord.flip_apex (h : Bord P m D B) {c : Ref} (hcB : c ∈ B) {bp : List (Point K)}
    (hp : ∀ f ∈ B, m.org f ∈ bp) (hn : m.stop (m.rfs (m.lfe c)) ∉ bp)
    (hq : isConvexQuadDiagonal m (m.lfe c) = true) :
    (∀ f ∈ B, apex (m.flip (m.lfe c)) f = apex m f ∨ apex (m.flip (m.lfe c)) f ∉ bp) ∧
      apex (m.flip (m.lfe c)) c ∉ bp := by
  obtain ⟨De, he, ho⟩ := h.diagonal hcB hp hn
  have hlfe := h.lfe_eq hcB
  have hthree := (h.triFace hcB).three
  obtain ⟨e, hE⟩ : ∃ e, m.lfe c = e := ⟨_, rfl⟩
  rw [hE] at De he ho hq hn hlfe ⊢
  have Deo := h.opp De
  have T := (h.face De).resolve_left ho
  have T' := (h.face Deo).resolve_left (by rw [Ref.opp_opp]; exact he)
  obtain ⟨x, hx⟩ : ∃ x, m.next e = x := ⟨_, rfl⟩
  obtain ⟨y, hy⟩ : ∃ y, m.next x.opp = y := ⟨_, rfl⟩
  obtain ⟨z, hz⟩ : ∃ z, m.next e.opp = z := ⟨_, rfl⟩
  obtain ⟨w, hw⟩ : ∃ w, m.next z.opp = w := ⟨_, rfl⟩
  have hcx : c = x.opp := by
    rw [← hthree]
    show m.lf (m.next (m.next c).opp).opp = _
    rw [← hlfe, ← hx]; rfl
  have Dx : D x := hx ▸ h.next De
  have Dxo := h.opp Dx
  have Dy : D y := hy ▸ h.next Dxo
  have Dyo := h.opp Dy
  have Dz : D z := hz ▸ h.next Deo
  have Dzo := h.opp Dz
  have Dw : D w := hw ▸ h.next Dzo
  have Dwo := h.opp Dw
  have l1 : m.lf e = x.opp := by rw [← hx]; rfl
  have l2 : m.lf x.opp = y.opp := by rw [← hy]; rfl
  have l3 : m.lf y.opp = e := by rw [← l2, ← l1]; exact T.three
  have k1 : m.lf e.opp = z.opp := by rw [← hz]; rfl
  have k2 : m.lf z.opp = w.opp := by rw [← hw]; rfl
  have k3 : m.lf w.opp = e.opp := by rw [← k2, ← k1]; exact T'.three
  have hyo : m.next y.opp = e.opp := by
    have := congrArg Ref.opp l3
    unfold Mesh.lf at this
    rwa [Ref.opp_opp] at this
  have hwo : m.next w.opp = e := by
    have := congrArg Ref.opp k3
    unfold Mesh.lf at this
    rwa [Ref.opp_opp, Ref.opp_opp] at this
  obtain ⟨q2, q4⟩ := convexQuad h.wf (h.edge De) hx hy hz hw hwo hq
  have T0 := T.pos
  have T0' := T'.pos
  rw [hx] at T0
  rw [hz, Ref.opp_opp] at T0'
  obtain ⟨a, ha⟩ : ∃ a, m.org x.opp = a := ⟨_, rfl⟩
  obtain ⟨b, hb⟩ : ∃ b, m.org e = b := ⟨_, rfl⟩
  obtain ⟨c', hc⟩ : ∃ c', m.org e.opp = c' := ⟨_, rfl⟩
  obtain ⟨d, hd⟩ : ∃ d, m.org z.opp = d := ⟨_, rfl⟩
  have ox : m.org x = b := by rw [← hx, h.org De, hb]
  have oy : m.org y = a := by rw [← hy, h.org Dxo, ha]
  have oz : m.org z = c' := by rw [← hz, h.org Deo, hc]
  have ow : m.org w = d := by rw [← hw, h.org Dzo, hd]
  have oyo : m.org y.opp = c' := by rw [← h.org Dyo, hyo, hc]
  have owo : m.org w.opp = b := by rw [← h.org Dwo, hwo, hb]
  rw [ha, hb, hc] at T0
  rw [hb, hc, hd] at T0'
  rw [hd, oz, ha] at q2
  rw [ha, ox, ow] at q4
  have nab : a ≠ b := by rintro rfl; simp at T0
  have nac : a ≠ c' := by rintro rfl; simp at T0
  have nbc : b ≠ c' := by rintro rfl; simp at T0
  have nad : a ≠ d := by rintro rfl; simp at q2
  have nbd : b ≠ d := by rintro rfl; simp at T0'
  have ncd : c' ≠ d := by rintro rfl; simp at T0'
  have nd : [e, e.opp, x.opp, y.opp, z.opp, w.opp].Nodup := by
    have f : ∀ {u v : Ref}, m.org u ≠ m.org v → u ≠ v := fun h1 h2 => h1 (by rw [h2])
    have f' : ∀ {u v : Ref}, m.org u.opp ≠ m.org v.opp → u ≠ v := fun h1 h2 => h1 (by rw [h2])
    simp only [List.nodup_cons, List.mem_cons, List.not_mem_nil, not_or, or_false,
      not_false_eq_true, List.nodup_nil, and_true]
    refine ⟨⟨f ?_, f ?_, f ?_, f ?_, f' ?_⟩, ⟨f ?_, f' ?_, f ?_, f ?_⟩, ⟨f ?_, f ?_, f ?_⟩, ⟨f ?_, f ?_⟩, f ?_⟩ <;>
      simp only [ha, hb, hc, hd, oy, ow, oyo, owo, Ref.opp_opp] <;>
      first | assumption | (apply Ne.symm; assumption)
  have nx : ∀ {u}, D u → (m.flip e).next u = if u = w.opp then x else if u = e then w else if u = y.opp then z
      else if u = e.opp then y else if u = z.opp then e else if u = x.opp then e.opp
      else m.next u := fun hu => flip_next h.wf (h.edge De) hx hy hz hw hyo hwo nd (h.edge hu)
  have hye : y ≠ e := by rintro rfl; exact nab (by rw [← oy, hb])
  have og : ∀ u, (m.flip e).org u = if u = e.opp then a else if u = e then d else m.org u := by
    intro u
    rw [flip_org h.wf (h.edge De) hx hy hz hw hyo hwo hye, oy, ow]
  simp only [List.nodup_cons, List.mem_cons, List.not_mem_nil, not_or, or_false, not_false_eq_true,
    List.nodup_nil, and_true] at nd
  obtain ⟨⟨a1, a2, a3, a4, a5⟩, ⟨b2, b3, b4, b5⟩, ⟨c3, c4, c5⟩, ⟨d4, d5⟩, g5⟩ := nd
  have oE : (m.flip e).org e = d := by rw [og, if_neg a1, if_pos rfl]
  have oO : ∀ {u}, u ≠ e → u ≠ e.opp → (m.flip e).org u = m.org u := by
    intro u h1 h2; rw [og, if_neg h2, if_neg h1]
  have hd' : d ∉ bp := by
    have : m.rfs e = w.opp := ((eq_rfs_iff h.wf (h.edge De) (h.edge Dwo)).2 hwo).symm
    rw [this, Mesh.stop, Ref.opp_opp, ow] at hn
    exact hn
  have stopIn : ∀ {f}, f ∈ B → m.org f.opp ∈ bp := fun {f} hf => by
    rw [← h.org (h.opp (h.bd f hf))]
    exact hp _ (h.rfe hf)
  have apx : apex (m.flip e) x.opp = d := by
    unfold apex
    rw [nx Dxo, if_neg c5, if_neg (Ne.symm a2), if_neg c3, if_neg (Ne.symm b2), if_neg c4, if_pos rfl,
      Ref.opp_opp, oE]
  refine ⟨fun f hf => ?_, by rw [hcx, apx]; exact hd'⟩
  have Df := h.bd f hf
  by_cases f1 : f = w.opp
  · exfalso; apply hd'
    have := stopIn hf
    rwa [f1, Ref.opp_opp, ow] at this
  by_cases f2 : f = z.opp
  · exfalso; apply hd'
    have := hp f hf
    rwa [f2, hd] at this
  by_cases f3 : f = x.opp
  · right; rw [f3, apx]; exact hd'
  by_cases f4 : f = y.opp
  · right
    unfold apex
    rw [nx Df, if_neg f1, if_neg (by rw [f4]; exact Ne.symm a3), if_pos f4, oO (Ne.symm a4) (Ne.symm b4), hd]
    exact hd'
  left
  unfold apex
  have n1 : f ≠ e := fun hh => he (hh ▸ hf)
  have n2 : f ≠ e.opp := fun hh => ho (hh ▸ hf)
  rw [nx Df, if_neg f1, if_neg n1, if_neg f4, if_neg n2, if_neg f2, if_neg f3]
  refine oO (fun hh => f4 ?_) (fun hh => f1 ?_)
  · exact h.next_inj Df Dyo (by rw [hyo, ← hh, Ref.opp_opp])
  · exact h.next_inj Df Dwo (by rw [hwo]; exact opp_inj hh)

theorem Bord.same_next (h : Bord P m D B) {m' : Mesh K} {D' : Ref → Prop} (h' : Bord P m' D' B)
    {g : Ref} (hg : g ∈ B) : m'.next g.opp = m.next g.opp := by
  obtain ⟨i, hi, rfl⟩ := List.getElem_of_mem hg
  by_cases hl : i + 1 < B.length
  · rw [h.getElem_next hl, h'.getElem_next hl]
  · have : i = B.length - 1 := by omega
    subst this
    have h0 : 0 < B.length := by omega
    rw [h.getElem_last h0, h'.getElem_last h0]

/-! ## Increments -/

/-- No triangle next to the border has its apex at the same time before and after its edge. -/
def Free (m : Mesh K) (B : List Ref) : Prop :=
  ∀ g ∈ B, ¬ (apex m (m.next g.opp) = m.org g ∧
    apex m (m.next g.opp) = m.org (m.next (m.next g.opp).opp).opp)

theorem Bord.increment (h : Bord P m D B) (hN : NoThree P) {g : Ref} (hg : g ∈ B)
    (hge : m.next g.opp = e) : mouthToIncrement m e =
      1 - b2i (decide (apex m e = m.org g)) - b2i (decide (apex m e = m.org (m.next e.opp).opp)) := by
  have he : e ∈ B := hge ▸ h.rfe hg
  have De := h.bd e he
  have Dg := h.bd g hg
  have hf := h.rfe he
  have Df := h.bd _ hf
  have t1 := h.turn hN hg he hge
  have t2 := h.turn hN he hf rfl
  have og : m.org g.opp = m.org e := by rw [← hge, h.org (h.opp Dg)]
  have of : m.org (m.next e.opp) = m.org e.opp := h.org (h.opp De)
  have r1 : m.rfs e = g.opp := ((eq_rfs_iff h.wf (h.edge De) (h.edge (h.opp Dg))).2 hge).symm
  have pos := (h.triFace he).pos
  have nea : m.org e ≠ apex m e := by
    intro hh; unfold apex at hh; rw [← hh] at pos; simp at pos
  have nsa : m.org e.opp ≠ apex m e := by
    intro hh; unfold apex at hh; rw [← hh] at pos; simp at pos
  have Da : D (m.next e).opp := h.opp (h.next De)
  have c3 : isCol m e (m.stop (m.rfs e)) = false := by
    unfold isCol
    rw [decide_eq_false_iff_not]
    unfold Mesh.orientationOf Mesh.start Mesh.stop
    rw [r1, Ref.opp_opp, orient_col_iff]
    intro h0; apply t1
    rw [← h0]; unfold cross; ring
  have c4 : isCol m e (m.stop (m.rfe e)) = false := by
    unfold isCol
    rw [decide_eq_false_iff_not]
    unfold Mesh.orientationOf Mesh.start Mesh.stop Mesh.rfe
    rw [orient_col_iff]
    intro h0; apply t2
    rw [of]; exact h0
  have c1 : isCol m (m.lfs e) (m.stop (m.rfs e)) = decide (apex m e = m.org g) := by
    unfold isCol
    rw [decide_eq_decide]
    unfold Mesh.orientationOf Mesh.start Mesh.stop Mesh.lfs
    rw [r1, Ref.opp_opp, orient_col_iff, h.org De]
    constructor
    · intro h0
      by_contra hne
      refine hN _ (h.mem De) _ (h.mem Da) _ (h.mem Dg) nea ?_ hne ?_
      · rw [← og]; exact (h.ne Dg).symm
      · unfold Collinear; rw [← cross_area2]; exact h0
    · intro h0
      show cross (m.org e) (apex m e) (m.org g) = 0
      rw [h0]; simp
  have c2 : isCol m (m.lfe e) (m.stop (m.rfe e)) = decide (apex m e = m.org (m.next e.opp).opp) := by
    unfold isCol
    rw [decide_eq_decide]
    unfold Mesh.orientationOf Mesh.start Mesh.stop Mesh.rfe
    have Dy := h.next Da
    have o2 : m.org (m.next (m.next e).opp).opp = m.org e.opp := by
      have T := (h.triFace he).three
      rw [← h.org (h.opp Dy)]
      have := congrArg (fun r => m.org r.opp) T
      unfold Mesh.lf at this
      simpa using this
    rw [h.lfe_eq he, Ref.opp_opp, orient_col_iff, o2, h.org Da]
    constructor
    · intro h0
      by_contra hne
      refine hN _ (h.mem (h.opp De)) _ (h.mem Da) _ (h.mem (h.opp Df)) nsa ?_ hne ?_
      · rw [← of]; exact h.ne Df
      · unfold Collinear; rw [← cross_area2]; exact h0
    · intro h0
      show cross (m.org e.opp) (apex m e) (m.org (m.next e.opp).opp) = 0
      rw [h0]; simp
  unfold mouthToIncrement
  rw [c1, c2, c3, c4]
  simp [b2i]

theorem Bord.inc_one (h : Bord P m D B) (hN : NoThree P) (he : e ∈ B) {bp : List (Point K)}
    (hp : ∀ f ∈ B, m.org f ∈ bp) (ha : apex m e ∉ bp) : mouthToIncrement m e = 1 := by
  obtain ⟨g, hg, hge⟩ := h.pred he
  have hf := h.rfe he
  have c1 : ¬ apex m e = m.org g := fun hh => ha (by rw [hh]; exact hp g hg)
  have c2 : ¬ apex m e = m.org (m.next e.opp).opp := fun hh => ha (by
    rw [hh, ← h.org (h.opp (h.bd _ hf))]
    exact hp _ (h.rfe hf))
  rw [h.increment hN hg hge, decide_eq_false c1, decide_eq_false c2]
  rfl

theorem Bord.inc_free (h : Bord P m D B) (hN : NoThree P) (hF : Free m B) (he : e ∈ B) :
    mouthToIncrement m e = 0 ∨ mouthToIncrement m e = 1 := by
  obtain ⟨g, hg, hge⟩ := h.pred he
  have := hF g hg
  rw [hge] at this
  rw [h.increment hN hg hge]
  by_cases c1 : apex m e = m.org g
  · have c2 : ¬ apex m e = m.org (m.next e.opp).opp := fun hh => this ⟨c1, hh⟩
    left; simp [b2i, decide_eq_true c1, decide_eq_false c2]
  · by_cases c2 : apex m e = m.org (m.next e.opp).opp
    · left; simp [b2i, decide_eq_false c1, decide_eq_true c2]
    · right; simp [b2i, decide_eq_false c1, decide_eq_false c2]

theorem Bord.closed (h : Bord P m D B) {S : Ref → Prop} (he : e ∈ B) (hS : S e)
    (hc : ∀ f ∈ B, S f → S (m.next f.opp)) : ∀ f ∈ B, S f := by
  obtain ⟨i, hi, rfl⟩ := List.getElem_of_mem he
  have up : ∀ i, ∀ hi : i < B.length, S B[i] → ∀ k, ∀ hk : i + k < B.length, S B[i + k] := by
    intro i hi h0 k
    induction k with
    | zero => intro _; exact h0
    | succ k ih =>
      intro hk
      have := hc _ (List.getElem_mem _) (ih (by omega))
      rwa [h.getElem_next (i := i + k) (by omega)] at this
  have h0 : 0 < B.length := by omega
  have hl : S B[B.length - 1] := by
    have := up i hi hS (B.length - 1 - i) (by omega)
    have e : i + (B.length - 1 - i) = B.length - 1 := by omega
    simpa [e] using this
  have hz : S B[0] := by
    have := hc _ (List.getElem_mem _) hl
    rwa [h.getElem_last h0] at this
  intro f hf
  obtain ⟨j, hj, rfl⟩ := List.getElem_of_mem hf
  have := up 0 h0 hz j (by omega)
  simpa using this

theorem Bord.free_of_four (h : Bord P m D B) (h4 : 4 ≤ B.length) : Free m B := by
  intro g hg hh
  have he := h.rfe hg
  have hf := h.rfe he
  have hr := h.rfe hf
  obtain ⟨e, rfl'⟩ : ∃ e, m.next g.opp = e := ⟨_, rfl⟩
  rw [rfl'] at hh he hf hr
  obtain ⟨f, hfe⟩ : ∃ f, m.next e.opp = f := ⟨_, rfl⟩
  rw [hfe] at hh hf hr
  have hfg : m.next f.opp = g := h.inj hr hg (by rw [h.org (h.opp (h.bd f hf)), ← hh.2, hh.1])
  have := h.closed (S := fun r => r ∈ [g, e, f]) hg (by simp) (by
    intro r _ hr
    simp only [List.mem_cons, List.not_mem_nil, or_false] at hr ⊢
    rcases hr with rfl | rfl | rfl
    · right; left; exact rfl'
    · right; right; exact hfe
    · left; exact hfg)
  have hl := ((List.Nodup.of_map _ h.nodup).subperm this).length_le
  simp at hl
  omega

theorem Free.flip (h : Bord P m D B) (hF : Free m B) {c : Ref} (hcB : c ∈ B) {bp : List (Point K)}
    (hp : ∀ f ∈ B, m.org f ∈ bp) (hn : m.stop (m.rfs (m.lfe c)) ∉ bp)
    (hq : isConvexQuadDiagonal m (m.lfe c) = true) : Free (m.flip (m.lfe c)) B := by
  obtain ⟨d1, d2, d3⟩ := h.diagonal hcB hp hn
  have h' := h.flip d1 d2 d3 hq
  intro g hg hh
  have he := h.rfe hg
  have hf := h.rfe he
  have hr := h.rfe hf
  rw [h.same_next h' hg, h.same_next h' he] at hh
  have og : (m.flip (m.lfe c)).org g = m.org g :=
    flip_org_of_ne (fun hh => d2 (hh ▸ hg)) (fun hh => d3 (hh ▸ hg))
  have of : (m.flip (m.lfe c)).org (m.next (m.next g.opp).opp).opp
      = m.org (m.next (m.next g.opp).opp).opp :=
    flip_org_of_ne (fun hh => d3 (by rw [← hh, Ref.opp_opp]; exact hf))
      (fun hh => d2 (by rw [← opp_inj hh]; exact hf))
  rw [og, of] at hh
  rcases (h.flip_apex hcB hp hn hq).1 _ he with e1 | e1
  · rw [e1] at hh; exact hF g hg hh
  · exact e1 (by rw [hh.1]; exact hp g hg)

/-- A triangle that is not free is the whole region. -/
theorem Bord.lone (h : Bord P m D B) (hN : NoThree P) (hF : ¬ Free m B) (he : e ∈ B) :
    mouthToIncrement m e = -1 ∧ ∃ f ∈ B, apex m e = m.org f := by
  unfold Free at hF
  push Not at hF
  obtain ⟨g, hg, h1, h2⟩ := hF
  have hd := h.rfe hg
  have hf := h.rfe hd
  have hr := h.rfe hf
  obtain ⟨d, hgd⟩ : ∃ d, m.next g.opp = d := ⟨_, rfl⟩
  rw [hgd] at h1 h2 hd hf hr
  obtain ⟨f, hfd⟩ : ∃ f, m.next d.opp = f := ⟨_, rfl⟩
  rw [hfd] at h2 hf hr
  have Dd := h.bd d hd
  have Dg := h.bd g hg
  have Df := h.bd f hf
  have hfg : m.next f.opp = g := h.inj hr hg (by rw [h.org (h.opp Df), ← h2, h1])
  have og : m.org g.opp = m.org d := by rw [← hgd, h.org (h.opp Dg)]
  have od : m.org d.opp = m.org f := by rw [← hfd, h.org (h.opp Dd)]
  have of : m.org f.opp = m.org g := by rw [← hfg, h.org (h.opp Df)]
  -- the three edges form one triangle
  have x1 : m.next d = g.opp := h.simple (h.next Dd) (h.opp Dg) (by rw [h.org Dd, og])
    (by rw [Ref.opp_opp]; exact h1)
  have lf1 : m.lf d = g := by unfold Mesh.lf; rw [x1, Ref.opp_opp]
  have T := (h.triFace hd).three
  rw [lf1] at T
  have o3 : m.org (m.next g).opp = m.org f := by
    have hd1 : D (m.lf g) := h.opp (h.next Dg)
    have h3 : m.org d.opp = m.org (m.next (m.lf g)) := by
      have := congrArg (fun r => m.org r.opp) T
      unfold Mesh.lf at this ⊢
      simp only [Ref.opp_opp] at this
      exact this.symm
    rw [h.org hd1, od] at h3
    exact h3.symm
  have x2 : m.next g = f.opp := h.simple (h.next Dg) (h.opp Df) (by rw [h.org Dg, of])
    (by rw [Ref.opp_opp]; exact o3)
  have lf2 : m.lf g = f := by unfold Mesh.lf; rw [x2, Ref.opp_opp]
  rw [lf2] at T
  have a1 : apex m d = m.org g := h1
  have a2 : apex m g = m.org f := o3
  have a3 : apex m f = m.org d := by
    show m.org (m.lf f) = _
    rw [T]
  have all := h.closed (S := fun r => r = g ∨ r = d ∨ r = f) hg (by simp) (by
    intro r _ hr
    rcases hr with rfl | rfl | rfl
    · right; left; exact hgd
    · right; right; exact hfd
    · left; exact hfg) e he
  have key : ∀ {u v w : Ref}, u ∈ B → m.next u.opp = v → m.next v.opp = w → apex m v = m.org u →
      m.org w.opp = m.org u → mouthToIncrement m v = -1 := by
    intro u v w hu huv hvw h1 h2
    rw [h.increment hN hu huv, hvw, h2, decide_eq_true h1]; rfl
  rcases all with rfl | rfl | rfl
  · exact ⟨key hf hfg hgd a2 od, f, hf, a2⟩
  · exact ⟨key hg hgd hfd a1 of, g, hg, a1⟩
  · exact ⟨key hd hfd hfg a3 og, d, hd, a3⟩

/-! ## Buckets -/

theorem KeyedSet.popmax_some {s : KeyedSet K} (h : s ≠ []) :
    ∃ e r, s.popmax = some (e, r) ∧ r.length + 1 = s.length := by
  unfold KeyedSet.popmax
  have hl := List.getLast?_eq_some_getLast h
  rw [hl]
  refine ⟨_, _, rfl, ?_⟩
  rw [List.length_dropLast]
  have := List.length_pos_of_ne_nil h
  omega

theorem KeyedSet.add_ne {s : KeyedSet K} {k : EdgeKey K} : s.add k e ≠ [] := by
  cases s with
  | nil => simp [KeyedSet.add]
  | cons a l =>
    obtain ⟨k', e'⟩ := a
    unfold KeyedSet.add
    split
    · simp
    · split <;> simp

/-- An edge can always be put into a bucket. -/
theorem Net.add_total (h : Net P m D) (he : D e) {fuel : Nat} (hf : P.length * P.length ≤ fuel)
    {b : Buckets K} (hb : b.length = 5) {i : Nat} (hi : i < 5) {z : Int} (hz : z = i) :
    ∃ b', Buckets.add fuel m b z e = .ok b' ∧ b'.length = 5 ∧
      (∀ j, j ≠ i → b'.getD j [] = b.getD j []) ∧ b'.getD i [] ≠ [] ∧
      ∀ c ∈ b'.vals, c = e ∨ c ∈ b.vals := by
  obtain ⟨k, hk⟩ := h.key he hf
  have hz' : z.toNat = i := by omega
  have hadd : Buckets.add fuel m b z e = .ok (b.modify i (KeyedSet.add k e)) := by
    unfold Buckets.add
    rw [if_neg (by omega), hk, hz']
    rfl
  refine ⟨_, hadd, by rw [List.length_modify]; exact hb, fun j hj => ?_, ?_, fun c hc => ?_⟩
  · rw [List.getD_eq_getElem?_getD, List.getD_eq_getElem?_getD, List.getElem?_modify]
    simp only [if_neg (Ne.symm hj)]
    simp
  · rw [List.getD_eq_getElem?_getD, List.getElem?_modify, List.getElem?_eq_getElem (by omega)]
    simpa using KeyedSet.add_ne
  · rcases Buckets.vals_add hadd with hp | hp
    · exact .inr (hp.mem_iff.1 hc)
    · have := hp.mem_iff.1 hc
      rwa [List.mem_cons] at this

theorem Net.fill_total (h : Net P m D) {fuel : Nat} (hf : P.length * P.length ≤ fuel) {f : Ref → Int}
    (l : List Ref) {b : Buckets K} (hl : ∀ c ∈ l, D c) {lo hi : Nat} (hh : hi < 5)
    (hr : ∀ c ∈ l, (lo : Int) ≤ f c ∧ f c ≤ hi) (hb : b.length = 5) :
    ∃ b', l.foldlM (fun b e => Buckets.add fuel m b (f e) e) b = .ok b' ∧ b'.length = 5 ∧
      (∀ j, j < lo ∨ hi < j → b'.getD j [] = b.getD j []) ∧
      (∀ j, (b.getD j [] ≠ [] ∨ ∃ c ∈ l, f c = j) → b'.getD j [] ≠ []) ∧
      ∀ c ∈ b'.vals, c ∈ l ∨ c ∈ b.vals := by
  induction l generalizing b with
  | nil => exact ⟨b, rfl, hb, fun _ _ => rfl, by simp, by simp⟩
  | cons a l ih =>
    have ra := hr a (by simp)
    obtain ⟨b1, h1, h2, h3, h4, h5⟩ := h.add_total (hl a (by simp)) hf hb (i := (f a).toNat)
      (by omega) (z := f a) (by omega)
    obtain ⟨b2, k1, k2, k3, k4, k5⟩ := ih (fun c hc => hl c (by simp [hc]))
      (fun c hc => hr c (by simp [hc])) h2
    refine ⟨b2, ?_, k2, fun j hj => ?_, fun j hj => ?_, fun c hc => ?_⟩
    · rw [List.foldlM_cons, h1]; exact k1
    · rw [k3 j hj, h3 j (by omega)]
    · apply k4
      rcases hj with hj | ⟨c, hc, hcj⟩
      · left
        by_cases hja : j = (f a).toNat
        · rw [hja]; exact h4
        · rw [h3 j hja]; exact hj
      · rcases List.mem_cons.1 hc with rfl | hc
        · left
          have : j = (f c).toNat := by omega
          rw [this]; exact h4
        · exact .inr ⟨c, hc, hcj⟩
    · rcases k5 c hc with hc | hc
      · exact .inl (by simp [hc])
      · rcases h5 c hc with hc | hc
        · exact .inl (by simp [hc])
        · exact .inr hc

/-! ## Invariant -/

/-- Invariant of the first loop for points no three of which are on a line. -/
structure MT (P : List (Point K)) (s : MouthState K) (D : Ref → Prop) (B : List Ref) : Prop where
  inv : MInv P s D B
  free : Free s.mesh B
  len : s.buckets.length = 5
  empty : ∀ i, i < 1 ∨ 2 < i → s.buckets.getD i [] = []
  sub : ∀ c ∈ s.buckets.vals, c ∈ s.candidates

theorem isMouth_total {bp : List (Point K)} (h : m.org e ∈ bp) :
    isMouth m e bp = .ok (decide (apex m e ∉ bp)) := by
  unfold isMouth
  rw [if_pos (show m.start e ∈ bp from h)]; rfl

theorem MT.pop {s : MouthState K} (h : MT P s D B) {i : Nat} (hi : i = 1 ∨ i = 2) {r : KeyedSet K}
    (hp : (s.buckets.getD i []).popmax = some (e, r)) :
    e ∈ B ∧ e ∈ s.candidates ∧ e ∉ Buckets.vals (s.buckets.set i r) ∧
      MT P { s with buckets := s.buckets.set i r } D B ∧ (s.buckets.set i r).getD i [] = r := by
  obtain ⟨h1, h2, h3⟩ := h.inv.pop hp
  have hv := Buckets.vals_set hp
  refine ⟨h1, h.sub e (hv.mem_iff.2 (by simp)), h2, ⟨h3, h.free, ?_, fun j hj => ?_, fun c hc => ?_⟩, ?_⟩
  · dsimp only; rw [List.length_set]; exact h.len
  · dsimp only
    have := h.empty j hj
    rw [List.getD_eq_getElem?_getD] at this ⊢
    rw [List.getElem?_set_ne (by omega)]
    exact this
  · exact h.sub c (hv.mem_iff.2 (by simp [hc]))
  · rw [List.getD_eq_getElem?_getD, List.getElem?_set_self (by have := h.len; omega)]
    rfl

/-- The loop over one bucket terminates without an exception. -/
theorem MT.pos_total {inner : Nat} (hN : NoThree P) (hf : P.length * P.length ≤ inner) {target : Nat}
    (ht : target = 0 ∨ target = 1) (n : Nat) {s : MouthState K} (h : MT P s D B)
    (hn : n ≤ (s.buckets.getD (target + 1) []).length) :
    ∃ s' r, mouthLoopPos inner target n s = .ok (s', r) ∧ MT P s' D B ∧
      s'.boundaryPoints = s.boundaryPoints ∧ s'.candidates.length ≤ s.candidates.length ∧
      (∀ f ∈ B, apex s.mesh f ∉ s.boundaryPoints → apex s'.mesh f ∉ s.boundaryPoints) ∧
      (s'.candidates = s.candidates ∨ s'.candidates.length < s.candidates.length) ∧
      (∀ c a, r = some (c, a) → target = 1 ∧ a = 1 ∧ c ∈ B ∧ c ∉ s'.buckets.vals ∧ c ∈ s'.candidates ∧
        apex s'.mesh c ∉ s'.boundaryPoints) ∧
      (r = none → n = 0 ∨ s'.candidates.length < s.candidates.length ∨
        target = 0 ∧ ∃ c ∈ s.candidates, apex s'.mesh c ∉ s.boundaryPoints) := by
  induction n generalizing s with
  | zero => exact ⟨s, none, rfl, h, rfl, le_rfl, fun _ _ h => h, .inl rfl, by simp, fun _ => .inl rfl⟩
  | succ n ih =>
    obtain ⟨c, rest, hp, hr⟩ := KeyedSet.popmax_some (s := s.buckets.getD (target + 1) []) (by
      intro hh; rw [hh] at hn; simp at hn)
    obtain ⟨hcB, hcc, hcv, h1, hset⟩ := h.pop (by omega) hp
    have hB := h.inv.bord
    have hmo := isMouth_total (m := s.mesh) (h.inv.pts c hcB)
    unfold mouthLoopPos
    rw [hp]
    dsimp only
    rw [hmo]
    -- what happens to a mouth
    have mouthCase : ∀ s2 : MouthState K, MT P s2 D B → s2.boundaryPoints = s.boundaryPoints →
        s2.candidates = s.candidates → s2.buckets = s.buckets.set (target + 1) rest →
        (∀ f ∈ B, apex s.mesh f ∉ s.boundaryPoints → apex s2.mesh f ∉ s.boundaryPoints) →
        apex s2.mesh c ∉ s.boundaryPoints →
        ∃ s' r, (if mouthToIncrement s2.mesh c = (target : Int) then
            (pure (s2, some (c, mouthToIncrement s2.mesh c)) : Except Exc (MouthState K × Option (Ref × Int)))
          else do
            let b ← Buckets.add inner s2.mesh s2.buckets (mouthToIncrement s2.mesh c + 1) c
            mouthLoopPos inner target n { s2 with buckets := b }) = .ok (s', r) ∧ MT P s' D B ∧
        s'.boundaryPoints = s.boundaryPoints ∧ s'.candidates.length ≤ s.candidates.length ∧
        (∀ f ∈ B, apex s.mesh f ∉ s.boundaryPoints → apex s'.mesh f ∉ s.boundaryPoints) ∧
        (s'.candidates = s.candidates ∨ s'.candidates.length < s.candidates.length) ∧
        (∀ c a, r = some (c, a) → target = 1 ∧ a = 1 ∧ c ∈ B ∧ c ∉ s'.buckets.vals ∧ c ∈ s'.candidates ∧
          apex s'.mesh c ∉ s'.boundaryPoints) ∧
        (r = none → n + 1 = 0 ∨ s'.candidates.length < s.candidates.length ∨
          target = 0 ∧ ∃ c ∈ s.candidates, apex s'.mesh c ∉ s.boundaryPoints) := by
      intro s2 hs2 e1 e2 e3 mono hap
      have hi := hs2.inv.bord.inc_one hN hcB (bp := s.boundaryPoints) (by rw [← e1]; exact hs2.inv.pts) hap
      rw [hi]
      by_cases h1t : (1 : Int) = (target : Int)
      · rw [if_pos h1t]
        refine ⟨_, _, rfl, hs2, e1, by rw [e2], mono, .inl e2, ?_, by simp⟩
        intro c' a hca
        simp only [Option.some.injEq, Prod.mk.injEq] at hca
        obtain ⟨rfl, rfl⟩ := hca
        exact ⟨by omega, rfl, hcB, by rw [e3]; exact hcv, by rw [e2]; exact hcc, by rw [e1]; exact hap⟩
      · rw [if_neg h1t]
        have ht0 : target = 0 := by omega
        obtain ⟨b', a1, a2, a3, a4, a5⟩ := hs2.inv.bord.net.add_total (hB.bd c hcB) hf hs2.len
          (i := 2) (by omega) (z := 1 + 1) (by norm_num)
        rw [a1]
        have hcv2 : c ∉ s2.buckets.vals := by rw [e3]; exact hcv
        have hMT : MT P { s2 with buckets := b' } D B := by
          refine ⟨⟨hs2.inv.bord, hs2.inv.head, hs2.inv.pts, hs2.inv.cand, hs2.inv.candNodup,
            (hs2.inv.bok.add hcB hcv2 a1).1⟩, hs2.free, a2, fun j hj => ?_, fun x hx => ?_⟩
          · dsimp only
            rw [a3 j (by omega)]; exact hs2.empty j hj
          · rcases a5 x hx with rfl | hx
            · show x ∈ s2.candidates
              rw [e2]; exact hcc
            · exact hs2.sub x hx
        obtain ⟨s', r, i1, i2, i3, i4, i5, i6, i7, i8⟩ := ih hMT (by
          dsimp only
          rw [a3 _ (by omega), e3, hset]; omega)
        dsimp only at i3 i4 i5 i6 i8
        rw [e1] at i3 i5 i8
        rw [e2] at i4 i6 i8
        refine ⟨s', r, i1, i2, i3, i4, fun f hf hfa => i5 f hf (mono f hf hfa), i6, i7, fun hr0 => ?_⟩
        rcases i6 with i6 | i6
        · exact .inr (.inr ⟨ht0, c, hcc, i5 c hcB hap⟩)
        · exact .inr (.inl i6)
    by_cases hm : apex s.mesh c ∉ s.boundaryPoints
    · rw [decide_eq_true hm]
      exact mouthCase { s with buckets := s.buckets.set (target + 1) rest } h1 rfl rfl rfl
        (fun _ _ h => h) hm
    · rw [decide_eq_false hm]
      by_cases hq : s.mesh.stop (s.mesh.rfs (s.mesh.lfe c)) ∉ s.boundaryPoints ∧
          isConvexQuadDiagonal s.mesh (s.mesh.lfe c) = true
      · have hfl := hB.flip_apex hcB h.inv.pts hq.1 hq.2
        have := mouthCase { s with buckets := s.buckets.set (target + 1) rest
                                   mesh := s.mesh.flip (s.mesh.lfe c) }
          ⟨h1.inv.flip hcB hq.1 hq.2, h.free.flip hB hcB h.inv.pts hq.1 hq.2, h1.len, h1.empty, h1.sub⟩
          rfl rfl rfl (fun f hf hfa => by
            rcases hfl.1 f hf with e1 | e1
            · dsimp only; rw [e1]; exact hfa
            · exact e1) hfl.2
        obtain ⟨s', r, hh, rest'⟩ := this
        refine ⟨s', r, ?_, rest'⟩
        show (if false = false ∧ _ then _ else _) = _
        rw [if_neg (by tauto)]
        exact hh
      · have hMT : MT P { s with buckets := s.buckets.set (target + 1) rest
                                 candidates := s.candidates.filter (· ≠ c) } D B := by
          refine ⟨⟨hB, h.inv.head, h.inv.pts, fun c hc => h.inv.cand c (List.mem_of_mem_filter hc),
            h.inv.candNodup.filter _, h1.inv.bok⟩, h.free, h1.len, h1.empty, fun x hx => ?_⟩
          dsimp only at hx ⊢
          rw [List.mem_filter]
          refine ⟨h1.sub x hx, ?_⟩
          have : x ≠ c := fun hh => hcv (hh ▸ hx)
          simpa using this
        have hlt : (s.candidates.filter (· ≠ c)).length < s.candidates.length := by
          refine List.length_filter_lt_length_iff_exists.2 ⟨c, hcc, by simp⟩
        obtain ⟨s', r, i1, i2, i3, i4, i5, i6, i7, i8⟩ := ih hMT (by
          dsimp only
          rw [hset]; omega)
        dsimp only at i3 i4 i5 i6 i8
        refine ⟨s', r, ?_, i2, i3, by omega, i5, .inr (by omega), i7, fun _ => .inr (.inl (by omega))⟩
        show (if false = false ∧ _ then _ else _) = _
        rw [if_pos ⟨rfl, hq⟩]
        have : removeEdge c s.candidates = .ok (s.candidates.filter (· ≠ c)) := by
          unfold removeEdge; rw [if_pos hcc]; rfl
        rw [this]
        exact i1

/-! ## Removal of a mouth -/

theorem mouthBorder_length (h : Bord P m D B) (he : e ∈ B) :
    (mouthBorder m B e).length = B.length + 1 := by
  obtain ⟨l₁, l₂, rfl, h1, h2⟩ := h.split he
  rw [mouthBorder_append, mouthBorder_cons, mouthBorder_notMem m h1, mouthBorder_notMem m h2]
  simp
  omega

/-- The points of a list that are not in another one. -/
def missing (P bp : List (Point K)) : Nat := (P.filter fun p => p ∉ bp).length

theorem missing_insert {bp : List (Point K)} {p : Point K} (hp : p ∈ P) (hb : p ∉ bp) :
    missing P (insertSet p bp) < missing P bp := by
  unfold missing
  have : P.filter (fun q => q ∉ insertSet p bp) = (P.filter fun q => q ∉ bp).filter fun q => q ≠ p := by
    rw [List.filter_filter]
    refine List.filter_congr fun q _ => ?_
    simp only [mem_insertSet, not_or, Bool.decide_and, ne_eq]
  rw [this]
  refine List.length_filter_lt_length_iff_exists.2 ⟨p, List.mem_filter.2 ⟨hp, by simpa using hb⟩, by simp⟩

theorem insertSet_length {α : Type} [DecidableEq α] (a : α) (l : List α) :
    (insertSet a l).length ≤ l.length + 1 := by
  unfold insertSet
  split <;> simp

theorem MT.del_total {inner : Nat} (hN : NoThree P) (hf : P.length * P.length ≤ inner)
    {s : MouthState K} (h : MT P s D B) {c : Ref} (hc : c ∈ B) (hcv : c ∉ s.buckets.vals)
    (hcc : c ∈ s.candidates) (ha : apex s.mesh c ∉ s.boundaryPoints) :
    ∃ s' D' B', mouthDelete inner s c 1 1 = .ok s' ∧ MT P s' D' B' ∧
      missing P s'.boundaryPoints < missing P s.boundaryPoints ∧
      s'.candidates.length ≤ s.candidates.length + 1 := by
  have hB := h.inv.bord
  have hm : Mouth P s.mesh D B c := ⟨hc, fun f hf hh => ha (by
    unfold apex; rw [← hh]; exact h.inv.pts f hf)⟩
  have hB' := hB.delete hm
  have De := hB.bd c hc
  obtain ⟨t', ht'⟩ := hB.delete_total hc s.tri
  have hfree : Free (s.mesh.delete c) (mouthBorder s.mesh B c) := by
    refine hB'.free_of_four ?_
    rw [mouthBorder_length hB hc]
    have := hB.three
    omega
  obtain ⟨x, hx⟩ : ∃ x, x = s.mesh.next c := ⟨_, rfl⟩
  obtain ⟨y, hy⟩ : ∃ y, y = s.mesh.next x.opp := ⟨_, rfl⟩
  have hxB : x ∈ mouthBorder s.mesh B c := (mem_mouthBorder hc).2 (.inr (.inl hx))
  have hyB : y ∈ mouthBorder s.mesh B c := (mem_mouthBorder hc).2 (.inr (.inr (by rw [hy, hx])))
  have inc := fun {e} he => hB'.inc_free hN hfree (e := e) he
  have Dx := hB'.bd x hxB
  have Dy := hB'.bd y hyB
  have step : ∀ {e : Ref} {b : Buckets K}, e ∈ mouthBorder s.mesh B c → b.length = 5 →
      (∀ j, j < 1 ∨ 2 < j → b.getD j [] = []) →
      ∃ b', Buckets.add inner (s.mesh.delete c) b (mouthToIncrement (s.mesh.delete c) e + 1) e = .ok b' ∧
        b'.length = 5 ∧ (∀ j, j < 1 ∨ 2 < j → b'.getD j [] = []) ∧ ∀ c ∈ b'.vals, c = e ∨ c ∈ b.vals := by
    intro e b he hb hem
    have hi := inc he
    obtain ⟨b', a1, a2, a3, -, a5⟩ := hB'.net.add_total (hB'.bd e he) hf hb
      (i := (mouthToIncrement (s.mesh.delete c) e + 1).toNat) (by omega)
      (z := mouthToIncrement (s.mesh.delete c) e + 1) (by omega)
    exact ⟨b', a1, a2, fun j hj => by rw [a3 j (by omega)]; exact hem j hj, a5⟩
  obtain ⟨b1, p1, p2, p3, p4⟩ := step hxB h.len h.empty
  obtain ⟨b2, q1, q2, q3, q4⟩ := step hyB p2 p3
  have hrem : removeEdge c s.candidates = .ok (s.candidates.filter (· ≠ c)) := by
    unfold removeEdge; rw [if_pos hcc]; rfl
  obtain ⟨s', hs'⟩ : ∃ s' : MouthState K, s' =
      { mesh := s.mesh.delete c, tri := t'
        boundaryPoints := insertSet (s.mesh.stop (s.mesh.lfs c)) s.boundaryPoints
        candidates := insertSet y (insertSet x (s.candidates.filter (· ≠ c)))
        buckets := b2, left := s.left - 1 } := ⟨_, rfl⟩
  have hrun : mouthDelete inner s c 1 1 = .ok s' := by
    unfold mouthDelete
    rw [if_neg (by simp), isMouth_total (h.inv.pts c hc), decide_eq_true ha]
    simp only [exc_bind_ok]
    refine ⟨true, rfl, ?_⟩
    simp only [if_true, exc_bind_ok, exc_pure_ok]
    refine ⟨_, hrem, _, ht', (insertSet y (insertSet x (s.candidates.filter (· ≠ c))), b2), ?_, hs'.symm⟩
    rw [hB.neighbours hc, ← hx, ← hy]
    simp only [List.foldlM_cons, List.foldlM_nil, exc_bind_ok, exc_pure_ok]
    exact ⟨_, ⟨b1, p1, rfl⟩, _, ⟨b2, q1, rfl⟩, rfl⟩
  refine ⟨s', _, _, hrun, ⟨h.inv.del hc hcv hrun, ?_, ?_, ?_, ?_⟩, ?_, ?_⟩
  · rw [hs']; exact hfree
  · rw [hs']; exact q2
  · rw [hs']; exact q3
  · intro z hz
    rw [hs'] at hz ⊢
    dsimp only at hz ⊢
    rw [mem_insertSet, mem_insertSet]
    rcases q4 z hz with hz | hz
    · exact .inl hz
    · rcases p4 z hz with hz | hz
      · exact .inr (.inl hz)
      · refine .inr (.inr (List.mem_filter.2 ⟨h.sub z hz, ?_⟩))
        have : z ≠ c := fun hh => hcv (hh ▸ hz)
        simpa using this
  · rw [hs']
    exact missing_insert (hB.mem (hB.opp (hB.next De))) ha
  · rw [hs']
    dsimp only
    have l1 := insertSet_length y (insertSet x (s.candidates.filter (· ≠ c)))
    have l2 := insertSet_length x (s.candidates.filter (· ≠ c))
    have l3 : (s.candidates.filter (· ≠ c)).length < s.candidates.length :=
      List.length_filter_lt_length_iff_exists.2 ⟨c, hcc, by simp⟩
    omega

/-! ## The loop -/

theorem targetIncrement_cases {b : Buckets K} (hl : b.length = 5)
    (he : ∀ i, i < 1 ∨ 2 < i → b.getD i [] = []) {left : Int} (hp : 0 < left) :
    (targetIncrement b 1 left = none) ∨
      (targetIncrement b 1 left = some 0 ∧ b.getD 1 [] ≠ [] ∧ b.getD 2 [] = []) ∨
      (targetIncrement b 1 left = some 1 ∧ b.getD 2 [] ≠ []) := by
  unfold targetIncrement
  rw [hl]
  have h3 := he 3 (by omega)
  have h4 := he 4 (by omega)
  have hp0 : 0 ≤ left := hp.le
  have hp1 : 1 ≤ left := hp
  rw [List.getD_eq_getElem?_getD] at h3 h4
  rw [List.getD_eq_getElem?_getD, List.getD_eq_getElem?_getD]
  by_cases h1 : b[1]?.getD [] = []
  · by_cases h2 : b[2]?.getD [] = []
    · left; simp [List.range_succ, h1, h2, h3, h4]
    · right; right
      refine ⟨?_, h2⟩
      simp [List.range_succ, h1, h2, h3, h4, hp1]
  · by_cases h2 : b[2]?.getD [] = []
    · right; left
      refine ⟨?_, h1, h2⟩
      simp [List.range_succ, h1, h2, h3, h4, hp0]
    · right; right
      refine ⟨?_, h2⟩
      simp [List.range_succ, h1, h2, h3, h4, hp0, hp1]

theorem MT.refill {inner : Nat} (hN : NoThree P) (hf : P.length * P.length ≤ inner) {s : MouthState K}
    (h : MT P s D B) : ∃ b, toMouthsIncrements inner s.mesh (o.order s.candidates) = .ok b ∧
      MT P { s with buckets := b } D B ∧
      ((∃ c ∈ s.candidates, apex s.mesh c ∉ s.boundaryPoints) → b.getD 2 [] ≠ []) := by
  have hB := h.inv.bord
  obtain ⟨b, h1, h2, h3, h4, h5⟩ := hB.net.fill_total hf (f := fun e => mouthToIncrement s.mesh e + 1)
    (o.order s.candidates) (b := List.replicate 5 [])
    (fun c hc => hB.bd c (h.inv.cand c (o.mem.1 hc))) (lo := 1) (hi := 2)
    (by omega) (fun c hc => by
      have := hB.inc_free hN h.free (h.inv.cand c (o.mem.1 hc))
      omega) rfl
  have e0 : Buckets.vals (List.replicate 5 ([] : KeyedSet K)) = [] := by
    simp [Buckets.vals, KeyedSet.vals, List.replicate]
  refine ⟨b, h1, ⟨⟨hB, h.inv.head, h.inv.pts, h.inv.cand, h.inv.candNodup,
    BOk.mouths (fun c hc => h.inv.cand c (o.mem.1 hc)) ((o.perm _).nodup_iff.2 h.inv.candNodup) h1⟩, h.free, h2, fun i hi => ?_, fun c hc => ?_⟩, ?_⟩
  · dsimp only
    rw [h3 i hi, List.getD_eq_getElem?_getD, List.getElem?_replicate]
    split <;> rfl
  · rcases h5 c hc with hc | hc
    · exact o.mem.1 hc
    · rw [e0] at hc; simp at hc
  · rintro ⟨c, hc, ha⟩
    refine h4 2 (.inr ⟨c, o.mem.2 hc, ?_⟩)
    rw [hB.inc_one hN (h.inv.cand c hc) h.inv.pts ha]
    norm_num

/-- The first loop terminates without an exception. -/
theorem MT.loop_total {inner : Nat} (hN : NoThree P) (hf : P.length * P.length ≤ inner) (fuel : Nat)
    {s : MouthState K} (h : MT P s D B)
    (hfu : 4 * missing P s.boundaryPoints + 2 * s.candidates.length
      + (if s.buckets.getD 2 [] = [] then 1 else 0) < fuel) :
    ∃ s', mouthLoop o inner fuel s = .ok s' := by
  induction fuel generalizing s D B with
  | zero => omega
  | succ fuel ih =>
    unfold mouthLoop
    split
    swap
    · exact ⟨_, rfl⟩
    rename_i hleft
    rcases targetIncrement_cases h.len h.empty hleft with ht | ⟨ht, h1, h2⟩ | ⟨ht, h2⟩
    · rw [ht]
      dsimp only
      rw [h.empty 0 (by omega)]
      exact ⟨_, rfl⟩
    · rw [ht]
      dsimp only
      rw [if_pos h2] at hfu
      obtain ⟨s1, r, i1, i2, i3, i4, i5, i6, i7, i8⟩ := h.pos_total hN hf (target := 0) (.inl rfl) _ le_rfl
      rw [i1]
      rcases r with _ | ⟨c, a⟩
      · obtain ⟨b, b1, b2, b3⟩ := i2.refill (o := o) hN hf
        obtain ⟨s', hs'⟩ := ih b2 (by
          dsimp only
          rw [i3]
          rcases i8 rfl with h0 | h0 | ⟨-, c, hc, hca⟩
          · rw [List.length_eq_zero_iff] at h0; exact absurd h0 h1
          · split <;> omega
          · rcases i6 with i6 | i6
            · rw [if_neg (b3 ⟨c, by rw [i6]; exact hc, by rw [i3]; exact hca⟩)]
              omega
            · split <;> omega)
        refine ⟨s', ?_⟩
        show (toMouthsIncrements inner s1.mesh (o.order s1.candidates) >>= _) = _
        rw [b1]
        exact hs'
      · have := (i7 c a rfl).1
        omega
    · rw [ht]
      dsimp only
      rw [if_neg h2] at hfu
      obtain ⟨s1, r, i1, i2, i3, i4, i5, i6, i7, i8⟩ := h.pos_total hN hf (target := 1) (.inr rfl) _ le_rfl
      rw [i1]
      rcases r with _ | ⟨c, a⟩
      · obtain ⟨b, b1, b2, b3⟩ := i2.refill (o := o) hN hf
        obtain ⟨s', hs'⟩ := ih b2 (by
          dsimp only
          rw [i3]
          rcases i8 rfl with h0 | h0 | ⟨h0, -⟩
          · rw [List.length_eq_zero_iff] at h0; exact absurd h0 h2
          · split <;> omega
          · omega)
        refine ⟨s', ?_⟩
        show (toMouthsIncrements inner s1.mesh (o.order s1.candidates) >>= _) = _
        rw [b1]
        exact hs'
      · obtain ⟨-, rfl, hc, hcv, hcc, ha⟩ := i7 c a rfl
        obtain ⟨s2, D', B', d1, d2, d3, d4⟩ := i2.del_total hN hf hc hcv hcc ha
        rw [i3] at d3
        obtain ⟨s', hs'⟩ := ih d2 (by split <;> omega)
        refine ⟨s', ?_⟩
        show (mouthDelete inner s1 c 1 1 >>= _) = _
        rw [d1]
        exact hs'

/-- A region that is one triangle is left as it is. -/
theorem MInv.neg_total {inner : Nat} (hN : NoThree P) (n : Nat) {s : MouthState K} (h : MInv P s D B)
    (hF : ¬ Free s.mesh B) (hn : n ≤ (s.buckets.getD 0 []).length) (hl : s.buckets ≠ []) :
    ∃ s', mouthLoopNeg inner n s = .ok (s', none) := by
  induction n generalizing s with
  | zero => exact ⟨s, rfl⟩
  | succ n ih =>
    obtain ⟨c, rest, hp, hr⟩ := KeyedSet.popmax_some (s := s.buckets.getD 0 []) (by
      intro hh; rw [hh] at hn; simp at hn)
    obtain ⟨hc, hcv, h1⟩ := h.pop hp
    obtain ⟨l1, f, hf, l2⟩ := h.bord.lone hN hF hc
    unfold mouthLoopNeg
    rw [hp]
    dsimp only
    rw [if_neg (by rw [l1]; simp), isMouth_total (h.pts c hc),
      decide_eq_false (by rw [l2]; exact not_not.2 (h.pts f hf))]
    obtain ⟨s', hs'⟩ := ih h1 hF (by
      dsimp only
      have h0 : 0 < s.buckets.length := List.length_pos_of_ne_nil hl
      rw [List.getD_eq_getElem?_getD, List.getElem?_set_self h0]
      show n ≤ rest.length
      omega) (by
        dsimp only
        intro hh
        exact hl (by simpa using hh))
    exact ⟨s', hs'⟩

end HG
