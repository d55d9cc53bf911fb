import Verif.Delaunay.PolyBorder
import Verif.Delaunay.HullIn
import Verif.Delaunay.Meets

/-!
# Flipping the diagonal of a convex quadrilateral of a triangulated region
-/

set_option linter.unusedSectionVars false

namespace HG

variable {K : Type} [CommRing K] [LinearOrder K] [IsStrictOrderedRing K]
variable {P : List (Point K)} {m : Mesh K} {D : Ref → Prop} {t : Tri} {B : List Ref} {e : Ref}

theorem lfe_rfs (m : Mesh K) (e : Ref) : m.lfe e = m.rfs e.opp := by
  unfold Mesh.lfe Mesh.rfs
  have : e.rot.opp = e.opp.rot := by
    rcases e with ⟨q, r⟩
    simp only [Ref.rot, Ref.opp]
  rw [this]

/-- A segment that crosses a side of a triangle and no other side ends in the opposite vertex. -/
theorem exit_apex {d c a h h' : Point K} (T : 0 < cross d c a) (hx : cross d a h < 0)
    (X : Crossing d a h h') (n1 : ¬ Crossing c a h h') (n2 : ¬ Crossing d c h h')
    (n3 : ¬ Inside h h' c)
    (emp : 0 ≤ cross d c h → 0 ≤ cross c a h → 0 ≤ cross a d h → h = d ∨ h = c ∨ h = a) : h = c := by
  obtain ⟨X1, X2⟩ := X
  have hx' : 0 < cross d a h' := by
    by_contra hc
    have := mul_nonneg_of_nonpos_of_nonpos hx.le (not_lt.1 hc)
    linarith
  have dif : cross d a h' - cross d a h = cross h h' d - cross h h' a := by unfold cross; ring
  have hD : 0 < cross h h' d := by
    by_contra hc
    have h1 : cross h h' a ≤ 0 := by linarith
    have := mul_nonneg_of_nonpos_of_nonpos (not_lt.1 hc) h1
    linarith
  have hA : cross h h' a < 0 := by
    by_contra hc
    have := mul_nonneg hD.le (not_lt.1 hc)
    linarith
  have xs : cross a d h = - cross d a h := by unfold cross; ring
  have xs' : cross a d h' = - cross d a h' := by unfold cross; ring
  have bary : cross c a h * cross h h' d + cross a d h * cross h h' c + cross d c h * cross h h' a = 0 := by
    unfold cross; ring
  have bary' : cross c a h' * cross h h' d + cross a d h' * cross h h' c + cross d c h' * cross h h' a = 0 := by
    unfold cross; ring
  have sum : cross c a h + cross a d h + cross d c h = cross d c a := by unfold cross; ring
  have mA : cross a d h * cross c a h' - cross a d h' * cross c a h = - (cross d c a * cross h h' a) := by
    unfold cross; ring
  have mD : cross a d h * cross d c h' - cross a d h' * cross d c h = cross d c a * cross h h' d := by
    unfold cross; ring
  have tA : 0 < - (cross d c a * cross h h' a) := by have := mul_neg_of_pos_of_neg T hA; linarith
  have tD := mul_pos T hD
  have pf : cross c a h < 0 → 0 < cross c a h' := by
    intro hf
    by_contra hc
    have l1 := mul_nonneg (show 0 ≤ - cross d a h by linarith) (show 0 ≤ - cross c a h' by linarith)
    have l2 := mul_pos hx' (show 0 < - cross c a h by linarith)
    rw [xs, xs'] at mA
    linarith
  have pg : cross d c h < 0 → 0 < cross d c h' := by
    intro hf
    by_contra hc
    have l1 := mul_nonneg (show 0 ≤ - cross d a h by linarith) (show 0 ≤ - cross d c h' by linarith)
    have l2 := mul_pos hx' (show 0 < - cross d c h by linarith)
    rw [xs, xs'] at mD
    linarith
  have hda : h ≠ d := by rintro rfl; simp at hx
  have haa : h ≠ a := by rintro rfl; simp at hx
  by_contra hne
  have out : cross d c h < 0 ∨ cross c a h < 0 := by
    by_contra hc
    push Not at hc
    rcases emp hc.1 hc.2 (by rw [xs]; linarith) with h1 | h1 | h1
    · exact hda h1
    · exact hne h1
    · exact haa h1
  rcases lt_trichotomy (cross h h' c) 0 with hC | hC | hC
  · -- the segment leaves through `d c`
    have hg : cross d c h < 0 := by
      by_contra hc
      have hf := out.resolve_left hc
      have l1 := mul_pos (show 0 < - cross c a h by linarith) hD
      have l2 := mul_pos (show 0 < cross a d h by rw [xs]; linarith) (show 0 < - cross h h' c by linarith)
      have l3 := mul_nonneg (not_lt.1 hc) (show 0 ≤ - cross h h' a by linarith)
      linarith
    exact n2 ⟨mul_neg_of_neg_of_pos hg (pg hg), mul_neg_of_pos_of_neg hD hC⟩
  · rw [hC] at bary bary'
    have key : cross c a h < 0 ∧ cross d c h < 0 := by
      rcases out with hg | hf
      · refine ⟨?_, hg⟩
        by_contra hc
        have l1 := mul_nonneg (not_lt.1 hc) hD.le
        have l2 := mul_pos (show 0 < - cross d c h by linarith) (show 0 < - cross h h' a by linarith)
        linarith
      · refine ⟨hf, ?_⟩
        by_contra hc
        have l1 := mul_pos (show 0 < - cross c a h by linarith) hD
        have l2 := mul_nonneg (not_lt.1 hc) (show 0 ≤ - cross h h' a by linarith)
        linarith
    have hp := pf key.1
    have par : cross c a h' * cross d c h = cross c a h * cross d c h' := by
      have : cross h h' d * (cross c a h' * cross d c h - cross c a h * cross d c h') = 0 := by
        linear_combination cross d c h * bary' - cross d c h' * bary
      have := (mul_eq_zero.1 this).resolve_left hD.ne'
      linarith
    have vx : cross c a h' * (h.x - c.x) = cross c a h * (h'.x - c.x) := by
      have e1 : cross d c a * (h.x - c.x) = cross c a h * (d.x - c.x) + cross d c h * (a.x - c.x) := by
        unfold cross; ring
      have e2 : cross d c a * (h'.x - c.x) = cross c a h' * (d.x - c.x) + cross d c h' * (a.x - c.x) := by
        unfold cross; ring
      refine mul_left_cancel₀ T.ne' ?_
      linear_combination cross c a h' * e1 - cross c a h * e2 + (a.x - c.x) * par
    have vy : cross c a h' * (h.y - c.y) = cross c a h * (h'.y - c.y) := by
      have e1 : cross d c a * (h.y - c.y) = cross c a h * (d.y - c.y) + cross d c h * (a.y - c.y) := by
        unfold cross; ring
      have e2 : cross d c a * (h'.y - c.y) = cross c a h' * (d.y - c.y) + cross d c h' * (a.y - c.y) := by
        unfold cross; ring
      refine mul_left_cancel₀ T.ne' ?_
      linear_combination cross c a h' * e1 - cross c a h * e2 + (a.y - c.y) * par
    refine n3 ⟨hC, ?_⟩
    have hsq : 0 < (h'.x - c.x) * (h'.x - c.x) + (h'.y - c.y) * (h'.y - c.y) := by
      rcases eq_or_ne h'.x c.x with h1 | h1
      · rcases eq_or_ne h'.y c.y with h2 | h2
        · exfalso
          unfold cross at hp
          rw [h1, h2] at hp
          simp at hp
        · have := mul_self_pos.2 (sub_ne_zero.2 h2)
          have := mul_self_nonneg (h'.x - c.x)
          linarith
      · have := mul_self_pos.2 (sub_ne_zero.2 h1)
        have := mul_self_nonneg (h'.y - c.y)
        linarith
    have : cross c a h' * ((h.x - c.x) * (h'.x - c.x) + (h.y - c.y) * (h'.y - c.y)) < 0 := by
      have e : cross c a h' * ((h.x - c.x) * (h'.x - c.x) + (h.y - c.y) * (h'.y - c.y))
          = cross c a h * ((h'.x - c.x) * (h'.x - c.x) + (h'.y - c.y) * (h'.y - c.y)) := by
        linear_combination (h'.x - c.x) * vx + (h'.y - c.y) * vy
      rw [e]
      exact mul_neg_of_neg_of_pos key.1 hsq
    by_contra hc
    have := mul_nonneg hp.le (not_lt.1 hc)
    linarith
  · have hf : cross c a h < 0 := by
      by_contra hc
      have hg := out.resolve_right hc
      have l1 := mul_nonneg (not_lt.1 hc) hD.le
      have l2 := mul_pos (show 0 < cross a d h by rw [xs]; linarith) hC
      have l3 := mul_pos (show 0 < - cross d c h by linarith) (show 0 < - cross h h' a by linarith)
      linarith
    exact n1 ⟨mul_neg_of_neg_of_pos hf (pf hf), mul_neg_of_pos_of_neg hC hA⟩

/-- `next` after a flip of the edge `e` between the triangles `e, x.opp, y.opp` and
`e.opp, z.opp, w.opp`. -/
theorem flip_next (h : m.WF) {x y z w : Ref} (he : m.Edge e) (hx : m.next e = x)
    (hy : m.next x.opp = y) (hz : m.next e.opp = z) (hw : m.next z.opp = w)
    (hyo : m.next y.opp = e.opp) (hwo : m.next w.opp = e)
    (nd : [e, e.opp, x.opp, y.opp, z.opp, w.opp].Nodup) {u : Ref} (hu : m.Edge u) :
    (m.flip e).next u = if u = w.opp then x else if u = e then w else if u = y.opp then z
      else if u = e.opp then y else if u = z.opp then e else if u = x.opp then e.opp
      else m.next u := by
  simp only [List.nodup_cons, List.mem_cons, List.not_mem_nil, not_or, or_false, not_false_eq_true,
    List.nodup_nil, and_true] at nd
  obtain ⟨⟨a1, a2, a3, a4, a5⟩, ⟨b2, b3, b4, b5⟩, ⟨c3, c4, c5⟩, ⟨d4, d5⟩, g5⟩ := nd
  have ex : m.Edge x := hx ▸ next_edge h he
  have ey : m.Edge y := hy ▸ next_edge h ex.opp
  have ez : m.Edge z := hz ▸ next_edge h he.opp
  have ew : m.Edge w := hw ▸ next_edge h ez.opp
  have s1 : m.rfs e = w.opp := ((eq_rfs_iff h he ew.opp).2 hwo).symm
  have s2 : m.rfs e.opp = y.opp := ((eq_rfs_iff h he.opp ey.opp).2 hyo).symm
  obtain ⟨m1, hm1⟩ : ∃ m1, m1 = m.splice e w.opp := ⟨_, rfl⟩
  have w1 : m1.WF := hm1 ▸ h.splice ⟨he.alloc, ew.opp.alloc, by rw [he.primal, ew.opp.primal]⟩
  have E1 : ∀ {v}, m1.Edge v ↔ m.Edge v := by
    intro v; rw [hm1]; exact ⟨fun h => ⟨h.alloc, h.primal⟩, fun h => ⟨h.alloc, h.primal⟩⟩
  have N1 : ∀ {v}, m.Edge v → m1.next v = if v = w.opp then x else if v = e then e else m.next v := by
    intro v hv
    rw [hm1, splice_next_primal h he ew.opp hv, hx, hwo]
  obtain ⟨m2, hm2⟩ : ∃ m2, m2 = m1.splice e.opp y.opp := ⟨_, rfl⟩
  have w2 : m2.WF := hm2 ▸ w1.splice ⟨(E1.2 he.opp).alloc, (E1.2 ey.opp).alloc, by
    rw [he.opp.primal, ey.opp.primal]⟩
  have E2 : ∀ {v}, m2.Edge v ↔ m.Edge v := by
    intro v; rw [hm2, ← E1]; exact ⟨fun h => ⟨h.alloc, h.primal⟩, fun h => ⟨h.alloc, h.primal⟩⟩
  have N2 : ∀ {v}, m.Edge v → m2.next v = if v = y.opp then z else if v = e.opp then e.opp
      else if v = w.opp then x else if v = e then e else m.next v := by
    intro v hv
    rw [hm2, splice_next_primal w1 (E1.2 he.opp) (E1.2 ey.opp) (E1.2 hv), N1 he.opp, N1 ey.opp,
      N1 hv, if_neg b5, if_neg (Ne.symm a1), if_neg d5, if_neg (Ne.symm a3), hyo, hz]
  have s3 : m2.lfe w.opp = z.opp := by
    rw [lfe_rfs, Ref.opp_opp]
    refine ((eq_rfs_iff w2 (E2.2 ew) (E2.2 ez.opp)).2 ?_).symm
    rw [N2 ez.opp, if_neg (Ne.symm d4), if_neg (Ne.symm b4), if_neg g5, if_neg (Ne.symm a4), hw]
  obtain ⟨m3, hm3⟩ : ∃ m3, m3 = m2.splice e z.opp := ⟨_, rfl⟩
  have w3 : m3.WF := hm3 ▸ w2.splice ⟨(E2.2 he).alloc, (E2.2 ez.opp).alloc, by
    rw [he.primal, ez.opp.primal]⟩
  have E3 : ∀ {v}, m3.Edge v ↔ m.Edge v := by
    intro v; rw [hm3, ← E2]; exact ⟨fun h => ⟨h.alloc, h.primal⟩, fun h => ⟨h.alloc, h.primal⟩⟩
  have N3 : ∀ {v}, m.Edge v → m3.next v = if v = z.opp then e else if v = e then w
      else if v = y.opp then z else if v = e.opp then e.opp
      else if v = w.opp then x else m.next v := by
    intro v hv
    rw [hm3, splice_next_primal w2 (E2.2 he) (E2.2 ez.opp) (E2.2 hv), N2 he, N2 ez.opp, N2 hv,
      if_neg a3, if_neg a1, if_neg a5, if_pos rfl, if_neg (Ne.symm d4), if_neg (Ne.symm b4),
      if_neg g5, if_neg (Ne.symm a4), hw]
    split_ifs <;> rfl
  have s4 : m3.lfe y.opp = x.opp := by
    rw [lfe_rfs, Ref.opp_opp]
    refine ((eq_rfs_iff w3 (E3.2 ey) (E3.2 ex.opp)).2 ?_).symm
    rw [N3 ex.opp, if_neg c4, if_neg (Ne.symm a2), if_neg c3, if_neg (Ne.symm b2), if_neg c5, hy]
  have : (m.flip e).next u = (m3.splice e.opp x.opp).next u := by
    unfold Mesh.flip
    simp only [s1, s2, ← hm1, ← hm2, s3, ← hm3, s4]
  rw [this, splice_next_primal w3 (E3.2 he.opp) (E3.2 ex.opp) (E3.2 hu), N3 he.opp, N3 ex.opp, N3 hu,
    if_neg b4, if_neg (Ne.symm a1), if_neg b3, if_pos rfl, if_neg c4, if_neg (Ne.symm a2), if_neg c3,
    if_neg (Ne.symm b2), if_neg c5, hy]
  split_ifs <;> simp_all

theorem flip_org (h : m.WF) {x y z w : Ref} (he : m.Edge e) (hx : m.next e = x)
    (hy : m.next x.opp = y) (hz : m.next e.opp = z) (hw : m.next z.opp = w)
    (hyo : m.next y.opp = e.opp) (hwo : m.next w.opp = e) (hye : y ≠ e) {u : Ref} :
    (m.flip e).org u = if u = e.opp then m.org y else if u = e then m.org w else m.org u := by
  have ex : m.Edge x := hx ▸ next_edge h he
  have ey : m.Edge y := hy ▸ next_edge h ex.opp
  have ez : m.Edge z := hz ▸ next_edge h he.opp
  have ew : m.Edge w := hw ▸ next_edge h ez.opp
  have s1 : m.rfs e = w.opp := ((eq_rfs_iff h he ew.opp).2 hwo).symm
  have s2 : m.rfs e.opp = y.opp := ((eq_rfs_iff h he.opp ey.opp).2 hyo).symm
  unfold Mesh.flip
  simp only [s1, s2, updRef, Mesh.stop, splice_org, Ref.opp_opp, if_neg hye]

theorem in_quad {a b c d p : Point K} (T : 0 < cross d c a) (h1 : 0 < cross a b d)
    (h2 : 0 < cross a b c) (p2 : 0 ≤ cross c a p) (p3 : 0 ≤ cross a d p) :
    0 ≤ cross a b p := by
  have e : cross d c a * cross a b p = cross c a p * cross a b d + cross a d p * cross a b c := by
    unfold cross; ring
  by_contra hc
  have l1 := mul_neg_of_pos_of_neg T (not_le.1 hc)
  have l2 := mul_nonneg p2 h1.le
  have l3 := mul_nonneg p3 h2.le
  linarith

theorem convexQuad {x y z w : Ref} (h : m.WF) (he : m.Edge e) (hx : m.next e = x)
    (hy : m.next x.opp = y) (hz : m.next e.opp = z) (hw : m.next z.opp = w)
    (hwo : m.next w.opp = e)
    (hq : isConvexQuadDiagonal m e = true) :
    0 < cross (m.org z.opp) (m.org z) (m.org x.opp) ∧
      0 < cross (m.org x.opp) (m.org x) (m.org w) := by
  have ex : m.Edge x := hx ▸ next_edge h he
  have ey : m.Edge y := hy ▸ next_edge h ex.opp
  have ez : m.Edge z := hz ▸ next_edge h he.opp
  have ew : m.Edge w := hw ▸ next_edge h ez.opp
  have s1 : m.rfs e = w.opp := ((eq_rfs_iff h he ew.opp).2 hwo).symm
  unfold isConvexQuadDiagonal at hq
  simp only [Bool.and_eq_true] at hq
  obtain ⟨⟨⟨-, q2⟩, -⟩, q4⟩ := hq
  unfold isCcw at q2 q4
  rw [decide_eq_true_eq] at q2 q4
  unfold Mesh.orientationOf Mesh.start Mesh.stop at q2 q4
  rw [orient_ccw_iff] at q2 q4
  unfold Mesh.rfe Mesh.lfs at q2
  unfold Mesh.lfs at q4
  rw [hz, Ref.opp_opp, hx] at q2
  rw [hx, s1, Ref.opp_opp, Ref.opp_opp] at q4
  exact ⟨q2, q4⟩

set_option maxHeartbeats 1000000 in
/-- Flipping the diagonal of a convex quadrilateral keeps the triangulated region. -/
theorem Bord.flip (h : Bord P m D B) (De : D e) (he : e ∉ B) (ho : e.opp ∉ B)
    (hq : isConvexQuadDiagonal m e = true) : Bord P (m.flip e) D B := by
  have Deo := h.opp De
  have T := (h.face De).resolve_left ho
  have T' := (h.face Deo).resolve_left (by rw [Ref.opp_opp]; exact he)
  obtain ⟨x, hx⟩ : ∃ x, m.next e = x := ⟨_, rfl⟩
  obtain ⟨y, hy⟩ : ∃ y, m.next x.opp = y := ⟨_, rfl⟩
  obtain ⟨z, hz⟩ : ∃ z, m.next e.opp = z := ⟨_, rfl⟩
  obtain ⟨w, hw⟩ : ∃ w, m.next z.opp = w := ⟨_, rfl⟩
  have Dx : D x := hx ▸ h.next De
  have Dxo := h.opp Dx
  have Dy : D y := hy ▸ h.next Dxo
  have Dyo := h.opp Dy
  have Dz : D z := hz ▸ h.next Deo
  have Dzo := h.opp Dz
  have Dw : D w := hw ▸ h.next Dzo
  have Dwo := h.opp Dw
  have l1 : m.lf e = x.opp := by rw [← hx]; rfl
  have l2 : m.lf x.opp = y.opp := by rw [← hy]; rfl
  have l3 : m.lf y.opp = e := by rw [← l2, ← l1]; exact T.three
  have k1 : m.lf e.opp = z.opp := by rw [← hz]; rfl
  have k2 : m.lf z.opp = w.opp := by rw [← hw]; rfl
  have k3 : m.lf w.opp = e.opp := by rw [← k2, ← k1]; exact T'.three
  have hyo : m.next y.opp = e.opp := by
    have := congrArg Ref.opp l3
    unfold Mesh.lf at this
    rwa [Ref.opp_opp] at this
  have hwo : m.next w.opp = e := by
    have := congrArg Ref.opp k3
    unfold Mesh.lf at this
    rwa [Ref.opp_opp, Ref.opp_opp] at this
  obtain ⟨q2, q4⟩ := convexQuad h.wf (h.edge De) hx hy hz hw hwo hq
  -- the points
  have T0 := T.pos
  have T0' := T'.pos
  have emp := T.empty
  have emp' := T'.empty
  rw [hx] at T0 emp
  rw [hz, Ref.opp_opp] at T0' emp'
  obtain ⟨a, ha⟩ : ∃ a, m.org x.opp = a := ⟨_, rfl⟩
  obtain ⟨b, hb⟩ : ∃ b, m.org e = b := ⟨_, rfl⟩
  obtain ⟨c, hc⟩ : ∃ c, m.org e.opp = c := ⟨_, rfl⟩
  obtain ⟨d, hd⟩ : ∃ d, m.org z.opp = d := ⟨_, rfl⟩
  have ox : m.org x = b := by rw [← hx, h.org De, hb]
  have oy : m.org y = a := by rw [← hy, h.org Dxo, ha]
  have oz : m.org z = c := by rw [← hz, h.org Deo, hc]
  have ow : m.org w = d := by rw [← hw, h.org Dzo, hd]
  have oyo : m.org y.opp = c := by rw [← h.org Dyo, hyo, hc]
  have owo : m.org w.opp = b := by rw [← h.org Dwo, hwo, hb]
  rw [ha, hb, hc] at T0 emp
  rw [hb, hc, hd] at T0' emp'
  rw [hd, oz, ha] at q2
  rw [ha, ox, ow] at q4
  have ca : ∀ u v r : Point K, cross v u r = - cross u v r := fun u v r => by unfold cross; ring
  have cr : ∀ u v r : Point K, cross v r u = cross u v r := fun u v r => by unfold cross; ring
  have nab : a ≠ b := by rintro rfl; simp at T0
  have nac : a ≠ c := by rintro rfl; simp at T0
  have nbc : b ≠ c := by rintro rfl; simp at T0
  have nad : a ≠ d := by rintro rfl; simp at q2
  have nbd : b ≠ d := by rintro rfl; simp at T0'
  have ncd : c ≠ d := by rintro rfl; simp at T0'
  have nd : [e, e.opp, x.opp, y.opp, z.opp, w.opp].Nodup := by
    have f : ∀ {u v : Ref}, m.org u ≠ m.org v → u ≠ v := fun h1 h2 => h1 (by rw [h2])
    have f' : ∀ {u v : Ref}, m.org u.opp ≠ m.org v.opp → u ≠ v := fun h1 h2 => h1 (by rw [h2])
    simp only [List.nodup_cons, List.mem_cons, List.not_mem_nil, not_or, or_false,
      not_false_eq_true, List.nodup_nil, and_true]
    refine ⟨⟨f ?_, f ?_, f ?_, f ?_, f' ?_⟩, ⟨f ?_, f' ?_, f ?_, f ?_⟩, ⟨f ?_, f ?_, f ?_⟩, ⟨f ?_, f ?_⟩, f ?_⟩ <;>
      simp only [ha, hb, hc, hd, oy, ow, oyo, owo, Ref.opp_opp] <;>
      first | assumption | (apply Ne.symm; assumption)
  have nx : ∀ {u}, D u → (m.flip e).next u = if u = w.opp then x else if u = e then w else if u = y.opp then z
      else if u = e.opp then y else if u = z.opp then e else if u = x.opp then e.opp
      else m.next u := fun hu => flip_next h.wf (h.edge De) hx hy hz hw hyo hwo nd (h.edge hu)
  have hye : y ≠ e := by rintro rfl; exact nab (by rw [← oy, hb])
  have og : ∀ u, (m.flip e).org u = if u = e.opp then a else if u = e then d else m.org u := by
    intro u
    rw [flip_org h.wf (h.edge De) hx hy hz hw hyo hwo hye, oy, ow]
  simp only [List.nodup_cons, List.mem_cons, List.not_mem_nil, not_or, or_false, not_false_eq_true,
    List.nodup_nil, and_true] at nd
  obtain ⟨⟨a1, a2, a3, a4, a5⟩, ⟨b2, b3, b4, b5⟩, ⟨c3, c4, c5⟩, ⟨d4, d5⟩, g5⟩ := nd
  have oE : (m.flip e).org e = d := by rw [og, if_neg a1, if_pos rfl]
  have oEo : (m.flip e).org e.opp = a := by rw [og, if_pos rfl]
  have oO : ∀ {u}, u ≠ e → u ≠ e.opp → (m.flip e).org u = m.org u := by
    intro u h1 h2; rw [og, if_neg h2, if_neg h1]
  have oO' : ∀ {u : Ref}, u ≠ e → u ≠ e.opp → (m.flip e).org u.opp = m.org u.opp := by
    intro u h1 h2
    exact oO (fun hh => h2 (by rw [← hh, Ref.opp_opp])) (fun hh => h1 (opp_inj hh))
  -- the new triangles
  have E1 : ∀ p ∈ P, 0 ≤ cross d c p → 0 ≤ cross c a p → 0 ≤ cross a d p → p = d ∨ p = c ∨ p = a := by
    intro p hp p1 p2 p3
    rcases le_total 0 (cross b c p) with hs | hs
    · rcases emp p hp hs p2 (in_quad q2 q4 (by rw [← cr]; exact T0) p2 p3) with r | r | r
      · exfalso
        rw [r] at p3
        have : cross a d b = - cross a b d := by unfold cross; ring
        linarith
      · exact .inr (.inl r)
      · exact .inr (.inr r)
    · have : 0 ≤ cross b d p := by
        have e : cross d c a * cross b d p = cross c a p * cross b d d + cross a d p * cross b d c
            + cross d c p * cross b d a := by unfold cross; ring
        have e1 : cross b d d = 0 := by simp
        have e2 : cross b d c = cross c b d := by unfold cross; ring
        have e3 : cross b d a = cross a b d := by unfold cross; ring
        rw [e1, e2, e3] at e
        by_contra hc
        have l1 := mul_neg_of_pos_of_neg q2 (not_le.1 hc)
        have l2 := mul_nonneg p3 T0'.le
        have l3 := mul_nonneg p1 q4.le
        linarith
      rcases emp' p hp (by rw [ca]; linarith) this p1 with r | r | r
      · exact .inr (.inl r)
      · exfalso
        rw [r] at p3
        have : cross a d b = - cross a b d := by unfold cross; ring
        linarith
      · exact .inl r
  have E2 : ∀ p ∈ P, 0 ≤ cross a b p → 0 ≤ cross b d p → 0 ≤ cross d a p → p = a ∨ p = b ∨ p = d := by
    intro p hp p1 p2 p3
    rcases le_total 0 (cross b c p) with hs | hs
    · have : 0 ≤ cross c a p := by
        have e : cross a b d * cross c a p = cross b d p * cross c a a + cross d a p * cross c a b
            + cross a b p * cross c a d := by unfold cross; ring
        have e1 : cross c a a = 0 := by simp
        have e2 : cross c a b = cross b c a := by unfold cross; ring
        have e3 : cross c a d = cross d c a := by unfold cross; ring
        rw [e1, e2, e3] at e
        by_contra hc
        have l1 := mul_neg_of_pos_of_neg q4 (not_le.1 hc)
        have l2 := mul_nonneg p3 T0.le
        have l3 := mul_nonneg p1 q2.le
        linarith
      rcases emp p hp hs this p1 with r | r | r
      · exact .inr (.inl r)
      · exfalso
        rw [r] at p3
        have : cross d a c = - cross d c a := by unfold cross; ring
        linarith
      · exact .inl r
    · have : 0 ≤ cross d c p := by
        have e : cross a b d * cross d c p = cross b d p * cross d c a + cross d a p * cross d c b
            + cross a b p * cross d c d := by unfold cross; ring
        have e1 : cross d c d = 0 := by simp
        have e2 : cross d c b = cross c b d := by unfold cross; ring
        rw [e1, e2] at e
        by_contra hc
        have l1 := mul_neg_of_pos_of_neg q4 (not_le.1 hc)
        have l2 := mul_nonneg p3 T0'.le
        have l3 := mul_nonneg p2 q2.le
        linarith
      rcases emp' p hp (by rw [ca]; linarith) p2 this with r | r | r
      · exfalso
        rw [r] at p3
        have : cross d a c = - cross d c a := by unfold cross; ring
        linarith
      · exact .inr (.inl r)
      · exact .inr (.inr r)
  -- no other edge crosses the new diagonal
  have nc1 : ∀ {f}, D f → f ≠ e → f ≠ e.opp → cross d a (m.org f) < 0 →
      ¬ Crossing d a (m.org f) (m.org f.opp) := by
    intro f Df f1 f2 hs X
    have r1 : m.org f = c := by
      refine exit_apex q2 hs X ?_ ?_ (h.nomid Df (hc ▸ h.mem Deo)) (E1 _ (h.mem Df))
      · have := h.nocross Dyo Df
        rwa [Ref.opp_opp, oyo, oy] at this
      · have := h.nocross Dzo Df
        rwa [Ref.opp_opp, hd, oz] at this
    have r2 : m.org f.opp = b := by
      have Dfo := h.opp Df
      have X' : Crossing a d (m.org f.opp) (m.org f) := by
        obtain ⟨x1, x2⟩ := X
        unfold Crossing
        constructor
        · rw [ca d a, ca d a]; linarith
        · rw [ca (m.org f), ca (m.org f)]; linarith
      have hs' : cross a d (m.org f.opp) < 0 := by
        rw [ca]
        by_contra hc
        have := mul_nonneg_of_nonpos_of_nonpos hs.le (show cross d a (m.org f.opp) ≤ 0 by linarith)
        linarith [X.1]
      refine exit_apex q4 hs' X' ?_ ?_ ?_ (E2 _ (h.mem Dfo))
      · have := h.nocross Dwo Dfo
        rwa [Ref.opp_opp, owo, ow, Ref.opp_opp] at this
      · have := h.nocross Dxo Dfo
        rwa [Ref.opp_opp, ha, ox, Ref.opp_opp] at this
      · have := h.nomid Dfo (hb ▸ h.mem De)
        rwa [Ref.opp_opp] at this
    exact f2 (h.simple Df Deo (by rw [r1, hc]) (by rw [Ref.opp_opp, r2, hb]))
  have nc : ∀ {f}, D f → f ≠ e → f ≠ e.opp → ¬ Crossing d a (m.org f) (m.org f.opp) := by
    intro f Df f1 f2 X
    rcases lt_trichotomy (cross d a (m.org f)) 0 with hs | hs | hs
    · exact nc1 Df f1 f2 hs X
    · have := X.1
      rw [hs, zero_mul] at this
      exact lt_irrefl _ this
    · have hs' : cross d a (m.org f.opp) < 0 := by
        by_contra hc
        have := mul_nonneg hs.le (not_lt.1 hc)
        linarith [X.1]
      refine nc1 (h.opp Df) (fun hh => f2 (by rw [← hh, Ref.opp_opp])) (fun hh => f1 (opp_inj hh)) hs' ?_
      rw [Ref.opp_opp]
      obtain ⟨x1, x2⟩ := X
      unfold Crossing
      constructor
      · linarith
      · rw [ca (m.org f), ca (m.org f)]; linarith
  have swapX : ∀ {p q r s : Point K}, Crossing p q r s → Crossing q p r s := by
    intro p q r s X
    obtain ⟨x1, x2⟩ := X
    unfold Crossing
    constructor
    · rw [ca p q, ca p q]; linarith
    · linarith
  have symX : ∀ {p q r s : Point K}, Crossing p q r s → Crossing r s p q := fun X => ⟨X.2, X.1⟩
  have selfX : ∀ {p q r : Point K}, ¬ Crossing p q p r := by
    intro p q r X
    have := X.1
    simp at this
  have selfX' : ∀ {p q r : Point K}, ¬ Crossing p q q r := by
    intro p q r X
    have := X.1
    simp at this
  have noDiag : ∀ {f}, D f → m.org f = d → m.org f.opp ≠ a := by
    intro f Df o1 o2
    apply h.nocross De Df
    rw [hb, hc, o1, o2]
    constructor
    · have : cross b c d = - cross c b d := by unfold cross; ring
      rw [this]
      exact mul_neg_of_neg_of_pos (by linarith) T0
    · have e1 : cross d a b = cross a b d := by unfold cross; ring
      have e2 : cross d a c = - cross d c a := by unfold cross; ring
      rw [e1, e2]
      exact mul_neg_of_pos_of_neg q4 (by linarith)
  have mid : ∀ p ∈ P, ¬ Inside d a p := by
    intro p hp hi
    obtain ⟨s, t, hs, ht, hst, e1, e2⟩ := onSeg_combination (inside_onSeg hi)
    have p3 : 0 ≤ cross a d p := by rw [ca, hi.1, neg_zero]
    have hne := inside_ne hi
    have p1 : 0 ≤ cross d c p := by
      have : (s + t) * cross d c p = t * cross d c a := by
        unfold cross; linear_combination (c.x - d.x) * e2 - (c.y - d.y) * e1
      by_contra hc
      have := mul_neg_of_pos_of_neg hst (not_le.1 hc)
      have := mul_nonneg ht q2.le
      linarith
    have p2 : 0 ≤ cross c a p := by
      have : (s + t) * cross c a p = s * cross d c a := by
        unfold cross; linear_combination (a.x - c.x) * e2 - (a.y - c.y) * e1
      by_contra hc
      have := mul_neg_of_pos_of_neg hst (not_le.1 hc)
      have := mul_nonneg hs q2.le
      linarith
    rcases E1 p hp p1 p2 p3 with r | r | r
    · exact hne.1 r
    · have := hi.1
      rw [r] at this
      have e2 : cross d a c = - cross d c a := by unfold cross; ring
      linarith
    · exact hne.2.1 r
  -- darts of the outer face
  have out : ∀ {u : Ref}, u.opp ∈ B → u ≠ e ∧ u ≠ x.opp ∧ u ≠ y.opp ∧ u ≠ e.opp ∧ u ≠ z.opp ∧ u ≠ w.opp := by
    intro u hu
    have u1 : u ≠ e := by rintro rfl; exact ho hu
    have u2 : u ≠ e.opp := by rintro rfl; rw [Ref.opp_opp] at hu; exact he hu
    refine ⟨u1, ?_, ?_, u2, ?_, ?_⟩
    · rintro rfl
      have := h.lf_out (h.lf_out hu)
      rw [l2, l3] at this; exact ho this
    · rintro rfl
      have := h.lf_out hu
      rw [l3] at this; exact ho this
    · rintro rfl
      have := h.lf_out (h.lf_out hu)
      rw [k2, k3, Ref.opp_opp] at this; exact he this
    · rintro rfl
      have := h.lf_out hu
      rw [k3, Ref.opp_opp] at this; exact he this
  have same : ∀ {u}, D u → u ≠ e → u ≠ x.opp → u ≠ y.opp → u ≠ e.opp → u ≠ z.opp → u ≠ w.opp →
      (m.flip e).next u = m.next u := by
    intro u hu u1 u2 u3 u4 u5 u6
    rw [nx hu, if_neg u6, if_neg u1, if_neg u3, if_neg u4, if_neg u5, if_neg u2]
  have N1 : (m.flip e).next z.opp = e := by
    rw [nx Dzo, if_neg g5, if_neg (Ne.symm a4), if_neg (Ne.symm d4), if_neg (Ne.symm b4), if_pos rfl]
  have N2 : (m.flip e).next e.opp = y := by
    rw [nx Deo, if_neg b5, if_neg (Ne.symm a1), if_neg b3, if_pos rfl]
  have N3 : (m.flip e).next y.opp = z := by
    rw [nx Dyo, if_neg d5, if_neg (Ne.symm a3), if_pos rfl]
  have N4 : (m.flip e).next x.opp = e.opp := by
    rw [nx Dxo, if_neg c5, if_neg (Ne.symm a2), if_neg c3, if_neg (Ne.symm b2), if_neg c4, if_pos rfl]
  have N5 : (m.flip e).next e = w := by
    rw [nx De, if_neg a5, if_pos rfl]
  have N6 : (m.flip e).next w.opp = x := by
    rw [nx Dwo, if_pos rfl]
  have oXo := (oO (Ne.symm a2) (Ne.symm b2)).trans ha
  have oYo := (oO (Ne.symm a3) (Ne.symm b3)).trans oyo
  have oZo := (oO (Ne.symm a4) (Ne.symm b4)).trans hd
  have oWo := (oO (Ne.symm a5) (Ne.symm b5)).trans owo
  have xe : x ≠ e ∧ x ≠ e.opp := by
    constructor
    · rintro rfl; exact nac (by rw [← ha, hc])
    · rintro rfl; exact nbc (by rw [← ox, hc])
  have ye : y ≠ e ∧ y ≠ e.opp := ⟨hye, by rintro rfl; exact nac (by rw [← oy, hc])⟩
  have ze : z ≠ e ∧ z ≠ e.opp := by
    constructor
    · rintro rfl; exact nbc (by rw [← oz, hb])
    · rintro rfl; exact nbd (by rw [← hd, Ref.opp_opp, hb])
  have we : w ≠ e ∧ w ≠ e.opp := by
    constructor
    · rintro rfl; exact nbd (by rw [← ow, hb])
    · rintro rfl; exact ncd (by rw [← ow, hc])
  have oX := (oO xe.1 xe.2).trans ox
  have oY := (oO ye.1 ye.2).trans oy
  have oZ := (oO ze.1 ze.2).trans oz
  have oW := (oO we.1 we.2).trans ow
  refine ⟨h.wf.flip (h.edge De).alloc, fun hu => ⟨by rw [flip_size]; exact (h.edge hu).alloc, (h.edge hu).primal⟩,
    fun hu => h.opp hu, ?_, ?_, ?_, ?_, ?_, ?_, ?_, ?_, h.bd, h.one, h.nonempty, ?_, ?_⟩
  · intro u hu
    rw [nx hu]
    split_ifs
    exacts [Dx, Dw, Dz, Dy, De, Deo, h.next hu]
  · intro u hu
    by_cases u6 : u = w.opp
    · rw [u6, N6, oX, oWo]
    by_cases u1 : u = e
    · rw [u1, N5, oW, oE]
    by_cases u3 : u = y.opp
    · rw [u3, N3, oZ, oYo]
    by_cases u4 : u = e.opp
    · rw [u4, N2, oY, oEo]
    by_cases u5 : u = z.opp
    · rw [u5, N1, oE, oZo]
    by_cases u2 : u = x.opp
    · rw [u2, N4, oEo, oXo]
    rw [same hu u1 u2 u3 u4 u5 u6, oO u1 u4, oO ?_ ?_, h.org hu]
    · intro hh; exact u6 (h.next_inj hu Dwo (by rw [hh, hwo]))
    · intro hh; exact u3 (h.next_inj hu Dyo (by rw [hh, hyo]))
  · intro u hu
    by_cases u1 : u = e
    · rw [u1, oE, oEo]; exact nad.symm
    by_cases u4 : u = e.opp
    · rw [u4, Ref.opp_opp, oE, oEo]; exact nad
    rw [oO u1 u4, oO' u1 u4]; exact h.ne hu
  · intro u hu
    rw [og]
    split_ifs
    · exact ha ▸ h.mem Dxo
    · exact hd ▸ h.mem Dzo
    · exact h.mem hu
  · intro u v hu hv h1 h2
    have noD' : ∀ {f}, D f → m.org f = a → m.org f.opp ≠ d := by
      intro f Df o1 o2
      exact noDiag (h.opp Df) o2 (by rw [Ref.opp_opp]; exact o1)
    by_cases u1 : u = e
    · by_cases v1 : v = e
      · rw [u1, v1]
      by_cases v4 : v = e.opp
      · rw [u1, v4, oE, oEo] at h1; exact absurd h1.symm nad
      rw [u1, oO v1 v4, oE] at h1
      rw [u1, oO' v1 v4, oEo] at h2
      exact absurd h2.symm (noDiag hv h1.symm)
    by_cases u4 : u = e.opp
    · by_cases v1 : v = e
      · rw [u4, v1, oE, oEo] at h1; exact absurd h1 nad
      by_cases v4 : v = e.opp
      · rw [u4, v4]
      rw [u4, oO v1 v4, oEo] at h1
      rw [u4, oO' v1 v4, Ref.opp_opp, oE] at h2
      exact absurd h2.symm (noD' hv h1.symm)
    rw [oO u1 u4] at h1
    rw [oO' u1 u4] at h2
    by_cases v1 : v = e
    · rw [v1, oE] at h1
      rw [v1, oEo] at h2
      exact absurd h2 (noDiag hu h1)
    by_cases v4 : v = e.opp
    · rw [v4, oEo] at h1
      rw [v4, Ref.opp_opp, oE] at h2
      exact absurd h2 (noD' hu h1)
    rw [oO v1 v4] at h1
    rw [oO' v1 v4] at h2
    exact h.simple hu hv h1 h2
  · intro u v hu hv X
    by_cases u1 : u = e
    · rw [u1, oE, oEo] at X
      by_cases v1 : v = e
      · rw [v1, oE] at X; exact selfX X
      by_cases v4 : v = e.opp
      · rw [v4, oEo] at X; exact selfX' X
      rw [oO v1 v4, oO' v1 v4] at X
      exact nc hv v1 v4 X
    by_cases u4 : u = e.opp
    · rw [u4, Ref.opp_opp, oE, oEo] at X
      by_cases v1 : v = e
      · rw [v1, oE] at X; exact selfX' X
      by_cases v4 : v = e.opp
      · rw [v4, oEo] at X; exact selfX X
      rw [oO v1 v4, oO' v1 v4] at X
      exact nc hv v1 v4 (swapX X)
    rw [oO u1 u4, oO' u1 u4] at X
    by_cases v1 : v = e
    · rw [v1, oE, oEo] at X; exact nc hu u1 u4 (symX X)
    by_cases v4 : v = e.opp
    · rw [v4, Ref.opp_opp, oE, oEo] at X; exact nc hu u1 u4 (swapX (symX X))
    rw [oO v1 v4, oO' v1 v4] at X
    exact h.nocross hu hv X
  · intro u p hu hp hi
    by_cases u1 : u = e
    · rw [u1, oE, oEo] at hi; exact mid p hp hi
    by_cases u4 : u = e.opp
    · rw [u4, Ref.opp_opp, oE, oEo] at hi
      refine mid p hp ⟨?_, ?_⟩
      · rw [ca, hi.1, neg_zero]
      · linarith [hi.2]
    rw [oO u1 u4, oO' u1 u4] at hi
    exact h.nomid hu hp hi
  · intro u hu
    by_cases c0 : u.opp ∈ B
    · exact .inl c0
    right
    by_cases u6 : u = w.opp
    · subst u6
      refine ⟨?_, ?_, ?_⟩
      · unfold Mesh.lf; rw [N6, N4, Ref.opp_opp, N5]
      · rw [N6, Ref.opp_opp, oWo, oW, oXo, cr]; exact q4
      · rw [N6, Ref.opp_opp, oWo, oW, oXo]
        intro p hp p1 p2 p3
        have := E2 p hp p3 p1 p2; tauto
    by_cases u1 : u = e
    · subst u1
      refine ⟨?_, ?_, ?_⟩
      · unfold Mesh.lf; rw [N5, N6, N4, Ref.opp_opp]
      · rw [N5, oE, oEo, oWo, ← cr]; exact q4
      · rw [N5, oE, oEo, oWo]
        intro p hp p1 p2 p3
        have := E2 p hp p2 p3 p1; tauto
    by_cases u2 : u = x.opp
    · subst u2
      refine ⟨?_, ?_, ?_⟩
      · unfold Mesh.lf; rw [N4, Ref.opp_opp, N5, N6]
      · rw [N4, Ref.opp_opp, Ref.opp_opp, oXo, oX, oE]; exact q4
      · rw [N4, Ref.opp_opp, Ref.opp_opp, oXo, oX, oE]
        intro p hp p1 p2 p3
        exact E2 p hp p1 p2 p3
    by_cases u3 : u = y.opp
    · subst u3
      refine ⟨?_, ?_, ?_⟩
      · unfold Mesh.lf; rw [N3, N1, N2]
      · rw [N3, Ref.opp_opp, oYo, oY, oZo, cr]; exact q2
      · rw [N3, Ref.opp_opp, oYo, oY, oZo]
        intro p hp p1 p2 p3
        have := E1 p hp p3 p1 p2; tauto
    by_cases u4 : u = e.opp
    · subst u4
      refine ⟨?_, ?_, ?_⟩
      · unfold Mesh.lf; rw [N2, N3, N1]
      · rw [N2, Ref.opp_opp, oE, oEo, oYo, ← cr]; exact q2
      · rw [N2, Ref.opp_opp, oE, oEo, oYo]
        intro p hp p1 p2 p3
        have := E1 p hp p2 p3 p1; tauto
    by_cases u5 : u = z.opp
    · subst u5
      refine ⟨?_, ?_, ?_⟩
      · unfold Mesh.lf; rw [N1, N2, N3]
      · rw [N1, Ref.opp_opp, oZo, oZ, oEo]; exact q2
      · rw [N1, Ref.opp_opp, oZo, oZ, oEo]
        intro p hp p1 p2 p3
        exact E1 p hp p1 p2 p3
    have Tu := (h.face hu).resolve_left c0
    have dl : ∀ {v}, D v → D (m.lf v) := fun hv => h.opp (h.next hv)
    have six : ∀ {v}, D v → (v ≠ e ∧ v ≠ x.opp ∧ v ≠ y.opp ∧ v ≠ e.opp ∧ v ≠ z.opp ∧ v ≠ w.opp) →
        (m.lf v ≠ e ∧ m.lf v ≠ x.opp ∧ m.lf v ≠ y.opp ∧ m.lf v ≠ e.opp ∧ m.lf v ≠ z.opp ∧ m.lf v ≠ w.opp) := by
      intro v hv ⟨v1, v2, v3, v4, v5, v6⟩
      have inj : ∀ {r}, D r → m.lf v = m.lf r → v = r := fun hr hh =>
        h.next_inj hv hr (opp_inj hh)
      exact ⟨fun hh => v3 (inj Dyo (by rw [hh, l3])), fun hh => v1 (inj De (by rw [hh, l1])),
        fun hh => v2 (inj Dxo (by rw [hh, l2])), fun hh => v6 (inj Dwo (by rw [hh, k3])),
        fun hh => v4 (inj Deo (by rw [hh, k1])), fun hh => v5 (inj Dzo (by rw [hh, k2]))⟩
    have s0 : u ≠ e ∧ u ≠ x.opp ∧ u ≠ y.opp ∧ u ≠ e.opp ∧ u ≠ z.opp ∧ u ≠ w.opp :=
      ⟨u1, u2, u3, u4, u5, u6⟩
    have s1 := six hu s0
    have s2 := six (dl hu) s1
    have n0 := same hu u1 u2 u3 u4 u5 u6
    have n1 := same (dl hu) s1.1 s1.2.1 s1.2.2.1 s1.2.2.2.1 s1.2.2.2.2.1 s1.2.2.2.2.2
    have n2 := same (dl (dl hu)) s2.1 s2.2.1 s2.2.2.1 s2.2.2.2.1 s2.2.2.2.2.1 s2.2.2.2.2.2
    have t0 : (m.flip e).lf u = m.lf u := by unfold Mesh.lf; rw [n0]
    have t1 : (m.flip e).lf (m.lf u) = m.lf (m.lf u) := by
      show ((m.flip e).next (m.lf u)).opp = _; rw [n1]; rfl
    have t2 : (m.flip e).lf (m.lf (m.lf u)) = m.lf (m.lf (m.lf u)) := by
      show ((m.flip e).next (m.lf (m.lf u))).opp = _; rw [n2]; rfl
    have o3 : (m.flip e).org (m.next u).opp = m.org (m.next u).opp := oO s1.1 s1.2.2.2.1
    refine ⟨?_, ?_, ?_⟩
    · rw [t0, t1, t2]; exact Tu.three
    · rw [n0, oO u1 u4, oO' u1 u4, o3]; exact Tu.pos
    · rw [n0, oO u1 u4, oO' u1 u4, o3]; exact Tu.empty
  · have hcyc := h.cyc
    have hsub : ∀ g ∈ B ++ B.take 1, g ∈ B := by
      intro g hg
      rcases List.mem_append.1 hg with hg | hg
      · exact hg
      · exact List.mem_of_mem_take hg
    revert hcyc hsub
    generalize B ++ B.take 1 = L
    intro hcyc hsub
    induction L with
    | nil => simp
    | cons g L ih =>
      rw [List.isChain_cons] at hcyc ⊢
      refine ⟨fun r hr => ?_, ih hcyc.2 (fun g hg => hsub g (by simp [hg]))⟩
      have gB := hsub g (by simp)
      have s := out (u := g.opp) (by rw [Ref.opp_opp]; exact gB)
      rw [same (h.opp (h.bd g gB)) s.1 s.2.1 s.2.2.1 s.2.2.2.1 s.2.2.2.2.1 s.2.2.2.2.2]
      exact hcyc.1 r hr
  · have : B.map (m.flip e).org = B.map m.org := by
      refine List.map_congr_left fun g hg => oO ?_ ?_
      · rintro rfl; exact he hg
      · rintro rfl; exact ho hg
    rw [this]; exact h.nodup

end HG
