import Verif.Delaunay.Tangent

/-!
# The search for the first cross edge
-/

set_option linter.unusedSectionVars false

namespace HG

variable {K : Type} [Field K] [LinearOrder K] [IsStrictOrderedRing K]
variable {L R P : List (Point K)} {m : Mesh K} {D : Ref → Prop}

theorem lfe_eq (m : Mesh K) (e : Ref) : m.lfe e = m.rfs e.opp := by
  unfold Mesh.lfe Mesh.rfs
  have : e.rot.opp = e.opp.rot := by
    rcases e with ⟨q, r⟩
    revert r; intro r
    simp only [Ref.rot, Ref.opp]
    try ring_nf
  rw [this]

theorem adj_org {e : Ref} (he : D e) : Adj m D (m.org e) (m.org e.opp) := ⟨e, he, rfl, rfl⟩

/-- Two darts in the same direction are the same. -/
theorem same_ray (hc : Comp m D) (dt : DT P (Adj m D)) {e f : Ref} (he : D e) (hf : D f)
    (ho : m.org f = m.org e) (h0 : cross (m.org e) (m.org e.opp) (m.org f.opp) = 0)
    (h1 : 0 < dot (m.org e) (m.org e.opp) (m.org f.opp)) : e = f := by
  have m1 := dt.mem (adj_org (hc.opp hf))
  have m2 := dt.mem (adj_org (hc.opp he))
  have af := adj_org (m := m) hf
  rw [ho] at af
  have := ray_eq h0 h1 ((dt.del (adj_org he)).not_mid m1) ((dt.del af).not_mid m2)
  exact hc.simple he hf ho.symm this.symm

theorem hull_prev (hc : Comp m D) (dt : DT P (Adj m D)) {r : Ref} (hr : D r)
    (h : ∀ x ∈ P, cross (m.org r) (m.org r.opp) x ≤ 0) :
    ∀ x ∈ P, cross (m.org r.opp) (m.org (m.rfs r.opp).opp) x ≤ 0 := by
  have hro := hc.opp hr
  have wD := hc.prev hro
  have wn := hc.next_prev hro
  have wo := hc.prev_org hro
  have ha := adj_org (m := m) wD
  rw [wo] at ha
  rcases dt.side ha with h1 | ⟨c, ⟨f, hf, fo, fs⟩, -, ht⟩
  · exact h1
  · exfalso
    have h0 := ht.1
    have hw := h _ (dt.mem (adj_org (hc.opp wD)))
    rw [cross_swap12] at hw
    rw [← fs] at h0
    have e2 := cross_neg (m.org r.opp) (m.org (m.rfs r.opp).opp) (m.org f.opp)
    have e3 := cross_neg (m.org r.opp) (m.org r) (m.org (m.rfs r.opp).opp)
    by_cases f1 : f = m.rfs r.opp
    · rw [f1] at h0; simp at h0
    by_cases f2 : f = r.opp
    · rw [f2, Ref.opp_opp] at h0; linarith
    have := hc.sorted wD hf (by rw [fo, wo]) f1 (by rw [wn]; exact f2)
    rw [wn, wo, Ref.opp_opp] at this
    rcases this with ⟨x, y⟩ | ⟨x, y⟩ | ⟨x, y⟩ <;> linarith

theorem hull_next (hc : Comp m D) (dt : DT P (Adj m D)) {l : Ref} (hl : D l)
    (h : ∀ x ∈ P, 0 ≤ cross (m.org l) (m.org l.opp) x) :
    ∀ x ∈ P, 0 ≤ cross (m.org l.opp) (m.org (m.next l.opp).opp) x := by
  have hlo := hc.opp hl
  have wD := hc.next hlo
  have wo := hc.org hlo
  have ha := adj_org (m := m) (hc.opp wD)
  rw [Ref.opp_opp, wo] at ha
  rcases dt.side ha with h1 | ⟨c, -, ⟨f, hf, fo, fs⟩, ht⟩
  · intro x hx
    rw [cross_swap12]; linarith [h1 x hx]
  · exfalso
    have h0 := ht.1
    have hw := h _ (dt.mem (adj_org (hc.opp wD)))
    rw [cross_swap12] at hw
    rw [← fs, cross_swap12] at h0
    by_cases f1 : f = m.next l.opp
    · rw [f1] at h0; simp at h0
    by_cases f2 : f = l.opp
    · rw [f2, Ref.opp_opp] at h0
      have e2 := cross_neg (m.org l.opp) (m.org l) (m.org (m.next l.opp).opp)
      linarith
    have := hc.sorted hlo hf fo f2 f1
    rw [Ref.opp_opp] at this
    rcases this with ⟨x, y⟩ | ⟨x, y⟩ | ⟨x, y⟩ <;> linarith

theorem col3 {s p x y z : Point K} (hp : p ≠ s) (hx : cross s p x = 0) (hy : cross s p y = 0)
    (hz : cross s p z = 0) : cross x y z = 0 := by
  have d := ne_of_gt (dot_self_pos hp)
  have z0 : ∀ {u v}, cross s p u = 0 → cross s p v = 0 → cross s u v = 0 := by
    intro u v hu hv
    have e := cross_dot' s p u v
    rw [hu, hv, mul_zero, mul_zero, sub_zero] at e
    exact (mul_eq_zero.1 e).resolve_right d
  have e : cross x y z = cross s x y + cross s y z + cross s z x := by unfold cross; ring
  rw [e, z0 hx hy, z0 hy hz, z0 hz hx]; ring

/-- At an end of a degenerate part all points lie in one direction. -/
theorem degen (hc : Comp m D) (dt : DT P (Adj m D)) {r f : Ref} (hr : D r) (hf : D f)
    (ho : m.org f = m.org r) (h1 : r = f → m.next r = r)
    (c0 : cross (m.org r) (m.org f.opp) (m.org r.opp) = 0)
    (d0 : 0 < dot (m.org r) (m.org f.opp) (m.org r.opp))
    (col : ∀ x ∈ P, cross (m.org r) (m.org f.opp) x = 0) :
    ∀ x ∈ P, 0 ≤ dot (m.org r) (m.org f.opp) x := by
  have hrf : r = f := by
    refine same_ray hc dt hr hf ho ?_ ?_
    · rw [cross_neg, c0, neg_zero]
    · rw [dot_comm]; exact d0
  have hn := h1 hrf
  subst hrf
  intro x hx
  by_cases hxs : x = m.org r
  · rw [hxs]; unfold dot; simp
  have hne := (hc.ne hr).symm
  obtain ⟨n, ⟨g, hg, go, gs⟩, hd⟩ := dt.line
    (fun a ha b hb c hcc => col3 hne (col a ha) (col b hb) (col c hcc)) (dt.mem (adj_org hr)) hx hxs
  have := hc.single hr hg hn go
  rw [← gs, this, dot_comm] at hd
  exact le_of_lt hd

structure FB (kx ky : K) (L R : List (Point K)) (m : Mesh K) (D₁ D₂ : Ref → Prop) (r l : Ref) : Prop where
  dr : D₁ r
  dl : D₂ l
  tr : Tan kx ky L (m.org r) (m.org r.opp) (m.org l)
  tl : Tan kx (-ky) (R.map mir) (mir (m.org l)) (mir (m.org l.opp)) (mir (m.org r))

theorem sg_inj_mir {kx ky : K} (inj : ∀ x ∈ R, ∀ y ∈ R, sg kx ky x = sg kx ky y → x = y) :
    ∀ x ∈ R.map mir, ∀ y ∈ R.map mir, sg kx (-ky) x = sg kx (-ky) y → x = y := by
  intro x hx y hy h
  rw [← mir_mir x, ← mir_mir y, sg_mir, sg_mir] at h
  exact mir_inj (inj _ (mem_mir.1 hx) _ (mem_mir.1 hy) (by linarith))

section
variable {kx ky : K} {D₁ D₂ : Ref → Prop}

theorem FB.loop (c1 : Comp m D₁) (c2 : Comp m D₂) (t1 : DT L (Adj m D₁)) (t2 : DT R (Adj m D₂))
    (hlt : ∀ x ∈ L, ∀ y ∈ R, sg kx ky x < sg kx ky y)
    (i1 : ∀ x ∈ L, ∀ y ∈ L, sg kx ky x = sg kx ky y → x = y)
    (i2 : ∀ x ∈ R, ∀ y ∈ R, sg kx ky x = sg kx ky y → x = y) (fuel : Nat) {r l : Ref}
    (h : FB kx ky L R m D₁ D₂ r l) {r' l' : Ref} (hf : findBaseLoop m fuel r l = .ok (r', l')) :
    FB kx ky L R m D₁ D₂ r' l' ∧ cross (m.org r') (m.org r'.opp) (m.org l') ≤ 0 ∧
      0 ≤ cross (m.org l') (m.org l'.opp) (m.org r') := by
  induction fuel generalizing r l with
  | zero => simp [HG.findBaseLoop] at hf
  | succ n ih =>
    have hsq : sg kx ky (m.org r) < sg kx ky (m.org l) :=
      hlt _ (t1.mem (adj_org h.dr)) _ (t2.mem (adj_org h.dl))
    have hsq' : sg kx (-ky) (mir (m.org l)) < sg kx (-ky) (mir (m.org r)) := by
      rw [sg_mir, sg_mir]; linarith
    unfold HG.findBaseLoop at hf
    split at hf
    · rename_i hc
      unfold Mesh.orientationOf at hc
      rw [orient_ccw_iff] at hc
      have hc' : 0 < cross (m.org r) (m.org r.opp) (m.org l) := hc
      refine ih ?_ hf
      have ro := c1.opp h.dr
      have wD := c1.prev ro
      have wo := c1.prev_org ro
      have wn := c1.next_prev ro
      rw [lfe_eq]
      have hd := h.tr.desc i1 hsq hc'
      refine ⟨wD, h.dl, ⟨t1.mem (adj_org wD), t1.mem (adj_org (c1.opp wD)), (c1.ne wD).symm, ?_, ?_⟩, ?_⟩
      · rw [wo]; exact hull_prev c1 t1 h.dr h.tr.hull
      · right
        rw [wo]
        refine ⟨m.org r, h.tr.hs, h.tr.hull, hd, hc', ?_⟩
        have := degen c1 t1 wD ro wo.symm (fun hh => by rw [wn, hh])
        rw [Ref.opp_opp, wo] at this
        exact this
      · rw [wo]
        refine h.tl.move hsq' ?_ ?_
        · rw [sg_mir, sg_mir]
          have := hlt _ (t1.mem (adj_org ro)) _ (t2.mem (adj_org h.dl))
          linarith
        · rw [cross_mir, cross_rot' (m.org r)]; linarith
    · rename_i hc1
      split at hf
      · rename_i hc
        unfold Mesh.orientationOf at hc
        rw [orient_cw_iff] at hc
        have hc' : cross (m.org l) (m.org l.opp) (m.org r) < 0 := hc
        refine ih ?_ hf
        have lo := c2.opp h.dl
        have wD := c2.next lo
        have wo := c2.org lo
        have hd := h.tl.desc (sg_inj_mir i2) hsq' (by rw [cross_mir]; linarith)
        refine ⟨h.dr, wD, ?_, ⟨mir_mem (t2.mem (adj_org wD)), mir_mem (t2.mem (adj_org (c2.opp wD))),
          fun hh => c2.ne wD (mir_inj hh).symm, ?_, ?_⟩⟩
        · show Tan kx ky L (m.org r) (m.org r.opp) (m.org (m.next l.opp))
          rw [wo]
          refine h.tr.move hsq (hlt _ (t1.mem (adj_org h.dr)) _ (t2.mem (adj_org lo))) ?_
          rw [cross_rot' (m.org l)]; exact hc'
        · intro x hx
          show cross (mir (m.org (m.next l.opp))) (mir (m.org (m.next l.opp).opp)) x ≤ 0
          rw [wo, ← mir_mir x, cross_mir]
          have := hull_next c2 t2 h.dl (fun y hy => by
            have := h.tl.hull _ (mir_mem hy)
            rw [cross_mir] at this; linarith) (mir x) (mem_mir.1 hx)
          linarith
        · right
          show ∃ p ∈ R.map mir, (∀ x ∈ R.map mir, cross p (mir (m.org (m.next l.opp))) x ≤ 0) ∧
            sg kx (-ky) (mir (m.org (m.next l.opp))) < sg kx (-ky) p ∧
            0 < cross p (mir (m.org (m.next l.opp))) (mir (m.org r)) ∧
            (cross (mir (m.org (m.next l.opp))) p (mir (m.org (m.next l.opp).opp)) = 0 →
              0 < dot (mir (m.org (m.next l.opp))) p (mir (m.org (m.next l.opp).opp)) →
              (∀ x ∈ R.map mir, cross (mir (m.org (m.next l.opp))) p x = 0) →
              ∀ x ∈ R.map mir, 0 ≤ dot (mir (m.org (m.next l.opp))) p x)
          refine ⟨mir (m.org l), h.tl.hs, ?_, ?_, ?_, ?_⟩
          · rw [wo]; exact h.tl.hull
          · rw [wo]; exact hd
          · rw [wo, cross_mir]; linarith
          · intro x1 x2 x3 x hx
            rw [← mir_mir x, dot_mir]
            have := degen c2 t2 wD lo wo.symm (fun hh => congrArg m.next hh)
            rw [Ref.opp_opp] at this
            refine this ?_ ?_ ?_ _ (mem_mir.1 hx)
            · rw [cross_mir] at x1; linarith
            · rw [dot_mir] at x2; exact x2
            · intro y hy
              have := x3 _ (mir_mem hy)
              rw [cross_mir] at this; linarith
      · rename_i hc2
        simp only [exc_pure_ok, Prod.mk.injEq] at hf
        obtain ⟨rfl, rfl⟩ := hf
        refine ⟨h, ?_, ?_⟩
        · by_contra hcon
          apply hc1
          unfold Mesh.orientationOf
          rw [orient_ccw_iff]
          exact not_le.1 hcon
        · by_contra hcon
          apply hc2
          unfold Mesh.orientationOf
          rw [orient_cw_iff]
          exact not_le.1 hcon

end
end HG
