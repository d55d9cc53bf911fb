import Verif.Delaunay.Inv

/-!
# The candidate loops and the merging loop
-/

set_option linter.unusedSectionVars false

namespace HG

variable {K : Type} [Field K] [LinearOrder K] [IsStrictOrderedRing K]
variable {L R : List (Point K)}

/-- The circle through three points, with the predicate of the code. -/
theorem circ_through {a b c : Point K} (h : 0 < cross a b c) : ∃ f : Circ K, f.ev a = 0 ∧ f.ev b = 0 ∧
    f.ev c = 0 ∧ ∀ p, inCircle p a b c = true ↔ f.ev p < 0 := by
  have hn := ne_of_gt h
  obtain ⟨g, hg⟩ := circ_exists hn
  have z : ∀ p, inCircleDet p a b c = 0 → g.ev p = 0 := by
    intro p hp
    have := hg p
    rw [hp, neg_zero] at this
    exact (mul_eq_zero.1 this).resolve_right hn
  refine ⟨g, z a (by unfold inCircleDet; ring), z b (by unfold inCircleDet; ring),
    z c (by unfold inCircleDet; ring), fun p => ?_⟩
  rw [inCircle_def]
  rw [decide_eq_true_iff]
  have := hg p
  constructor
  · intro hp
    by_contra hc
    have := mul_nonneg (not_lt.1 hc) (le_of_lt h)
    linarith
  · intro hp
    have := mul_neg_of_neg_of_pos hp h
    linarith

theorem inCircle_iff {f : Circ K} {a b c : Point K} (h : 0 < cross a b c) (fa : f.ev a = 0)
    (fb : f.ev b = 0) (fc : f.ev c = 0) (p : Point K) : inCircle p a b c = true ↔ f.ev p < 0 := by
  obtain ⟨g, ga, gb, gc, hg⟩ := circ_through h
  rw [hg, circ_unique (ne_of_gt h) (by rw [fa, ga]) (by rw [fb, gb]) (by rw [fc, gc]) p]

/-- A circle of the pencil through `a`, `b` that is smaller at one point is smaller on the whole
side. -/
theorem pencil_lt {f g : Circ K} {a b n c : Point K} (fa : f.ev a = 0) (fb : f.ev b = 0)
    (fn : f.ev n = 0) (ga : g.ev a = 0) (gb : g.ev b = 0) (gc : g.ev c = 0) (gn : 0 < g.ev n)
    (hn : 0 < cross a b n) (hc : 0 < cross a b c) : f.ev c < 0 := by
  have e := aff3 f g a b n c
  rw [fa, fb, fn, ga, gb, gc] at e
  have := mul_pos gn hc
  by_contra hcon
  have := mul_nonneg (not_lt.1 hcon) (le_of_lt hn)
  linarith

theorem improve_right {f g h : Circ K} {a b n c n' : Point K} (fa : f.ev a = 0) (fb : f.ev b = 0)
    (fn : f.ev n = 0) (ga : g.ev a = 0) (gb : g.ev b = 0) (gc : g.ev c = 0) (gn : 0 < g.ev n)
    (hn : 0 < cross a b n) (hc : 0 < cross a b c) (hb : h.ev b = 0) (hn' : h.ev n' = 0)
    (hhn : 0 ≤ h.ev n) (hhc : 0 ≤ h.ev c) (c1 : 0 < cross b c n) (c2 : 0 < cross b c n')
    (c3 : 0 < cross b n' n) : f.ev n' < 0 := by
  have fc := pencil_lt fa fb fn ga gb gc gn hn hc
  have e := aff3 h f b c n n'
  rw [hb, hn', fb, fn] at e
  have t1 := mul_pos (show 0 < h.ev c - f.ev c by linarith) c3
  have t2 := mul_nonneg hhn (le_of_lt c2)
  by_contra hcon
  have := mul_nonneg (not_lt.1 hcon) (le_of_lt c1)
  linarith

theorem improve_left {f g h : Circ K} {a b n c n' : Point K} (fa : f.ev a = 0) (fb : f.ev b = 0)
    (fn : f.ev n = 0) (ga : g.ev a = 0) (gb : g.ev b = 0) (gc : g.ev c = 0) (gn : 0 < g.ev n)
    (hn : 0 < cross a b n) (hc : 0 < cross a b c) (ha : h.ev a = 0) (hn' : h.ev n' = 0)
    (hhn : 0 ≤ h.ev n) (hhc : 0 ≤ h.ev c) (c1 : 0 < cross a n c) (c2 : 0 < cross a n' c)
    (c3 : 0 < cross a n n') : f.ev n' < 0 := by
  have fc := pencil_lt fa fb fn ga gb gc gn hn hc
  have e := aff3 h f a n c n'
  rw [ha, hn', fa, fn] at e
  have t1 := mul_pos (show 0 < h.ev c - f.ev c by linarith) c3
  have t2 := mul_nonneg hhn (le_of_lt c2)
  by_contra hcon
  have := mul_nonneg (not_lt.1 hcon) (le_of_lt c1)
  linarith

theorem notDel_right {P : List (Point K)} {f : Circ K} {a b n n' : Point K} (fa : f.ev a = 0)
    (fb : f.ev b = 0) (fn : f.ev n = 0) (fn' : f.ev n' < 0) (hn : 0 < cross a b n)
    (c3 : 0 < cross b n' n) (ha : a ∈ P) (hn' : n' ∈ P) : ¬ Del P b n := by
  rintro ⟨h, hh, hb, hn0⟩
  have e := aff3 h f b n a n'
  rw [hb, hn0, fb, fn, fa, cross_neg b n' n, show cross b n a = cross a b n from cross_rot a b n] at e
  have t1 := mul_nonneg (hh a ha) (le_of_lt c3)
  have t2 := mul_pos (show 0 < h.ev n' - f.ev n' by linarith [hh n' hn']) hn
  linarith

theorem notDel_left {P : List (Point K)} {f : Circ K} {a b n n' : Point K} (fa : f.ev a = 0)
    (fb : f.ev b = 0) (fn : f.ev n = 0) (fn' : f.ev n' < 0) (hn : 0 < cross a b n)
    (c3 : 0 < cross a n n') (hb : b ∈ P) (hn' : n' ∈ P) : ¬ Del P a n := by
  rintro ⟨h, hh, ha, hn0⟩
  have e := aff3 h f a n b n'
  rw [ha, hn0, fb, fn, fa, cross_neg a b n] at e
  have t1 := mul_nonneg (hh b hb) (le_of_lt c3)
  have t2 := mul_pos (show 0 < h.ev n' - f.ev n' by linarith [hh n' hn']) hn
  linarith

theorem nbr_left {AL : Rel K} (hL : DT L AL) {a b q : Point K} {g : Circ K} (hg : g.Empty L)
    (ga : g.ev a = 0) (gq : g.ev q = 0) (ha : a ∈ L) (hq : q ∈ L) (hpos : 0 < cross a b q) :
    ∃ c, AL a c ∧ 0 < cross a b c ∧ g.ev c = 0 := by
  have hg' : g.mir.Empty (L.map mir) := by
    intro p hp
    have : g.mir.ev p = g.ev (mir p) := by rw [← ev_mir g (mir p), mir_mir]
    rw [this]
    exact hg _ (mem_mir.1 hp)
  have sgn : ∀ p, cross (mir b) (mir a) (mir p) = cross a b p := by
    intro p; rw [cross_mir, cross_swap12]; ring
  obtain ⟨c, c1, c2, c3⟩ := hL.mir.nbr (P := L.map mir) (fun p hp => hp) (l := mir b) (r := mir a)
    (q := mir q) hg' (by rw [ev_mir]; exact ga) (by rw [ev_mir]; exact gq) (mir_mem ha) (mir_mem hq)
    (by rw [sgn]; exact hpos)
  refine ⟨mir c, ?_, ?_, ?_⟩
  · rw [mir_mir] at c1; exact c1
  · rw [← sgn, mir_mir]; exact c2
  · rw [← ev_mir g (mir c), mir_mir]; exact c3

section
variable {S : Sep L R} {AL AR C : Rel K} {m : Mesh K} {D : Ref → Prop} {base : Ref}

theorem above_iff (m : Mesh K) (base : Ref) (p : Point K) :
    m.orientationOf base p = .clockwise ↔ 0 < cross (m.org base.opp) (m.org base) p := by
  unfold Mesh.orientationOf
  rw [orient_cw_iff]
  unfold Mesh.start Mesh.stop
  rw [cross_swap12]
  constructor <;> intro h <;> linarith

/-- The first dart before the base is above it if some dart is. -/
theorem Inv.first_right (h : Inv S AL AR C m D base) {f : Ref} (hf : D f)
    (hfo : m.org f = m.org base) (hab : 0 < cross (m.org base.opp) (m.org base) (m.org f.opp))
    {r : Ref} (hr : D r) (hrb : m.next r = base) :
    0 < cross (m.org base.opp) (m.org base) (m.org r.opp) ∧
      (r = f ∨ 0 < cross (m.org base) (m.org f.opp) (m.org r.opp)) := by
  have hro : m.org r = m.org base := by rw [← hrb]; exact (h.comp.org hr).symm
  by_cases hrf : r = f
  · rw [hrf]; exact ⟨hab, .inl rfl⟩
  · have hfb : f ≠ base := by rintro rfl; simp at hab
    have := h.comp.sorted hr hf (by rw [hfo, hro]) (Ne.symm hrf) (by rw [hrb]; exact hfb)
    rw [hro, hrb] at this
    have e : cross (m.org base) (m.org base.opp) (m.org f.opp) < 0 := by rw [cross_swap12]; linarith
    rw [← cross_rot (m.org base.opp)]
    rcases this with ⟨_, h2⟩ | ⟨h1, _⟩ | ⟨h1, h2⟩
    · linarith
    · linarith
    · exact ⟨h2, .inr h1⟩

theorem Inv.first_left (h : Inv S AL AR C m D base) {f : Ref} (hf : D f)
    (hfo : m.org f = m.org base.opp) (hab : 0 < cross (m.org base.opp) (m.org base) (m.org f.opp))
    {l : Ref} (hlb : m.next base.opp = l) :
    0 < cross (m.org base.opp) (m.org base) (m.org l.opp) ∧
      (l = f ∨ 0 < cross (m.org base.opp) (m.org l.opp) (m.org f.opp)) := by
  have hbo := h.comp.opp h.dbase
  by_cases hlf : l = f
  · rw [hlf]; exact ⟨hab, .inl rfl⟩
  · have hfb : f ≠ base.opp := by rintro rfl; rw [Ref.opp_opp] at hab; simp at hab
    have := h.comp.sorted hbo hf hfo hfb (by rw [hlb]; exact Ne.symm hlf)
    rw [hlb, Ref.opp_opp] at this
    have e : cross (m.org base.opp) (m.org f.opp) (m.org base) < 0 := by rw [cross_neg]; linarith
    rcases this with ⟨h1, h2⟩ | ⟨_, h1⟩ | ⟨h1, _⟩
    · exact ⟨h1, .inr h2⟩
    · linarith
    · linarith

theorem rightLoop (hR : DT R AR) (hL : DT L AL) {m₀ : Mesh K} {D₀ : Ref → Prop}
    (h0 : ∀ {x}, D₀ x → m₀.Edge x) (fuel : Nat) {m : Mesh K} {D : Ref → Prop} {res : Ref}
    (hI : Inv S AL AR C m D base) (hF : Fr (L ++ R) m₀ D₀ m D) (hD : D res)
    (hn : m.next res = base) (hab : 0 < cross (m.org base.opp) (m.org base) (m.org res.opp))
    {m' : Mesh K} {r : Ref} (h : rightCandidateLoop base fuel m res = .ok (m', r)) :
    ∃ D', Inv S AL AR C m' D' base ∧ Fr (L ++ R) m₀ D₀ m' D' ∧ D' r ∧ m'.next r = base ∧
      m'.org = m.org ∧ 0 < cross (m.org base.opp) (m.org base) (m.org r.opp) ∧
      (∀ x, D x → m.org x ∈ L → D' x ∧ m'.next x = m.next x) ∧
      (∀ (g : Circ K) q, g.Empty (L ++ R) → g.ev (m.org base.opp) = 0 → g.ev (m.org base) = 0 → q ∈ R →
        0 < cross (m.org base.opp) (m.org base) q → g.ev q = 0 → g.ev (m.org r.opp) = 0) := by
  induction fuel generalizing m D res with
  | zero => simp [HG.rightCandidateLoop] at h
  | succ n ih =>
    have hro : m.org res = m.org base := by rw [← hn]; exact (hI.comp.org hD).symm
    have yD : D (m.rfs res) := hI.comp.prev hD
    have yn : m.next (m.rfs res) = res := hI.comp.next_prev hD
    have yo : m.org (m.rfs res) = m.org base := by rw [hI.comp.prev_org hD, hro]
    have har := hI.ar hL hD hro hab
    have nR := hR.mem (hR.symm har)
    obtain ⟨f, fa, fb, fn, hf⟩ := circ_through hab
    unfold HG.rightCandidateLoop at h
    split at h
    · rename_i hc
      obtain ⟨hc1, hc2⟩ := hc
      rw [above_iff] at hc2
      have hc1' : f.ev (m.org (m.rfs res).opp) < 0 := (hf _).1 hc1
      have hc2' : 0 < cross (m.org base.opp) (m.org base) (m.org (m.rfs res).opp) := hc2
      have yb : m.rfs res ≠ base := by
        intro hh; rw [hh, fa] at hc1'; exact lt_irrefl _ hc1'
      have yr : m.rfs res ≠ res := by
        intro hh; rw [hh, fn] at hc1'; exact lt_irrefl _ hc1'
      have rb : res ≠ base := by
        rintro rfl; simp at hab
      have rbo : res ≠ base.opp := by
        intro hh
        rw [hh] at hro
        exact hI.comp.ne hI.dbase hro.symm
      have yro : m.rfs res ≠ res.opp := by
        intro hh
        have := yo
        rw [hh, ← hro] at this
        exact hI.comp.ne hD this.symm
      have srt := hI.comp.sorted yD hI.dbase yo.symm yb.symm (by rw [yn]; exact rb.symm)
      rw [yn, yo] at srt
      have c3 : 0 < cross (m.org base) (m.org (m.rfs res).opp) (m.org res.opp) := by
        have e : cross (m.org base) (m.org base.opp) (m.org (m.rfs res).opp) < 0 := by
          rw [cross_swap12]; linarith
        rcases srt with ⟨h1, _⟩ | ⟨_, h1⟩ | ⟨h1, _⟩
        · exact h1
        · linarith
        · linarith
      have hnd : ¬ Del (L ++ R) (m.org res) (m.org res.opp) := by
        rw [hro]
        exact notDel_right fa fb fn hc1' hab c3 (List.mem_append_left _ hI.memL)
          (hI.mem hR hL (hI.comp.opp yD))
      have hI' := hI.delete hD rb rbo hnd
      have hF' := hF.delete hI.comp hD hnd h0
      have dnx := fun {x} (hx : m.Edge x) => delete_next hI.comp.wf (hI.comp.edge hD)
        (hI.comp.next_ne_opp hD (hI.comp.opp hD) (hI.comp.ne hD))
        (hI.comp.next_ne_opp (hI.comp.opp hD) hD (hI.comp.ne hD).symm) hx
      have nn : (m.delete res).next (m.rfs res) = base := by
        rw [dnx (hI.comp.edge yD), if_neg (by tauto), if_pos yn, hn]
      obtain ⟨D', r1, r2, r3, r4, r5, r6, r7, r8⟩ := ih hI' hF' ⟨yD, yr, yro⟩ nn hc2' h
      refine ⟨D', r1, r2, r3, r4, by rw [r5, delete_org], r6, ?_, r8⟩
      intro x hx hxL
      have x1 : x ≠ res := by
        rintro rfl; rw [hro] at hxL; exact S.disj hxL hI.memR
      have x2 : x ≠ res.opp := by
        rintro rfl; exact S.disj hxL nR
      obtain ⟨q1, q2⟩ := r7 x ⟨hx, x1, x2⟩ hxL
      refine ⟨q1, ?_⟩
      rw [q2, dnx (hI.comp.edge hx), if_neg (by tauto), if_neg, if_neg]
      · intro hh
        have := hI.comp.org hx
        rw [hh] at this
        exact S.disj hxL (by rw [← this]; exact nR)
      · intro hh
        have := hI.comp.org hx
        rw [hh, hro] at this
        exact S.disj hxL (by rw [← this]; exact hI.memR)
    · rename_i hc
      simp only [exc_pure_ok, Prod.mk.injEq] at h
      obtain ⟨rfl, rfl⟩ := h
      refine ⟨D, hI, hF, hD, hn, rfl, hab, fun x hx _ => ⟨hx, rfl⟩, ?_⟩
      intro g q hg ga gb hq hqab gq
      by_contra hgn
      have gpos : 0 < g.ev (m.org res.opp) :=
        lt_of_le_of_ne (hg _ (hI.mem hR hL (hI.comp.opp hD))) (Ne.symm hgn)
      obtain ⟨c, c1, c2, c3⟩ := hR.nbr (P := L ++ R) (fun p hp => List.mem_append_right _ hp) hg gb gq
        hI.memR hq hqab
      obtain ⟨e, he, eo, es⟩ := hI.d2 (.inl ⟨.inr c1, g, hg, gb, c3⟩)
      rw [← es] at c2 c3
      have hre : res ≠ e := by rintro rfl; exact hgn c3
      have k1 := ((hI.first_right he eo c2 hD hn).2).resolve_left hre
      apply hc
      -- the next dart is in the circle and above the base
      by_cases hye : m.rfs res = e
      · rw [above_iff]
        have : m.stop (m.rfs res) = m.org e.opp := by rw [hye]; rfl
        rw [this]
        exact ⟨(hf _).2 (pencil_lt fa fb fn ga gb c3 gpos hab c2), c2⟩
      · have srt := hI.comp.sorted yD he (by rw [eo, yo]) (Ne.symm hye) (by rw [yn]; exact hre.symm)
        rw [yn, yo] at srt
        have e1 : cross (m.org base) (m.org res.opp) (m.org e.opp) < 0 := by rw [cross_neg]; linarith
        obtain ⟨k2, k3⟩ : 0 < cross (m.org base) (m.org e.opp) (m.org (m.rfs res).opp) ∧
            0 < cross (m.org base) (m.org (m.rfs res).opp) (m.org res.opp) := by
          rcases srt with ⟨_, h1⟩ | ⟨h1, _⟩ | h1
          · linarith
          · linarith
          · exact h1
        have k4 : 0 < cross (m.org base.opp) (m.org base) (m.org (m.rfs res).opp) := by
          have p := pluck (m.org base) (m.org e.opp) (m.org (m.rfs res).opp) (m.org res.opp)
            (m.org base.opp)
          rw [cross_rot (m.org base.opp) (m.org base) (m.org res.opp),
            cross_rot (m.org base.opp) (m.org base) (m.org (m.rfs res).opp),
            cross_rot (m.org base.opp) (m.org base) (m.org e.opp)] at p
          have t1 := mul_pos k2 hab
          have t2 := mul_pos c2 k3
          by_contra hcon
          have := mul_nonpos_of_nonneg_of_nonpos (le_of_lt k1) (not_lt.1 hcon)
          linarith
        have hary := hI.ar hL yD yo k4
        obtain ⟨h, hh, hb, hy⟩ := hR.del hary
        rw [above_iff]
        refine ⟨(hf _).2 ?_, k4⟩
        exact improve_right fa fb fn ga gb c3 gpos hab c2 hb hy (hh _ nR)
          (hh _ (hR.mem (hR.symm (hI.ar hL he eo c2)))) k1 k2 k3

theorem leftLoop (hR : DT R AR) (hL : DT L AL) {m₀ : Mesh K} {D₀ : Ref → Prop}
    (h0 : ∀ {x}, D₀ x → m₀.Edge x) (fuel : Nat) {m : Mesh K} {D : Ref → Prop} {res : Ref}
    (hI : Inv S AL AR C m D base) (hF : Fr (L ++ R) m₀ D₀ m D) (hD : D res)
    (hn : m.next base.opp = res) (hab : 0 < cross (m.org base.opp) (m.org base) (m.org res.opp))
    {m' : Mesh K} {r : Ref} (h : leftCandidateLoop base fuel m res = .ok (m', r)) :
    ∃ D', Inv S AL AR C m' D' base ∧ Fr (L ++ R) m₀ D₀ m' D' ∧ D' r ∧ m'.next base.opp = r ∧
      m'.org = m.org ∧ 0 < cross (m.org base.opp) (m.org base) (m.org r.opp) ∧
      (∀ (g : Circ K) q, g.Empty (L ++ R) → g.ev (m.org base.opp) = 0 → g.ev (m.org base) = 0 → q ∈ L →
        0 < cross (m.org base.opp) (m.org base) q → g.ev q = 0 → g.ev (m.org r.opp) = 0) := by
  induction fuel generalizing m D res with
  | zero => simp [HG.leftCandidateLoop] at h
  | succ n ih =>
    have hbo := hI.comp.opp hI.dbase
    have hro : m.org res = m.org base.opp := by rw [← hn]; exact hI.comp.org hbo
    have yD : D (m.next res) := hI.comp.next hD
    have yo : m.org (m.next res) = m.org base.opp := by rw [hI.comp.org hD, hro]
    have har := hI.al hR hD hro hab
    have nL := hL.mem (hL.symm har)
    obtain ⟨f, fa, fb, fn, hf⟩ := circ_through hab
    have nabove : ¬ 0 < cross (m.org base.opp) (m.org base) (m.org base.opp.opp) := by
      rw [Ref.opp_opp]; simp
    unfold HG.leftCandidateLoop at h
    split at h
    · rename_i hc
      obtain ⟨hc1, hc2⟩ := hc
      rw [above_iff] at hc2
      have hc1' : f.ev (m.org (m.next res).opp) < 0 := (hf _).1 hc1
      have hc2' : 0 < cross (m.org base.opp) (m.org base) (m.org (m.next res).opp) := hc2
      have yb : m.next res ≠ base.opp := by
        intro hh; rw [hh] at hc2'; exact nabove hc2'
      have yr : m.next res ≠ res := by
        intro hh; rw [hh, fn] at hc1'; exact lt_irrefl _ hc1'
      have rb : res ≠ base.opp := by
        intro hh; rw [hh] at hab; exact nabove hab
      have rbo : res ≠ base := by
        intro hh
        rw [hh] at hro
        exact hI.comp.ne hI.dbase hro
      have yro : m.next res ≠ res.opp := hI.comp.next_ne_opp hD (hI.comp.opp hD) (hI.comp.ne hD)
      have srt := hI.comp.sorted hD hbo hro.symm rb.symm yb.symm
      rw [hro, Ref.opp_opp] at srt
      have c3 : 0 < cross (m.org base.opp) (m.org res.opp) (m.org (m.next res).opp) := by
        have e : cross (m.org base.opp) (m.org (m.next res).opp) (m.org base) < 0 := by
          rw [cross_neg]; linarith
        rcases srt with ⟨h1, _⟩ | ⟨h1, _⟩ | ⟨_, h1⟩
        · exact h1
        · linarith
        · exact h1
      have hnd : ¬ Del (L ++ R) (m.org res) (m.org res.opp) := by
        rw [hro]
        exact notDel_left fa fb fn hc1' hab c3 (List.mem_append_right _ hI.memR)
          (hI.mem hR hL (hI.comp.opp yD))
      have hI' := hI.delete hD rbo rb hnd
      have hF' := hF.delete hI.comp hD hnd h0
      have dnx := fun {x} (hx : m.Edge x) => delete_next hI.comp.wf (hI.comp.edge hD)
        (hI.comp.next_ne_opp hD (hI.comp.opp hD) (hI.comp.ne hD))
        (hI.comp.next_ne_opp (hI.comp.opp hD) hD (hI.comp.ne hD).symm) hx
      have bro : base.opp ≠ res.opp := by
        intro hh
        have := congrArg Ref.opp hh
        rw [Ref.opp_opp, Ref.opp_opp] at this
        exact rbo this.symm
      have nn : (m.delete res).next base.opp = m.next res := by
        rw [dnx (hI.comp.edge hbo), if_neg (by
          rintro (hh | hh)
          · exact rb hh.symm
          · exact bro hh), if_pos hn]
      obtain ⟨D', r1, r2, r3, r4, r5, r6, r7⟩ := ih hI' hF' ⟨yD, yr, yro⟩ nn hc2' h
      exact ⟨D', r1, r2, r3, r4, by rw [r5, delete_org], r6, r7⟩
    · rename_i hc
      simp only [exc_pure_ok, Prod.mk.injEq] at h
      obtain ⟨rfl, rfl⟩ := h
      refine ⟨D, hI, hF, hD, hn, rfl, hab, ?_⟩
      intro g q hg ga gb hq hqab gq
      by_contra hgn
      have gpos : 0 < g.ev (m.org res.opp) :=
        lt_of_le_of_ne (hg _ (hI.mem hR hL (hI.comp.opp hD))) (Ne.symm hgn)
      obtain ⟨c, c1, c2, c3⟩ := nbr_left hL (fun p hp => hg p (List.mem_append_left _ hp)) ga gq
        hI.memL hq hqab
      obtain ⟨e, he, eo, es⟩ := hI.d2 (.inl ⟨.inl c1, g, hg, ga, c3⟩)
      rw [← es] at c2 c3
      have hre : res ≠ e := by rintro rfl; exact hgn c3
      have k1 := ((hI.first_left he eo c2 hn).2).resolve_left hre
      apply hc
      by_cases hye : m.next res = e
      · rw [above_iff]
        have : m.stop (m.lfs res) = m.org e.opp := by rw [← hye]; rfl
        rw [this]
        exact ⟨(hf _).2 (pencil_lt fa fb fn ga gb c3 gpos hab c2), c2⟩
      · have srt := hI.comp.sorted hD he (by rw [eo, hro]) (Ne.symm hre) (Ne.symm hye)
        rw [hro] at srt
        have e1 : cross (m.org base.opp) (m.org e.opp) (m.org res.opp) < 0 := by rw [cross_neg]; linarith
        obtain ⟨k3, k2⟩ : 0 < cross (m.org base.opp) (m.org res.opp) (m.org (m.next res).opp) ∧
            0 < cross (m.org base.opp) (m.org (m.next res).opp) (m.org e.opp) := by
          rcases srt with h1 | ⟨_, h1⟩ | ⟨h1, _⟩
          · exact h1
          · linarith
          · linarith
        have k4 : 0 < cross (m.org base.opp) (m.org base) (m.org (m.next res).opp) := by
          have p := pluck (m.org base.opp) (m.org base) (m.org res.opp) (m.org (m.next res).opp)
            (m.org e.opp)
          have t1 := mul_pos hab k2
          have t2 := mul_pos c2 k3
          by_contra hcon
          have := mul_nonpos_of_nonpos_of_nonneg (not_lt.1 hcon) (le_of_lt k1)
          linarith
        have hary := hI.al hR yD yo k4
        obtain ⟨h, hh, hb, hy⟩ := hL.del hary
        rw [above_iff]
        refine ⟨(hf _).2 ?_, k4⟩
        exact improve_left fa fb fn ga gb c3 gpos hab c2 hb hy (hh _ nL)
          (hh _ (hL.mem (hL.symm (hI.al hR he eo c2)))) k1 k2 k3

theorem toRight (hR : DT R AR) (hL : DT L AL) {m₀ : Mesh K} {D₀ : Ref → Prop}
    (h0 : ∀ {x}, D₀ x → m₀.Edge x) (fuel : Nat) {m : Mesh K} {D : Ref → Prop}
    (hI : Inv S AL AR C m D base) (hF : Fr (L ++ R) m₀ D₀ m D)
    {m' : Mesh K} {o : Option Ref} (h : toRightCandidate fuel m base = .ok (m', o)) :
    ∃ D', Inv S AL AR C m' D' base ∧ Fr (L ++ R) m₀ D₀ m' D' ∧ m'.org = m.org ∧
      (∀ x, D x → m.org x ∈ L → D' x ∧ m'.next x = m.next x) ∧
      (∀ r, o = some r → D' r ∧ m'.next r = base ∧
        0 < cross (m.org base.opp) (m.org base) (m.org r.opp)) ∧
      (∀ (g : Circ K) q, g.Empty (L ++ R) → g.ev (m.org base.opp) = 0 → g.ev (m.org base) = 0 → q ∈ R →
        0 < cross (m.org base.opp) (m.org base) q → g.ev q = 0 →
        ∃ r, o = some r ∧ g.ev (m.org r.opp) = 0) := by
  unfold HG.toRightCandidate at h
  dsimp only at h
  have yD : D (m.rfs base) := hI.comp.prev hI.dbase
  have yn : m.next (m.rfs base) = base := hI.comp.next_prev hI.dbase
  split at h
  · rename_i hc
    simp only [exc_pure_ok, Prod.mk.injEq] at h
    obtain ⟨rfl, rfl⟩ := h
    refine ⟨D, hI, hF, rfl, fun x hx _ => ⟨hx, rfl⟩, by simp, ?_⟩
    intro g q hg ga gb hq hqab gq
    exfalso
    obtain ⟨c, c1, c2, c3⟩ := hR.nbr (P := L ++ R) (fun p hp => List.mem_append_right _ hp) hg gb gq
      hI.memR hq hqab
    obtain ⟨e, he, eo, es⟩ := hI.d2 (.inl ⟨.inr c1, g, hg, gb, c3⟩)
    rw [← es] at c2
    apply hc
    rw [above_iff]
    exact (hI.first_right he eo c2 yD yn).1
  · rename_i hc
    rw [ne_eq, not_not, above_iff] at hc
    simp only [exc_bind_ok, exc_pure_ok] at h
    obtain ⟨⟨m1, r1⟩, h1, h2⟩ := h
    simp only [Prod.mk.injEq] at h2
    obtain ⟨rfl, rfl⟩ := h2
    obtain ⟨D', r1, r2, r3, r4, r5, r6, r7, r8⟩ := rightLoop hR hL h0 fuel hI hF yD yn hc h1
    refine ⟨D', r1, r2, r5, r7, ?_, ?_⟩
    · intro r hr
      cases hr
      exact ⟨r3, r4, r6⟩
    · intro g q hg ga gb hq hqab gq
      exact ⟨_, rfl, r8 g q hg ga gb hq hqab gq⟩

theorem toLeft (hR : DT R AR) (hL : DT L AL) {m₀ : Mesh K} {D₀ : Ref → Prop}
    (h0 : ∀ {x}, D₀ x → m₀.Edge x) (fuel : Nat) {m : Mesh K} {D : Ref → Prop}
    (hI : Inv S AL AR C m D base) (hF : Fr (L ++ R) m₀ D₀ m D)
    {m' : Mesh K} {o : Option Ref} (h : toLeftCandidate fuel m base = .ok (m', o)) :
    ∃ D', Inv S AL AR C m' D' base ∧ Fr (L ++ R) m₀ D₀ m' D' ∧ m'.org = m.org ∧
      (∀ r, o = some r → D' r ∧ m'.next base.opp = r ∧
        0 < cross (m.org base.opp) (m.org base) (m.org r.opp)) ∧
      (∀ (g : Circ K) q, g.Empty (L ++ R) → g.ev (m.org base.opp) = 0 → g.ev (m.org base) = 0 → q ∈ L →
        0 < cross (m.org base.opp) (m.org base) q → g.ev q = 0 →
        ∃ r, o = some r ∧ g.ev (m.org r.opp) = 0) := by
  unfold HG.toLeftCandidate at h
  dsimp only at h
  have yD : D (m.lfs base.opp) := hI.comp.next (hI.comp.opp hI.dbase)
  split at h
  · rename_i hc
    simp only [exc_pure_ok, Prod.mk.injEq] at h
    obtain ⟨rfl, rfl⟩ := h
    refine ⟨D, hI, hF, rfl, by simp, ?_⟩
    intro g q hg ga gb hq hqab gq
    exfalso
    obtain ⟨c, c1, c2, c3⟩ := nbr_left hL (fun p hp => hg p (List.mem_append_left _ hp)) ga gq
      hI.memL hq hqab
    obtain ⟨e, he, eo, es⟩ := hI.d2 (.inl ⟨.inl c1, g, hg, ga, c3⟩)
    rw [← es] at c2
    apply hc
    rw [above_iff]
    exact (hI.first_left he eo c2 rfl).1
  · rename_i hc
    rw [ne_eq, not_not, above_iff] at hc
    simp only [exc_bind_ok, exc_pure_ok] at h
    obtain ⟨⟨m1, r1⟩, h1, h2⟩ := h
    simp only [Prod.mk.injEq] at h2
    obtain ⟨rfl, rfl⟩ := h2
    obtain ⟨D', r1, r2, r3, r4, r5, r6, r7⟩ := leftLoop hR hL h0 fuel hI hF yD rfl hc h1
    refine ⟨D', r1, r2, r5, ?_, ?_⟩
    · intro r hr
      cases hr
      exact ⟨r3, r4, r6⟩
    · intro g q hg ga gb hq hqab gq
      exact ⟨_, rfl, r7 g q hg ga gb hq hqab gq⟩

theorem connectLoop_inv (hR : DT R AR) (hL : DT L AL) {m₀ : Mesh K} {D₀ : Ref → Prop}
    (h0 : ∀ {x}, D₀ x → m₀.Edge x) (inner fuel : Nat) {C : Rel K} {m : Mesh K} {D : Ref → Prop}
    {base : Ref} (hI : Inv S AL AR C m D base) (hF : Fr (L ++ R) m₀ D₀ m D)
    {m' : Mesh K} (h : connectLoop inner fuel m base = .ok m') :
    ∃ C' D' base', Inv S AL AR C' m' D' base' ∧ Fr (L ++ R) m₀ D₀ m' D' ∧
      (∀ x y, C x y → C' x y) ∧
      ∀ p ∈ L ++ R, cross (m'.org base'.opp) (m'.org base') p ≤ 0 := by
  induction fuel generalizing C m D base with
  | zero => simp [HG.connectLoop] at h
  | succ n ih =>
    simp only [HG.connectLoop, exc_bind_ok] at h
    obtain ⟨⟨m1, l⟩, h1, ⟨m2, r⟩, h2, h3⟩ := h
    obtain ⟨D1, hI1, hF1, ho1, hl, gl⟩ := toLeft hR hL h0 inner hI hF h1
    obtain ⟨D2, hI2, hF2, ho2, hk, hr, gr⟩ := toRight hR hL h0 inner hI1 hF1 h2
    rw [← ho1, ← ho2] at hl gl
    rw [← ho2] at hr gr
    -- the left candidate survives
    have hl2 : ∀ x, l = some x → D2 x ∧ m2.next base.opp = x ∧
        0 < cross (m2.org base.opp) (m2.org base) (m2.org x.opp) := by
      intro x hx
      obtain ⟨x1, x2, x3⟩ := hl x hx
      have hbo := hI1.comp.opp hI1.dbase
      obtain ⟨y1, y2⟩ := hk _ hbo hI1.memL
      have hxo : m1.org x ∈ L := by
        rw [← x2, hI1.comp.org hbo]; exact hI1.memL
      exact ⟨(hk x x1 hxo).1, by rw [y2, x2], x3⟩
    have right : ∀ r, D2 r → m2.next r = base →
        DTri (L ++ R) (m2.org base.opp) (m2.org base) (m2.org r.opp) →
        HG.connectLoop inner n (m2.connect r base.opp).1 (m2.connect r base.opp).2 = .ok m' →
        ∃ C' D' base', Inv S AL AR C' m' D' base' ∧ Fr (L ++ R) m₀ D₀ m' D' ∧
          (∀ x y, C x y → C' x y) ∧
          ∀ p ∈ L ++ R, cross (m'.org base'.opp) (m'.org base') p ≤ 0 := by
      intro r r1 r2 ht hh
      obtain ⟨C', D', b', i1, i2, i3, i4⟩ := ih (hI2.stepRight hR hL r1 r2 ht)
        (hF2.connect hI2.comp r1 (hI2.comp.opp hI2.dbase)) hh
      exact ⟨C', D', b', i1, i2, fun x y hxy => i3 x y (.inl hxy), i4⟩
    have left : ∀ x, D2 x → m2.next base.opp = x →
        DTri (L ++ R) (m2.org base.opp) (m2.org base) (m2.org x.opp) →
        HG.connectLoop inner n (m2.connect base.opp x.opp).1 (m2.connect base.opp x.opp).2 = .ok m' →
        ∃ C' D' base', Inv S AL AR C' m' D' base' ∧ Fr (L ++ R) m₀ D₀ m' D' ∧
          (∀ x y, C x y → C' x y) ∧
          ∀ p ∈ L ++ R, cross (m'.org base'.opp) (m'.org base') p ≤ 0 := by
      intro x r1 r2 ht hh
      obtain ⟨C', D', b', i1, i2, i3, i4⟩ := ih (hI2.stepLeft hR hL r1 r2 ht)
        (hF2.connect hI2.comp (hI2.comp.opp hI2.dbase) (hI2.comp.opp r1)) hh
      exact ⟨C', D', b', i1, i2, fun x y hxy => i3 x y (.inl hxy), i4⟩
    obtain ⟨f, hf, fa, fb⟩ := hI2.ms.cdel hI2.ms.base
    -- the first circle met when growing the empty circle upwards
    have meet : (∃ q ∈ L ++ R, 0 < cross (m2.org base.opp) (m2.org base) q) → ∃ (g : Circ K),
        g.Empty (L ++ R) ∧ g.ev (m2.org base.opp) = 0 ∧ g.ev (m2.org base) = 0 ∧
        ((∃ x, l = some x ∧ g.ev (m2.org x.opp) = 0) ∨ (∃ x, r = some x ∧ g.ev (m2.org x.opp) = 0)) ∧
        ((∀ x, l = some x → g.ev (m2.org x.opp) ≠ 0) → ∃ x, r = some x ∧ g.ev (m2.org x.opp) = 0) := by
      intro hex
      obtain ⟨g, q, hq, hqab, ga, gb, gq, ge, -⟩ := pencil_min hf (fun p hp => hp) fa fb hex
      have key : (∃ x, l = some x ∧ g.ev (m2.org x.opp) = 0) ∨
          (∃ x, r = some x ∧ g.ev (m2.org x.opp) = 0) := by
        rcases List.mem_append.1 hq with hq | hq
        · exact .inl (gl g q ge ga gb hq hqab gq)
        · exact .inr (gr g q ge ga gb hq hqab gq)
      refine ⟨g, ge, ga, gb, key, fun hno => ?_⟩
      rcases key with ⟨x, hx, gx⟩ | k
      · exact absurd gx (hno x hx)
      · exact k
    rcases l with _ | l' <;> rcases r with _ | r' <;> dsimp only at h3
    · simp only [exc_pure_ok] at h3
      subst h3
      refine ⟨C, D2, base, hI2, hF2, fun _ _ h => h, ?_⟩
      by_contra hc
      push Not at hc
      obtain ⟨g, -, -, -, key, -⟩ := meet hc
      rcases key with ⟨x, hx, _⟩ | ⟨x, hx, _⟩
      · simp at hx
      · simp at hx
    · obtain ⟨r1, r2, r3⟩ := hr r' rfl
      obtain ⟨g, ge, ga, gb, key, -⟩ := meet ⟨_, hI2.mem hR hL (hI2.comp.opp r1), r3⟩
      refine right r' r1 r2 ⟨r3, g, ge, ga, gb, ?_⟩ h3
      rcases key with ⟨x, hx, _⟩ | ⟨x, hx, gx⟩
      · simp at hx
      · cases hx; exact gx
    · obtain ⟨r1, r2, r3⟩ := hl2 l' rfl
      obtain ⟨g, ge, ga, gb, key, -⟩ := meet ⟨_, hI2.mem hR hL (hI2.comp.opp r1), r3⟩
      refine left l' r1 r2 ⟨r3, g, ge, ga, gb, ?_⟩ h3
      rcases key with ⟨x, hx, gx⟩ | ⟨x, hx, gx⟩
      · cases hx; exact gx
      · simp at hx
    · obtain ⟨l1, l2, l3⟩ := hl2 l' rfl
      obtain ⟨r1, r2, r3⟩ := hr r' rfl
      obtain ⟨g, ge, ga, gb, -, key⟩ := meet ⟨_, hI2.mem hR hL (hI2.comp.opp r1), r3⟩
      obtain ⟨f', fl, fa', fb', hf'⟩ := circ_through
        (show 0 < cross (m2.org l'.opp) (m2.org base.opp) (m2.org base) by rw [cross_rot']; exact l3)
      have glr : g.ev (m2.org l'.opp) ≠ 0 → g.ev (m2.org r'.opp) = 0 := by
        intro hne
        obtain ⟨x, hx, gx⟩ := key (fun x hx => by cases hx; exact hne)
        cases hx; exact gx
      split at h3
      · rename_i hc
        have hc' : f'.ev (m2.org r'.opp) < 0 := (hf' _).1 hc
        refine right r' r1 r2 ⟨r3, g, ge, ga, gb, glr ?_⟩ h3
        intro hgl
        have := circ_unique (ne_of_gt l3) (f := f') (g := g) (by rw [fa', ga]) (by rw [fb', gb])
          (by rw [fl, hgl]) (m2.org r'.opp)
        rw [this] at hc'
        have := ge _ (hI2.mem hR hL (hI2.comp.opp r1))
        linarith
      · rename_i hc
        have hc' : ¬ f'.ev (m2.org r'.opp) < 0 := fun h => hc ((hf' _).2 h)
        refine left l' l1 l2 ⟨l3, g, ge, ga, gb, ?_⟩ h3
        by_contra hne
        have hpos := lt_of_le_of_ne (ge _ (hI2.mem hR hL (hI2.comp.opp l1))) (Ne.symm hne)
        exact hc' (pencil_lt fa' fb' fl ga gb (glr hne) hpos l3 r3)

/-- The graph drawn by a set of darts. -/
def Adj (m : Mesh K) (D : Ref → Prop) (a b : Point K) : Prop := ∃ e, D e ∧ m.org e = a ∧ m.org e.opp = b

theorem Inv.adj (hI : Inv S AL AR C m D base) (hR : DT R AR) (hL : DT L AL)
    (top : ∀ p ∈ L ++ R, cross (m.org base.opp) (m.org base) p ≤ 0)
    (inj : ∀ p ∈ L ++ R, ∀ q ∈ L ++ R, S.s p = S.s q → p = q) : DT (L ++ R) (Adj m D) := by
  have hdt := hI.ms.final hR hL top inj
  have : BB L R AL AR C = Adj m D := by
    funext x y
    refine propext ⟨hI.d2, ?_⟩
    rintro ⟨e, he, rfl, rfl⟩
    refine hdt.maximal (hI.mem hR hL he) (hI.mem hR hL (hI.comp.opp he)) (hI.comp.ne he)
      (fun p hp => hI.nomid hR hL he hp) ?_
    intro c d hcd
    obtain ⟨f, hf, rfl, rfl⟩ := hI.d2 hcd
    exact hI.comp.nocross he hf
  rw [← this]
  exact hdt

end
end HG
