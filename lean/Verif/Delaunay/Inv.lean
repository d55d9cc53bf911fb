import Verif.Delaunay.Comp

/-!
# The state of the merging loop
-/

set_option linter.unusedSectionVars false

namespace HG

variable {K : Type} [Field K] [LinearOrder K] [IsStrictOrderedRing K]
variable {L R : List (Point K)}

theorem Sep.rot3 (S : Sep L R) (o a b c : Point K) : (S.s a - S.s o) * cross o b c
    + (S.s b - S.s o) * cross o c a + (S.s c - S.s o) * cross o a b = 0 := by
  unfold Sep.s cross; ring

/-- All edges drawn so far cross the separating line below the last one. -/
def Bel (S : Sep L R) (C : Rel K) (a b : Point K) : Prop :=
  ∀ x y, C x y → (x = a ∧ y = b) ∨ cross a b (S.pt x y) < 0

theorem Bel.right {S : Sep L R} {C : Rel K} {a b c : Point K} (h : Bel S C a b)
    (hC : ∀ {x y}, C x y → x ∈ L ∧ y ∈ R) (ha : a ∈ L) (hb : b ∈ R) (hc : c ∈ R)
    (h0 : 0 < cross a b c) : Bel S (addC C a c) a c := by
  rintro x y (hxy | h1)
  · right
    obtain ⟨hx, hy⟩ := hC hxy
    have pos := S.pos hx hy
    have ptc := S.pt_s (ne_of_gt pos)
    rcases h x y hxy with ⟨rfl, rfl⟩ | hX
    · have e := S.pt_cross (ne_of_gt pos) x c
      rw [cross_self13, mul_zero, zero_add, cross_neg x y c] at e
      have t := mul_pos (show 0 < S.c - S.s x by linarith [S.lt' hx]) h0
      by_contra hcon
      have := mul_nonneg (not_lt.1 hcon) (le_of_lt pos)
      linarith
    · have e := S.rot3 a b c (S.pt x y)
      rw [ptc, cross_neg a b (S.pt x y)] at e
      have t1 := mul_neg_of_pos_of_neg (show 0 < S.s c - S.s a by linarith [S.lt' ha, S.gt' hc]) hX
      have t2 := mul_pos (show 0 < S.c - S.s a by linarith [S.lt' ha]) h0
      by_contra hcon
      have := mul_nonneg (show 0 ≤ S.s b - S.s a by linarith [S.lt' ha, S.gt' hb]) (not_lt.1 hcon)
      linarith
  · exact .inl h1

theorem Bel.left {S : Sep L R} {C : Rel K} {a b c : Point K} (h : Bel S C a b)
    (hC : ∀ {x y}, C x y → x ∈ L ∧ y ∈ R) (ha : a ∈ L) (hb : b ∈ R) (hc : c ∈ L)
    (h0 : 0 < cross a b c) : Bel S (addC C c b) c b := by
  rintro x y (hxy | h1)
  · right
    obtain ⟨hx, hy⟩ := hC hxy
    have pos := S.pos hx hy
    have ptc := S.pt_s (ne_of_gt pos)
    rcases h x y hxy with ⟨rfl, rfl⟩ | hX
    · have e := S.pt_cross (ne_of_gt pos) c y
      rw [cross_self23, mul_zero, add_zero, cross_swap13 x y c] at e
      have t := mul_pos (show 0 < S.s y - S.c by linarith [S.gt' hy]) h0
      by_contra hcon
      have := mul_nonneg (not_lt.1 hcon) (le_of_lt pos)
      linarith
    · have e := S.rot3 b a c (S.pt x y)
      have e1 : cross b (S.pt x y) a = cross a b (S.pt x y) := cross_rot a b _
      have e2 : cross b a c = - cross a b c := cross_swap12 a b c
      have e3 : cross b c (S.pt x y) = - cross c b (S.pt x y) := cross_swap12 c b _
      rw [ptc, e1, e2, e3] at e
      have t1 := mul_pos_of_neg_of_neg (show S.s c - S.s b < 0 by linarith [S.lt' hc, S.gt' hb]) hX
      have t2 := mul_pos (show 0 < S.s b - S.c by linarith [S.gt' hb]) h0
      by_contra hcon
      have := mul_nonneg (show 0 ≤ S.s b - S.s a by linarith [S.lt' ha, S.gt' hb]) (not_lt.1 hcon)
      linarith
  · exact .inl h1

theorem Bel.at_left {S : Sep L R} {C : Rel K} {a b y : Point K} (h : Bel S C a b)
    (hC : ∀ {x y}, C x y → x ∈ L ∧ y ∈ R) (hy : C a y) : y = b ∨ cross a b y < 0 := by
  rcases h a y hy with h1 | h1
  · exact .inl h1.2
  · right
    obtain ⟨hx, hy'⟩ := hC hy
    have pos := S.pos hx hy'
    have e := S.pt_cross (ne_of_gt pos) a b
    rw [cross_self13, mul_zero, zero_add] at e
    have t := mul_neg_of_neg_of_pos h1 pos
    by_contra hcon
    have := mul_nonneg (show 0 ≤ S.c - S.s a by linarith [S.lt' hx]) (not_lt.1 hcon)
    linarith

theorem Bel.at_right {S : Sep L R} {C : Rel K} {a b x : Point K} (h : Bel S C a b)
    (hC : ∀ {x y}, C x y → x ∈ L ∧ y ∈ R) (hx : C x b) : x = a ∨ cross a b x < 0 := by
  rcases h x b hx with h1 | h1
  · exact .inl h1.1
  · right
    obtain ⟨hx', hy⟩ := hC hx
    have pos := S.pos hx' hy
    have e := S.pt_cross (ne_of_gt pos) a b
    rw [cross_self23, mul_zero, add_zero] at e
    have t := mul_neg_of_neg_of_pos h1 pos
    by_contra hcon
    have := mul_nonneg (show 0 ≤ S.s b - S.c by linarith [S.gt' hy]) (not_lt.1 hcon)
    linarith

/-- A point of an open segment separates its ends under `s`. -/
theorem mid_s (S : Sep L R) {u v p : Point K} (h : Mid u v p) :
    (S.s u < S.c → S.s v < S.c → S.s p < S.c) ∧ (S.c < S.s u → S.c < S.s v → S.c < S.s p) := by
  have e1 : (diam u v).ev p = dot p u v := by rw [ev_diam]; unfold dot; ring
  have hn := h.2
  rw [e1] at hn
  have d1 : 0 < dot u v p := by
    have : dot u v p = dot u p p - dot p u v := by unfold dot; ring
    have h2 : 0 ≤ dot u p p := by
      unfold dot; nlinarith [mul_self_nonneg (p.x - u.x), mul_self_nonneg (p.y - u.y)]
    linarith
  have d2 : 0 < dot v u p := by
    have : dot v u p = dot v p p - dot p u v := by unfold dot; ring
    have h2 : 0 ≤ dot v p p := by
      unfold dot; nlinarith [mul_self_nonneg (p.x - v.x), mul_self_nonneg (p.y - v.y)]
    linarith
  have e : (S.s p - S.c) * dot u v v = (S.s u - S.c) * dot v u p + (S.s v - S.c) * dot u v p
      + cross u v p * (S.sy * (v.x - u.x) - S.sx * (v.y - u.y)) := by
    unfold Sep.s dot cross; ring
  rw [h.1, zero_mul, add_zero] at e
  have d3 : 0 ≤ dot u v v := by
    unfold dot; nlinarith [mul_self_nonneg (v.x - u.x), mul_self_nonneg (v.y - u.y)]
  constructor
  · intro hu hv
    have t1 := mul_neg_of_neg_of_pos (sub_neg.2 hu) d2
    have t2 := mul_neg_of_neg_of_pos (sub_neg.2 hv) d1
    by_contra hc
    have := mul_nonneg (sub_nonneg.2 (not_lt.1 hc)) d3
    linarith
  · intro hu hv
    have t1 := mul_pos (sub_pos.2 hu) d2
    have t2 := mul_pos (sub_pos.2 hv) d1
    by_contra hc
    have := mul_nonneg (sub_nonneg.2 (not_lt.1 hc)) d3
    have e4 : (S.c - S.s p) = -(S.s p - S.c) := by ring
    rw [e4] at this
    linarith

/-- No edge crosses a side of an empty triangle if none crosses the other two sides nor leaves the
opposite corner inside the angle. -/
theorem nox {P : List (Point K)} {a b c u v : Point K} (ht : DTri P a b c) (hb : b ∈ P)
    (hu : u ∈ P) (hv : v ∈ P) (hm : ¬ Mid u v b) (h1 : ¬ XX u v a b) (h2 : ¬ XX u v b c)
    (hw : ∀ z, (u = b ∧ v = z) ∨ (v = b ∧ u = z) → z = a ∨ z = c ∨ Cyc b c a z) : ¬ XX u v a c := by
  have h0 := ht.1
  have key : ∀ {u v}, u ∈ P → cross a c u < 0 → ¬ Mid u v b → ¬ XX u v a b → ¬ XX u v b c →
      (u = b → v = a ∨ v = c ∨ Cyc b c a v) → ¬ XX u v a c := by
    intro u v hu hbu hm h1 h2 hw hX
    rcases pasch ht hb hu hbu hX hm with h | h | h
    · exact h1 h
    · exact h2 h
    · obtain ⟨x1, x2⟩ := hX
      subst h
      rcases hw rfl with rfl | rfl | hc
      · simp at x1
      · simp at x1
      · have hcv : 0 < cross a c v := by
          by_contra hc
          have := mul_nonneg_of_nonpos_of_nonpos (le_of_lt hbu) (not_lt.1 hc)
          linarith
        have s1 := cross_sum a u c v
        have e1 : cross v u c = cross u c v := cross_rot' u c v
        have e2 : cross a v c = - cross a c v := cross_neg a c v
        have e3 : cross u v a = cross a u v := cross_rot a u v
        have e4 : cross u v c = - cross u c v := cross_neg u c v
        have e5 : cross u a v = - cross a u v := cross_swap12 a u v
        rw [e1, e2] at s1
        rw [e3, e4] at x1
        have d : 0 < cross u a v ∨ 0 < cross u v c := by
          rcases hc with ⟨-, hc⟩ | ⟨hc, -⟩ | ⟨hc, -⟩
          · exact .inl hc
          · exact .inl hc
          · exact .inr hc
        rw [e5, e4] at d
        rcases d with d | d
        · have : cross u c v < 0 := by
            by_contra hcon
            have hA : cross a u v < 0 := by linarith
            have := mul_nonneg_of_nonpos_of_nonpos (le_of_lt hA)
              (show - cross u c v ≤ 0 by linarith [not_lt.1 hcon])
            linarith
          linarith
        · have : cross a u v < 0 := by
            by_contra hcon
            have := mul_nonneg (not_lt.1 hcon) (le_of_lt d)
            linarith
          linarith
  intro hX
  rcases lt_trichotomy (cross a c u) 0 with h | h | h
  · exact key hu h hm h1 h2 (fun hh => hw v (.inl ⟨hh, rfl⟩)) hX
  · have := hX.2
    rw [h, zero_mul] at this
    exact lt_irrefl _ this
  · have hv' : cross a c v < 0 := by
      by_contra hc
      have := mul_nonneg (le_of_lt h) (not_lt.1 hc)
      linarith [hX.2]
    exact key hv hv' (fun hh => hm (mid_symm hh)) (fun hh => h1 hh.swap) (fun hh => h2 hh.swap)
      (fun hh => hw u (.inr ⟨hh, rfl⟩)) hX.swap

structure Inv (S : Sep L R) (AL AR C : Rel K) (m : Mesh K) (D : Ref → Prop) (base : Ref) : Prop where
  comp : Comp m D
  dbase : D base
  ms : MS S AL AR C (m.org base.opp) (m.org base)
  bel : Bel S C (m.org base.opp) (m.org base)
  d1 : ∀ {e}, D e → AL (m.org e) (m.org e.opp) ∨ AR (m.org e) (m.org e.opp) ∨
    C (m.org e) (m.org e.opp) ∨ C (m.org e.opp) (m.org e)
  d2 : ∀ {x y}, BB L R AL AR C x y → ∃ e, D e ∧ m.org e = x ∧ m.org e.opp = y

/-- What happens to the darts `D₀` of the two parts and to the rest of the mesh `m₀`. -/
structure Fr (P : List (Point K)) (m₀ : Mesh K) (D₀ : Ref → Prop) (m : Mesh K) (D : Ref → Prop) :
    Prop where
  size : m₀.size ≤ m.size
  org : ∀ {e}, m₀.Edge e → m.org e = m₀.org e
  keep : ∀ {e}, D₀ e → Del P (m₀.org e) (m₀.org e.opp) → D e
  sub : ∀ {e}, D e → D₀ e ∨ m₀.size ≤ e.q
  next : ∀ {e}, m₀.Edge e → ¬ D₀ e → m.next e = m₀.next e

section
variable {S : Sep L R} {AL AR C : Rel K} {m : Mesh K} {D : Ref → Prop} {base : Ref}

theorem Inv.memL (h : Inv S AL AR C m D base) : m.org base.opp ∈ L := (h.ms.cmem h.ms.base).1
theorem Inv.memR (h : Inv S AL AR C m D base) : m.org base ∈ R := (h.ms.cmem h.ms.base).2

theorem Inv.mem (h : Inv S AL AR C m D base) (hR : DT R AR) (hL : DT L AL) {e : Ref} (he : D e) :
    m.org e ∈ L ++ R := by
  rcases h.d1 he with h1 | h1 | h1 | h1
  · exact List.mem_append_left _ (hL.mem h1)
  · exact List.mem_append_right _ (hR.mem h1)
  · exact List.mem_append_left _ (h.ms.cmem h1).1
  · exact List.mem_append_right _ (h.ms.cmem h1).2

theorem Inv.nomid (h : Inv S AL AR C m D base) (hR : DT R AR) (hL : DT L AL) {e : Ref} (he : D e)
    {p : Point K} (hp : p ∈ L ++ R) : ¬ Mid (m.org e) (m.org e.opp) p := by
  intro hm
  rcases h.d1 he with h1 | h1 | h1 | h1
  · rcases List.mem_append.1 hp with hp | hp
    · exact (hL.del h1).not_mid hp hm
    · have := (mid_s S hm).1 (S.lt' (hL.mem h1)) (S.lt' (hL.mem (hL.symm h1)))
      linarith [S.gt' hp]
  · rcases List.mem_append.1 hp with hp | hp
    · have := (mid_s S hm).2 (S.gt' (hR.mem h1)) (S.gt' (hR.mem (hR.symm h1)))
      linarith [S.lt' hp]
    · exact (hR.del h1).not_mid hp hm
  · exact (h.ms.cdel h1).not_mid hp hm
  · exact (h.ms.cdel h1).symm.not_mid hp hm

/-- A dart at the right end above the base is an edge of the right part. -/
theorem Inv.ar (h : Inv S AL AR C m D base) (hL : DT L AL) {e : Ref} (he : D e)
    (ho : m.org e = m.org base) (hab : 0 < cross (m.org base.opp) (m.org base) (m.org e.opp)) :
    AR (m.org base) (m.org e.opp) := by
  rcases h.d1 he with h1 | h1 | h1 | h1
  · exfalso
    exact S.disj (hL.mem h1) (by rw [ho]; exact h.memR)
  · rw [ho] at h1; exact h1
  · exfalso
    exact S.disj (h.ms.cmem h1).1 (by rw [ho]; exact h.memR)
  · exfalso
    rw [ho] at h1
    rcases h.bel.at_right h.ms.cmem h1 with h2 | h2
    · rw [h2] at hab; simp at hab
    · linarith

/-- A dart at the left end above the base is an edge of the left part. -/
theorem Inv.al (h : Inv S AL AR C m D base) (hR : DT R AR) {e : Ref} (he : D e)
    (ho : m.org e = m.org base.opp) (hab : 0 < cross (m.org base.opp) (m.org base) (m.org e.opp)) :
    AL (m.org base.opp) (m.org e.opp) := by
  rcases h.d1 he with h1 | h1 | h1 | h1
  · rw [ho] at h1; exact h1
  · exfalso
    exact S.disj h.memL (by rw [← ho]; exact hR.mem h1)
  · exfalso
    rw [ho] at h1
    rcases h.bel.at_left h.ms.cmem h1 with h2 | h2
    · rw [h2] at hab; simp at hab
    · linarith
  · exfalso
    exact S.disj h.memL (by rw [← ho]; exact (h.ms.cmem h1).2)

theorem Inv.delete (h : Inv S AL AR C m D base) {e : Ref} (he : D e) (h1 : e ≠ base)
    (h2 : e ≠ base.opp) (hd : ¬ Del (L ++ R) (m.org e) (m.org e.opp)) :
    Inv S AL AR C (m.delete e) (fun x => D x ∧ x ≠ e ∧ x ≠ e.opp) base := by
  refine ⟨h.comp.delete he, ⟨h.dbase, h1.symm, fun hh => h2 (by rw [hh, Ref.opp_opp])⟩, ?_, ?_, ?_, ?_⟩
  · simp only [delete_org]; exact h.ms
  · simp only [delete_org]; exact h.bel
  · intro x hx; simp only [delete_org]; exact h.d1 hx.1
  · intro x y hxy
    simp only [delete_org]
    obtain ⟨f, hf, fx, fy⟩ := h.d2 hxy
    have hdel : Del (L ++ R) x y := by
      rcases hxy with h1 | h1 | h1
      · exact h1.2
      · exact h.ms.cdel h1
      · exact (h.ms.cdel h1).symm
    refine ⟨f, ⟨hf, ?_, ?_⟩, fx, fy⟩
    · rintro rfl; rw [fx, fy] at hd; exact hd hdel
    · rintro rfl
      rw [Ref.opp_opp] at fy
      rw [fx, fy] at hd; exact hd hdel.symm

theorem Fr.delete {P : List (Point K)} {m₀ : Mesh K} {D₀ : Ref → Prop} (h : Fr P m₀ D₀ m D)
    (hc : Comp m D) {e : Ref} (he : D e) (hd : ¬ Del P (m.org e) (m.org e.opp))
    (ho : ∀ {x}, D₀ x → m₀.Edge x) : Fr P m₀ D₀ (m.delete e) (fun x => D x ∧ x ≠ e ∧ x ≠ e.opp) := by
  refine ⟨h.size, fun hx => by rw [delete_org]; exact h.org hx, ?_, fun hx => h.sub hx.1, ?_⟩
  · intro x hx hdel
    refine ⟨h.keep hx hdel, ?_, ?_⟩
    · rintro rfl
      rw [← h.org (ho hx), ← h.org (ho hx).opp] at hdel
      exact hd hdel
    · rintro rfl
      rw [← h.org (ho hx), ← h.org (ho hx).opp, Ref.opp_opp] at hdel
      exact hd hdel.symm
  · intro x hx hx0
    have hxD : ¬ D x := by
      intro hh
      rcases h.sub hh with h1 | h1
      · exact hx0 h1
      · have := hx.alloc; omega
    have ex : m.Edge x := ⟨lt_of_lt_of_le hx.alloc h.size, hx.primal⟩
    rw [delete_next hc.wf (hc.edge he) (hc.next_ne_opp he (hc.opp he) (hc.ne he))
      (hc.next_ne_opp (hc.opp he) he (hc.ne he).symm) ex]
    have back : ∀ {y}, D y → m.next x ≠ y := by
      intro y hy hh
      apply hxD
      rw [(eq_rfs_iff hc.wf (hc.edge hy) ex).2 hh]
      exact hc.prev hy
    rw [if_neg, if_neg (back he), if_neg (back (hc.opp he)), h.next hx hx0]
    rintro (rfl | rfl)
    · exact hxD he
    · exact hxD (hc.opp he)

theorem Fr.connect {P : List (Point K)} {m₀ : Mesh K} {D₀ : Ref → Prop} (h : Fr P m₀ D₀ m D)
    (hc : Comp m D) {a b : Ref} (ha : D a) (hb : D b) :
    Fr P m₀ D₀ (m.connect a b).1 (fun x => D x ∨ x = ⟨m.size, 0⟩ ∨ x = ⟨m.size, 2⟩) := by
  have hs := h.size
  refine ⟨by rw [connect_size]; omega, ?_, fun hx hd => .inl (h.keep hx hd), ?_, ?_⟩
  · intro x hx
    rw [connect_org_old m a b (by have := hx.alloc; omega), h.org hx]
  · rintro x (hx | rfl | rfl)
    · exact h.sub hx
    · exact .inr hs
    · exact .inr hs
  · intro x hx hx0
    have hxD : ¬ D x := by
      intro hh
      rcases h.sub hh with h1 | h1
      · exact hx0 h1
      · have := hx.alloc; omega
    have ex : m.Edge x := ⟨lt_of_lt_of_le hx.alloc h.size, hx.primal⟩
    rw [connect_next_old hc.wf (hc.edge ha) (hc.edge hb) ex, if_neg, if_neg, h.next hx hx0]
    · intro hh
      apply hxD
      rw [(eq_rfs_iff hc.wf (hc.edge (hc.opp ha)) ex).2 hh]
      exact hc.prev (hc.opp ha)
    · rintro rfl; exact hxD hb

theorem Inv.stepRight (h : Inv S AL AR C m D base) (hR : DT R AR) (hL : DT L AL) {r : Ref} (hr : D r)
    (hrb : m.next r = base) (ht : DTri (L ++ R) (m.org base.opp) (m.org base) (m.org r.opp)) :
    Inv S AL AR (addC C (m.org base.opp) (m.org r.opp)) (m.connect r base.opp).1
      (fun x => D x ∨ x = ⟨m.size, 0⟩ ∨ x = ⟨m.size, 2⟩) ⟨m.size, 0⟩ := by
  have hro : m.org r = m.org base := by rw [← hrb]; exact (h.comp.org hr).symm
  have har := h.ar hL hr hro ht.1
  have hdb := h.dbase
  have hbo := h.comp.opp hdb
  have aL := h.memL
  have bR := h.memR
  have cR := hR.mem (hR.symm har)
  have nac : m.org r.opp ≠ m.org base.opp := fun hh => S.disj aL (by rw [← hh]; exact cR)
  have h0 := ht.1
  have hnew : ∀ f, D f → m.org f = m.org r.opp → m.org f.opp ≠ m.org base.opp := by
    intro f hf hfo hfs
    rcases h.d1 hf with h1 | h1 | h1 | h1
    · exact S.disj (hL.mem h1) (by rw [hfo]; exact cR)
    · exact S.disj aL (by rw [← hfs]; exact hR.mem (hR.symm h1))
    · exact S.disj (h.ms.cmem h1).1 (by rw [hfo]; exact cR)
    · rw [hfo, hfs] at h1
      rcases h.bel.at_left h.ms.cmem h1 with h2 | h2
      · rw [h2] at h0; simp at h0
      · linarith
  have hx : ∀ f, D f → ¬ XX (m.org r.opp) (m.org base.opp) (m.org f) (m.org f.opp) := by
    intro f hf hX
    refine nox ht (List.mem_append_right _ bR) (h.mem hR hL hf) (h.mem hR hL (h.comp.opp hf))
      (h.nomid hR hL hf (List.mem_append_right _ bR)) ?_ ?_ ?_ hX.swap.symm
    · have := h.comp.nocross hf hbo
      rw [Ref.opp_opp] at this
      exact this
    · have := h.comp.nocross hf hr
      rw [hro] at this
      exact this
    · have wd : ∀ g, D g → m.org g = m.org base → m.org g.opp = m.org base.opp ∨
          m.org g.opp = m.org r.opp ∨
          Cyc (m.org base) (m.org r.opp) (m.org base.opp) (m.org g.opp) := by
        intro g hg hgo
        by_cases g1 : g = r
        · rw [g1]; exact .inr (.inl rfl)
        by_cases g2 : g = base
        · rw [g2]; exact .inl rfl
        have := h.comp.sorted hr hg (by rw [hgo, hro]) g1 (by rw [hrb]; exact g2)
        rw [hro, hrb] at this
        exact .inr (.inr this)
      rintro z (⟨z1, rfl⟩ | ⟨z1, rfl⟩)
      · exact wd f hf z1
      · have := wd f.opp (h.comp.opp hf) z1
        rw [Ref.opp_opp] at this
        exact this
  have hcomp := h.comp.connect hr hbo nac hnew (by
      intro hne
      set y := m.rfs r.opp with hy
      have yD : D y := h.comp.prev (h.comp.opp hr)
      have yo : m.org y = m.org r.opp := h.comp.prev_org (h.comp.opp hr)
      rw [hro]
      refine (wedge ht.rot.rot (List.mem_append_left _ aL) (List.mem_append_right _ bR)
        (h.mem hR hL (h.comp.opp yD)) ?_ ?_ ?_ ?_ ?_).rot.rot
      · rw [← yo]; exact (h.comp.ne yD).symm
      · exact hnew y yD yo
      · intro hh
        exact hne (h.comp.simple yD (h.comp.opp hr) yo (by rw [hh, Ref.opp_opp, hro]))
      · intro p hp
        rw [← yo]
        exact h.nomid hR hL yD hp
      · have := h.comp.nocross yD hbo
        rw [Ref.opp_opp] at this
        rw [← yo]
        exact this) (by
      intro hne
      have yD := h.comp.next hbo
      have yo := h.comp.org hbo
      rw [Ref.opp_opp]
      refine wedge ht (List.mem_append_right _ bR) (List.mem_append_right _ cR)
        (h.mem hR hL (h.comp.opp yD)) ?_ ?_ ?_ ?_ ?_
      · rw [← yo]; exact (h.comp.ne yD).symm
      · intro hh
        exact hne (h.comp.simple yD hbo yo (by rw [hh, Ref.opp_opp]))
      · intro hh
        exact hnew _ (h.comp.opp yD) hh (by rw [Ref.opp_opp]; exact yo)
      · intro p hp
        rw [← yo]
        exact h.nomid hR hL yD hp
      · have := h.comp.nocross yD hr
        rw [hro, yo] at this
        exact this) hx
  have og0 : (m.connect r base.opp).1.org ⟨m.size, 0⟩ = m.org r.opp := connect_org0 m r base.opp
  have og2 := connect_org2 m r base.opp
  have og : ∀ {x}, D x → (m.connect r base.opp).1.org x = m.org x :=
    fun hx => connect_org_old m r base.opp (h.comp.edge hx).alloc
  have op0 : (⟨m.size, 0⟩ : Ref).opp = ⟨m.size, 2⟩ := rfl
  have op2 : (⟨m.size, 2⟩ : Ref).opp = ⟨m.size, 0⟩ := ref2_opp _
  refine ⟨hcomp, .inr (.inl rfl), ?_, ?_, ?_, ?_⟩
  · rw [op0, og0, og2]
    refine h.ms.right hR hL cR har ht ?_
    intro u v huv hd hX
    obtain ⟨f, hf, rfl, rfl⟩ := h.d2 (.inl ⟨.inr huv, hd⟩)
    exact hx f hf hX.symm.swap
  · rw [op0, og0, og2]
    exact h.bel.right h.ms.cmem aL bR cR h0
  · rintro e (he | rfl | rfl)
    · rw [og he, og (h.comp.opp he)]
      rcases h.d1 he with h1 | h1 | h1 | h1
      · exact .inl h1
      · exact .inr (.inl h1)
      · exact .inr (.inr (.inl (.inl h1)))
      · exact .inr (.inr (.inr (.inl h1)))
    · rw [op0, og0, og2]
      exact .inr (.inr (.inr (.inr ⟨rfl, rfl⟩)))
    · rw [op2, og0, og2]
      exact .inr (.inr (.inl (.inr ⟨rfl, rfl⟩)))
  · have old : ∀ {x y}, BB L R AL AR C x y → ∃ e, (D e ∨ e = ⟨m.size, 0⟩ ∨ e = ⟨m.size, 2⟩) ∧
        (m.connect r base.opp).1.org e = x ∧ (m.connect r base.opp).1.org e.opp = y := by
      intro x y hxy
      obtain ⟨f, hf, fx, fy⟩ := h.d2 hxy
      exact ⟨f, .inl hf, by rw [og hf, fx], by rw [og (h.comp.opp hf), fy]⟩
    rintro x y (h1 | (h1 | ⟨rfl, rfl⟩) | (h1 | ⟨rfl, rfl⟩))
    · exact old (.inl h1)
    · exact old (.inr (.inl h1))
    · exact ⟨⟨m.size, 2⟩, .inr (.inr rfl), og2, by rw [op2, og0]⟩
    · exact old (.inr (.inr h1))
    · exact ⟨⟨m.size, 0⟩, .inr (.inl rfl), og0, by rw [op0, og2]⟩

theorem Inv.stepLeft (h : Inv S AL AR C m D base) (hR : DT R AR) (hL : DT L AL) {l : Ref} (hl : D l)
    (hlb : m.next base.opp = l) (ht : DTri (L ++ R) (m.org base.opp) (m.org base) (m.org l.opp)) :
    Inv S AL AR (addC C (m.org l.opp) (m.org base)) (m.connect base.opp l.opp).1
      (fun x => D x ∨ x = ⟨m.size, 0⟩ ∨ x = ⟨m.size, 2⟩) ⟨m.size, 0⟩ := by
  have hdb := h.dbase
  have hbo := h.comp.opp hdb
  have hlo : m.org l = m.org base.opp := by rw [← hlb]; exact h.comp.org hbo
  have hal := h.al hR hl hlo ht.1
  have aL := h.memL
  have bR := h.memR
  have cL := hL.mem (hL.symm hal)
  have nbc : m.org base.opp.opp ≠ m.org l.opp := by
    rw [Ref.opp_opp]; exact fun hh => S.disj cL (by rw [← hh]; exact bR)
  have h0 := ht.1
  have hnew : ∀ f, D f → m.org f = m.org base.opp.opp → m.org f.opp ≠ m.org l.opp := by
    rw [Ref.opp_opp]
    intro f hf hfo hfs
    rcases h.d1 hf with h1 | h1 | h1 | h1
    · exact S.disj (hL.mem h1) (by rw [hfo]; exact bR)
    · exact S.disj cL (by rw [← hfs]; exact hR.mem (hR.symm h1))
    · exact S.disj (h.ms.cmem h1).1 (by rw [hfo]; exact bR)
    · rw [hfo, hfs] at h1
      rcases h.bel.at_right h.ms.cmem h1 with h2 | h2
      · rw [h2] at h0; simp at h0
      · linarith
  have hx : ∀ f, D f → ¬ XX (m.org base) (m.org l.opp) (m.org f) (m.org f.opp) := by
    intro f hf hX
    refine nox ht.rot.rot (List.mem_append_left _ aL) (h.mem hR hL hf) (h.mem hR hL (h.comp.opp hf))
      (h.nomid hR hL hf (List.mem_append_left _ aL)) ?_ ?_ ?_ hX.swap.symm
    · have := h.comp.nocross hf (h.comp.opp hl)
      rw [Ref.opp_opp, hlo] at this
      exact this
    · have := h.comp.nocross hf hbo
      rw [Ref.opp_opp] at this
      exact this
    · have wd : ∀ g, D g → m.org g = m.org base.opp → m.org g.opp = m.org l.opp ∨
          m.org g.opp = m.org base ∨
          Cyc (m.org base.opp) (m.org base) (m.org l.opp) (m.org g.opp) := by
        intro g hg hgo
        by_cases g1 : g = base.opp
        · rw [g1, Ref.opp_opp]; exact .inr (.inl rfl)
        by_cases g2 : g = l
        · rw [g2]; exact .inl rfl
        have := h.comp.sorted hbo hg hgo g1 (by rw [hlb]; exact g2)
        rw [hlb, Ref.opp_opp] at this
        exact .inr (.inr this)
      rintro z (⟨z1, rfl⟩ | ⟨z1, rfl⟩)
      · exact wd f hf z1
      · have := wd f.opp (h.comp.opp hf) z1
        rw [Ref.opp_opp] at this
        exact this
  have hcomp := h.comp.connect hbo (h.comp.opp hl) nbc hnew (by
      rw [Ref.opp_opp]
      intro hne
      set y := m.rfs base with hy
      have yD : D y := h.comp.prev hdb
      have yo : m.org y = m.org base := h.comp.prev_org hdb
      refine (wedge ht.rot (List.mem_append_left _ cL) (List.mem_append_left _ aL)
        (h.mem hR hL (h.comp.opp yD)) ?_ ?_ ?_ ?_ ?_).rot.rot
      · rw [← yo]; exact (h.comp.ne yD).symm
      · exact hnew y yD (by rw [Ref.opp_opp]; exact yo)
      · intro hh
        exact hne (h.comp.simple yD hdb yo hh)
      · intro p hp
        rw [← yo]
        exact h.nomid hR hL yD hp
      · have := h.comp.nocross yD (h.comp.opp hl)
        rw [Ref.opp_opp, hlo] at this
        rw [← yo]
        exact this) (by
      intro hne
      have yD := h.comp.next (h.comp.opp hl)
      have yo := h.comp.org (h.comp.opp hl)
      rw [Ref.opp_opp, hlo, Ref.opp_opp]
      refine wedge ht.rot.rot (List.mem_append_left _ aL) (List.mem_append_right _ bR)
        (h.mem hR hL (h.comp.opp yD)) ?_ ?_ ?_ ?_ ?_
      · rw [← yo]; exact (h.comp.ne yD).symm
      · intro hh
        exact hne (h.comp.simple yD (h.comp.opp hl) yo (by rw [hh, Ref.opp_opp, hlo]))
      · intro hh
        exact hnew _ (h.comp.opp yD) (by rw [Ref.opp_opp]; exact hh) (by rw [Ref.opp_opp]; exact yo)
      · intro p hp
        rw [← yo]
        exact h.nomid hR hL yD hp
      · have := h.comp.nocross yD hbo
        rw [Ref.opp_opp, yo] at this
        exact this) (by rw [Ref.opp_opp]; exact hx)
  have og0 : (m.connect base.opp l.opp).1.org ⟨m.size, 0⟩ = m.org base := by
    rw [connect_org0]; show m.org base.opp.opp = _; rw [Ref.opp_opp]
  have og2 := connect_org2 m base.opp l.opp
  have og : ∀ {x}, D x → (m.connect base.opp l.opp).1.org x = m.org x :=
    fun hx => connect_org_old m base.opp l.opp (h.comp.edge hx).alloc
  have op0 : (⟨m.size, 0⟩ : Ref).opp = ⟨m.size, 2⟩ := rfl
  have op2 : (⟨m.size, 2⟩ : Ref).opp = ⟨m.size, 0⟩ := ref2_opp _
  refine ⟨hcomp, .inr (.inl rfl), ?_, ?_, ?_, ?_⟩
  · rw [op0, og0, og2]
    refine h.ms.left hR hL cL hal ht ?_
    intro u v huv hd hX
    obtain ⟨f, hf, rfl, rfl⟩ := h.d2 (.inl ⟨.inl huv, hd⟩)
    exact hx f hf hX.symm.swap
  · rw [op0, og0, og2]
    exact h.bel.left h.ms.cmem aL bR cL h0
  · rintro e (he | rfl | rfl)
    · rw [og he, og (h.comp.opp he)]
      rcases h.d1 he with h1 | h1 | h1 | h1
      · exact .inl h1
      · exact .inr (.inl h1)
      · exact .inr (.inr (.inl (.inl h1)))
      · exact .inr (.inr (.inr (.inl h1)))
    · rw [op0, og0, og2]
      exact .inr (.inr (.inr (.inr ⟨rfl, rfl⟩)))
    · rw [op2, og0, og2]
      exact .inr (.inr (.inl (.inr ⟨rfl, rfl⟩)))
  · have old : ∀ {x y}, BB L R AL AR C x y → ∃ e, (D e ∨ e = ⟨m.size, 0⟩ ∨ e = ⟨m.size, 2⟩) ∧
        (m.connect base.opp l.opp).1.org e = x ∧ (m.connect base.opp l.opp).1.org e.opp = y := by
      intro x y hxy
      obtain ⟨f, hf, fx, fy⟩ := h.d2 hxy
      exact ⟨f, .inl hf, by rw [og hf, fx], by rw [og (h.comp.opp hf), fy]⟩
    rintro x y (h1 | (h1 | ⟨rfl, rfl⟩) | (h1 | ⟨rfl, rfl⟩))
    · exact old (.inl h1)
    · exact old (.inr (.inl h1))
    · exact ⟨⟨m.size, 2⟩, .inr (.inr rfl), og2, by rw [op2, og0]⟩
    · exact old (.inr (.inr h1))
    · exact ⟨⟨m.size, 0⟩, .inr (.inl rfl), og0, by rw [op0, og2]⟩

end
end HG
