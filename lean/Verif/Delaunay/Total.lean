import Verif.Delaunay.Driver
import Verif.Delaunay.Frac
import Verif.Delaunay.Map
import Mathlib.Data.Set.Card

/-!
# The triangulation terminates and raises nothing

Every `while` loop of `triangular.py` makes progress: the candidate loops delete an edge, the merging
loop adds an edge between the two parts, and the search for the base edge walks down the hulls.  The
number of steps of each is at most the square of the number of points.
-/

set_option linter.unusedSectionVars false

namespace HG

section
variable {K : Type} [Field K] [LinearOrder K] [IsStrictOrderedRing K]
variable {L R : List (Point K)}

/-! ### Counting -/

theorem finite_list {α : Type} (l : List α) (p : α → Prop) : {x | x ∈ l ∧ p x}.Finite :=
  (List.finite_toSet l).subset fun _ hx => hx.1

theorem ncard_list {α : Type} (l : List α) (p : α → Prop) : {x | x ∈ l ∧ p x}.ncard ≤ l.length := by
  classical
  calc {x | x ∈ l ∧ p x}.ncard ≤ (l.toFinset : Set α).ncard :=
        Set.ncard_le_ncard (fun x hx => by simpa using hx.1) (Finset.finite_toSet _)
    _ = l.toFinset.card := Set.ncard_coe_finset _
    _ ≤ l.length := l.toFinset_card_le

/-- Fewer darts than pairs of points. -/
theorem Comp.card {m : Mesh K} {D : Ref → Prop} {P : List (Point K)} (h : Comp m D)
    (hm : ∀ e, D e → m.org e ∈ P) : {e | D e}.Finite ∧ {e | D e}.ncard ≤ P.length * P.length := by
  have hinj : Set.InjOn (fun e : Ref => (m.org e, m.org e.opp)) {e | D e} := by
    intro e he f hf hh
    simp only [Prod.mk.injEq] at hh
    exact h.simple he hf hh.1 hh.2
  have hmaps : Set.MapsTo (fun e : Ref => (m.org e, m.org e.opp)) {e | D e}
      {x | x ∈ P.product P ∧ True} := by
    intro e he
    exact ⟨List.mem_product.2 ⟨hm e he, hm _ (h.opp he)⟩, trivial⟩
  have hfin := finite_list (P.product P) (fun _ => True)
  refine ⟨Set.Finite.of_injOn hmaps hinj hfin, ?_⟩
  calc {e | D e}.ncard ≤ {x | x ∈ P.product P ∧ True}.ncard :=
        Set.ncard_le_ncard_of_injOn _ hmaps hinj hfin
    _ ≤ (P.product P).length := ncard_list _ _
    _ = P.length * P.length := List.length_product ..

section
variable {S : Sep L R} {AL AR C : Rel K} {m : Mesh K} {D : Ref → Prop} {base : Ref}

theorem Inv.card (h : Inv S AL AR C m D base) (hR : DT R AR) (hL : DT L AL) :
    {e | D e}.Finite ∧ {e | D e}.ncard ≤ (L ++ R).length * (L ++ R).length :=
  h.comp.card fun _ he => h.mem hR hL he

/-! ### Candidates -/

theorem rightStep (hR : DT R AR) (hL : DT L AL) {res : Ref}
    (hI : Inv S AL AR C m D base) (hD : D res) (hn : m.next res = base)
    (hab : 0 < cross (m.org base.opp) (m.org base) (m.org res.opp))
    (hc1 : inCircle (m.stop (m.rfs res)) (m.stop base) (m.start base) (m.stop res) = true)
    (hc2 : 0 < cross (m.org base.opp) (m.org base) (m.stop (m.rfs res))) :
    Inv S AL AR C (m.delete res) (fun x => D x ∧ x ≠ res ∧ x ≠ res.opp) base ∧
      (D (m.rfs res) ∧ m.rfs res ≠ res ∧ m.rfs res ≠ res.opp) ∧
      (m.delete res).next (m.rfs res) = base ∧
      0 < cross (m.org base.opp) (m.org base) (m.org (m.rfs res).opp) := by
  have hro : m.org res = m.org base := by rw [← hn]; exact (hI.comp.org hD).symm
  have yD : D (m.rfs res) := hI.comp.prev hD
  have yn : m.next (m.rfs res) = res := hI.comp.next_prev hD
  have yo : m.org (m.rfs res) = m.org base := by rw [hI.comp.prev_org hD, hro]
  have har := hI.ar hL hD hro hab
  have nR := hR.mem (hR.symm har)
  obtain ⟨f, fa, fb, fn, hf⟩ := circ_through hab
  have hc1' : f.ev (m.org (m.rfs res).opp) < 0 := (hf _).1 hc1
  have hc2' : 0 < cross (m.org base.opp) (m.org base) (m.org (m.rfs res).opp) := hc2
  have yb : m.rfs res ≠ base := by
    intro hh; rw [hh, fa] at hc1'; exact lt_irrefl _ hc1'
  have yr : m.rfs res ≠ res := by
    intro hh; rw [hh, fn] at hc1'; exact lt_irrefl _ hc1'
  have rb : res ≠ base := by
    rintro rfl; simp at hab
  have rbo : res ≠ base.opp := by
    intro hh
    rw [hh] at hro
    exact hI.comp.ne hI.dbase hro.symm
  have yro : m.rfs res ≠ res.opp := by
    intro hh
    have := yo
    rw [hh, ← hro] at this
    exact hI.comp.ne hD this.symm
  have srt := hI.comp.sorted yD hI.dbase yo.symm yb.symm (by rw [yn]; exact rb.symm)
  rw [yn, yo] at srt
  have c3 : 0 < cross (m.org base) (m.org (m.rfs res).opp) (m.org res.opp) := by
    have e : cross (m.org base) (m.org base.opp) (m.org (m.rfs res).opp) < 0 := by
      rw [cross_swap12]; linarith
    rcases srt with ⟨h1, _⟩ | ⟨_, h1⟩ | ⟨h1, _⟩
    · exact h1
    · linarith
    · linarith
  have hnd : ¬ Del (L ++ R) (m.org res) (m.org res.opp) := by
    rw [hro]
    exact notDel_right fa fb fn hc1' hab c3 (List.mem_append_left _ hI.memL)
      (hI.mem hR hL (hI.comp.opp yD))
  have hI' := hI.delete hD rb rbo hnd
  have dnx := fun {x} (hx : m.Edge x) => delete_next hI.comp.wf (hI.comp.edge hD)
    (hI.comp.next_ne_opp hD (hI.comp.opp hD) (hI.comp.ne hD))
    (hI.comp.next_ne_opp (hI.comp.opp hD) hD (hI.comp.ne hD).symm) hx
  have nn : (m.delete res).next (m.rfs res) = base := by
    rw [dnx (hI.comp.edge yD), if_neg (by tauto), if_pos yn, hn]
  exact ⟨hI', ⟨yD, yr, yro⟩, nn, hc2'⟩

theorem leftStep (hR : DT R AR) (hL : DT L AL) {res : Ref}
    (hI : Inv S AL AR C m D base) (hD : D res) (hn : m.next base.opp = res)
    (hab : 0 < cross (m.org base.opp) (m.org base) (m.org res.opp))
    (hc1 : inCircle (m.stop (m.lfs res)) (m.stop base) (m.start base) (m.stop res) = true)
    (hc2 : 0 < cross (m.org base.opp) (m.org base) (m.stop (m.lfs res))) :
    Inv S AL AR C (m.delete res) (fun x => D x ∧ x ≠ res ∧ x ≠ res.opp) base ∧
      (D (m.lfs res) ∧ m.lfs res ≠ res ∧ m.lfs res ≠ res.opp) ∧
      (m.delete res).next base.opp = m.lfs res ∧
      0 < cross (m.org base.opp) (m.org base) (m.org (m.lfs res).opp) := by
  have hbo := hI.comp.opp hI.dbase
  have hro : m.org res = m.org base.opp := by rw [← hn]; exact hI.comp.org hbo
  have yD : D (m.next res) := hI.comp.next hD
  have yo : m.org (m.next res) = m.org base.opp := by rw [hI.comp.org hD, hro]
  have har := hI.al hR hD hro hab
  have nL := hL.mem (hL.symm har)
  obtain ⟨f, fa, fb, fn, hf⟩ := circ_through hab
  have nabove : ¬ 0 < cross (m.org base.opp) (m.org base) (m.org base.opp.opp) := by
    rw [Ref.opp_opp]; simp
  have hc1' : f.ev (m.org (m.next res).opp) < 0 := (hf _).1 hc1
  have hc2' : 0 < cross (m.org base.opp) (m.org base) (m.org (m.next res).opp) := hc2
  have yb : m.next res ≠ base.opp := by
    intro hh; rw [hh] at hc2'; exact nabove hc2'
  have yr : m.next res ≠ res := by
    intro hh; rw [hh, fn] at hc1'; exact lt_irrefl _ hc1'
  have rb : res ≠ base.opp := by
    intro hh; rw [hh] at hab; exact nabove hab
  have rbo : res ≠ base := by
    intro hh
    rw [hh] at hro
    exact hI.comp.ne hI.dbase hro
  have yro : m.next res ≠ res.opp := hI.comp.next_ne_opp hD (hI.comp.opp hD) (hI.comp.ne hD)
  have srt := hI.comp.sorted hD hbo hro.symm rb.symm yb.symm
  rw [hro, Ref.opp_opp] at srt
  have c3 : 0 < cross (m.org base.opp) (m.org res.opp) (m.org (m.next res).opp) := by
    have e : cross (m.org base.opp) (m.org (m.next res).opp) (m.org base) < 0 := by
      rw [cross_neg]; linarith
    rcases srt with ⟨h1, _⟩ | ⟨h1, _⟩ | ⟨_, h1⟩
    · exact h1
    · linarith
    · exact h1
  have hnd : ¬ Del (L ++ R) (m.org res) (m.org res.opp) := by
    rw [hro]
    exact notDel_left fa fb fn hc1' hab c3 (List.mem_append_right _ hI.memR)
      (hI.mem hR hL (hI.comp.opp yD))
  have hI' := hI.delete hD rbo rb hnd
  have dnx := fun {x} (hx : m.Edge x) => delete_next hI.comp.wf (hI.comp.edge hD)
    (hI.comp.next_ne_opp hD (hI.comp.opp hD) (hI.comp.ne hD))
    (hI.comp.next_ne_opp (hI.comp.opp hD) hD (hI.comp.ne hD).symm) hx
  have bro : base.opp ≠ res.opp := by
    intro hh
    have := congrArg Ref.opp hh
    rw [Ref.opp_opp, Ref.opp_opp] at this
    exact rbo this.symm
  have nn : (m.delete res).next base.opp = m.next res := by
    rw [dnx (hI.comp.edge hbo), if_neg (by
      rintro (hh | hh)
      · exact rb hh.symm
      · exact bro hh), if_pos hn]
  exact ⟨hI', ⟨yD, yr, yro⟩, nn, hc2'⟩


theorem ncard_drop {res : Ref} (hfin : {e | D e}.Finite) (hD : D res) :
    {x | D x ∧ x ≠ res ∧ x ≠ res.opp}.ncard < {e | D e}.ncard :=
  Set.ncard_lt_ncard ⟨fun _ hx => hx.1, fun hh => (hh hD).2.1 rfl⟩ hfin

theorem rightLoop_total (hR : DT R AR) (hL : DT L AL) (fuel : Nat) {m : Mesh K} {D : Ref → Prop}
    {res : Ref} (hI : Inv S AL AR C m D base) (hD : D res) (hn : m.next res = base)
    (hab : 0 < cross (m.org base.opp) (m.org base) (m.org res.opp)) (hf : {e | D e}.ncard < fuel) :
    ∃ y, rightCandidateLoop base fuel m res = .ok y := by
  induction fuel generalizing m D res with
  | zero => omega
  | succ n ih =>
    unfold HG.rightCandidateLoop
    split
    · rename_i hc
      obtain ⟨hc1, hc2⟩ := hc
      rw [above_iff] at hc2
      obtain ⟨i1, i2, i3, i4⟩ := rightStep hR hL hI hD hn hab hc1 hc2
      have := ncard_drop (hI.card hR hL).1 hD
      refine ih i1 i2 i3 ?_ (by omega)
      simpa only [delete_org] using i4
    · exact ⟨_, rfl⟩

theorem leftLoop_total (hR : DT R AR) (hL : DT L AL) (fuel : Nat) {m : Mesh K} {D : Ref → Prop}
    {res : Ref} (hI : Inv S AL AR C m D base) (hD : D res) (hn : m.next base.opp = res)
    (hab : 0 < cross (m.org base.opp) (m.org base) (m.org res.opp)) (hf : {e | D e}.ncard < fuel) :
    ∃ y, leftCandidateLoop base fuel m res = .ok y := by
  induction fuel generalizing m D res with
  | zero => omega
  | succ n ih =>
    unfold HG.leftCandidateLoop
    split
    · rename_i hc
      obtain ⟨hc1, hc2⟩ := hc
      rw [above_iff] at hc2
      obtain ⟨i1, i2, i3, i4⟩ := leftStep hR hL hI hD hn hab hc1 hc2
      have := ncard_drop (hI.card hR hL).1 hD
      refine ih i1 i2 i3 ?_ (by omega)
      simpa only [delete_org] using i4
    · exact ⟨_, rfl⟩

theorem toRight_total (hR : DT R AR) (hL : DT L AL) (fuel : Nat) (hI : Inv S AL AR C m D base)
    (hf : (L ++ R).length * (L ++ R).length < fuel) : ∃ y, toRightCandidate fuel m base = .ok y := by
  unfold HG.toRightCandidate
  dsimp only
  split
  · exact ⟨_, rfl⟩
  · rename_i hc
    rw [ne_eq, not_not, above_iff] at hc
    obtain ⟨y, hy⟩ := rightLoop_total hR hL fuel hI (hI.comp.prev hI.dbase)
      (hI.comp.next_prev hI.dbase) hc (lt_of_le_of_lt (hI.card hR hL).2 hf)
    rw [hy]
    exact ⟨_, rfl⟩

theorem toLeft_total (hR : DT R AR) (hL : DT L AL) (fuel : Nat) (hI : Inv S AL AR C m D base)
    (hf : (L ++ R).length * (L ++ R).length < fuel) : ∃ y, toLeftCandidate fuel m base = .ok y := by
  unfold HG.toLeftCandidate
  dsimp only
  split
  · exact ⟨_, rfl⟩
  · rename_i hc
    rw [ne_eq, not_not, above_iff] at hc
    obtain ⟨y, hy⟩ := leftLoop_total hR hL fuel hI (hI.comp.next (hI.comp.opp hI.dbase)) rfl hc
      (lt_of_le_of_lt (hI.card hR hL).2 hf)
    rw [show leftCandidateLoop base fuel m (m.lfs base.opp) = .ok y from hy]
    exact ⟨_, rfl⟩

/-! ### The merging loop -/

/-- What the two candidates are. -/
theorem pick (hR : DT R AR) (hL : DT L AL) (inner : Nat) (hI : Inv S AL AR C m D base)
    {m1 m2 : Mesh K} {l r : Option Ref} (h1 : toLeftCandidate inner m base = .ok (m1, l))
    (h2 : toRightCandidate inner m1 base = .ok (m2, r)) :
    ∃ D2, Inv S AL AR C m2 D2 base ∧
      (∀ r', r = some r' → (∀ l', l = some l' →
          inCircle (m2.stop r') (m2.stop l') (m2.stop base) (m2.start base) = true) →
        D2 r' ∧ m2.next r' = base ∧ DTri (L ++ R) (m2.org base.opp) (m2.org base) (m2.org r'.opp)) ∧
      (∀ l', l = some l' → (∀ r', r = some r' →
          ¬ inCircle (m2.stop r') (m2.stop l') (m2.stop base) (m2.start base) = true) →
        D2 l' ∧ m2.next base.opp = l' ∧
          DTri (L ++ R) (m2.org base.opp) (m2.org base) (m2.org l'.opp)) := by
  obtain ⟨D1, hI1, -, ho1, hl, gl⟩ := toLeft hR hL hI.comp.edge inner hI (Fr.refl m D) h1
  obtain ⟨D2, hI2, -, ho2, hk, hr, gr⟩ := toRight hR hL hI1.comp.edge inner hI1 (Fr.refl m1 D1) h2
  rw [← ho1, ← ho2] at hl gl
  rw [← ho2] at hr gr
  have hl2 : ∀ x, l = some x → D2 x ∧ m2.next base.opp = x ∧
      0 < cross (m2.org base.opp) (m2.org base) (m2.org x.opp) := by
    intro x hx
    obtain ⟨x1, x2, x3⟩ := hl x hx
    have hbo := hI1.comp.opp hI1.dbase
    obtain ⟨y1, y2⟩ := hk _ hbo hI1.memL
    have hxo : m1.org x ∈ L := by
      rw [← x2, hI1.comp.org hbo]; exact hI1.memL
    exact ⟨(hk x x1 hxo).1, by rw [y2, x2], x3⟩
  obtain ⟨f, hf, fa, fb⟩ := hI2.ms.cdel hI2.ms.base
  -- the first circle met when growing the empty circle upwards
  have meet : (∃ q ∈ L ++ R, 0 < cross (m2.org base.opp) (m2.org base) q) → ∃ (g : Circ K),
      g.Empty (L ++ R) ∧ g.ev (m2.org base.opp) = 0 ∧ g.ev (m2.org base) = 0 ∧
      ((∃ x, l = some x ∧ g.ev (m2.org x.opp) = 0) ∨ (∃ x, r = some x ∧ g.ev (m2.org x.opp) = 0)) ∧
      ((∀ x, l = some x → g.ev (m2.org x.opp) ≠ 0) → ∃ x, r = some x ∧ g.ev (m2.org x.opp) = 0) := by
    intro hex
    obtain ⟨g, q, hq, hqab, ga, gb, gq, ge, -⟩ := pencil_min hf (fun p hp => hp) fa fb hex
    have key : (∃ x, l = some x ∧ g.ev (m2.org x.opp) = 0) ∨
        (∃ x, r = some x ∧ g.ev (m2.org x.opp) = 0) := by
      rcases List.mem_append.1 hq with hq | hq
      · exact .inl (gl g q ge ga gb hq hqab gq)
      · exact .inr (gr g q ge ga gb hq hqab gq)
    refine ⟨g, ge, ga, gb, key, fun hno => ?_⟩
    rcases key with ⟨x, hx, gx⟩ | k
    · exact absurd gx (hno x hx)
    · exact k
  refine ⟨D2, hI2, ?_, ?_⟩
  · intro r' hr' hin
    obtain ⟨r1, r2, r3⟩ := hr r' hr'
    obtain ⟨g, ge, ga, gb, -, key⟩ := meet ⟨_, hI2.mem hR hL (hI2.comp.opp r1), r3⟩
    refine ⟨r1, r2, r3, g, ge, ga, gb, ?_⟩
    obtain ⟨x, hx, gx⟩ := key (by
      intro l' hl' hgl
      obtain ⟨l1, l2, l3⟩ := hl2 l' hl'
      obtain ⟨f', fl, fa', fb', hf'⟩ := circ_through
        (show 0 < cross (m2.org l'.opp) (m2.org base.opp) (m2.org base) by rw [cross_rot']; exact l3)
      have hc' : f'.ev (m2.org r'.opp) < 0 := (hf' _).1 (hin l' hl')
      have := circ_unique (ne_of_gt l3) (f := f') (g := g) (by rw [fa', ga]) (by rw [fb', gb])
        (by rw [fl, hgl]) (m2.org r'.opp)
      rw [this] at hc'
      have := ge _ (hI2.mem hR hL (hI2.comp.opp r1))
      linarith)
    rw [hr'] at hx
    cases hx
    exact gx
  · intro l' hl' hin
    obtain ⟨l1, l2, l3⟩ := hl2 l' hl'
    obtain ⟨g, ge, ga, gb, -, key⟩ := meet ⟨_, hI2.mem hR hL (hI2.comp.opp l1), l3⟩
    refine ⟨l1, l2, l3, g, ge, ga, gb, ?_⟩
    by_contra hne
    obtain ⟨r', hr', gx⟩ := key (fun x hx => by rw [hl'] at hx; cases hx; exact hne)
    obtain ⟨r1, r2, r3⟩ := hr r' hr'
    obtain ⟨f', fl, fa', fb', hf'⟩ := circ_through
      (show 0 < cross (m2.org l'.opp) (m2.org base.opp) (m2.org base) by rw [cross_rot']; exact l3)
    have hpos := lt_of_le_of_ne (ge _ (hI2.mem hR hL (hI2.comp.opp l1))) (Ne.symm hne)
    exact hin r' hr' ((hf' _).2 (pencil_lt fa' fb' fl ga gb gx hpos l3 r3))

/-- The edges between the parts that are missing. -/
def Miss (L R : List (Point K)) (C : Rel K) : Set (Point K × Point K) :=
  {z | z ∈ L.product R ∧ ¬ C z.1 z.2}

theorem Miss.lt {a b : Point K} (ha : a ∈ L) (hb : b ∈ R) (hn : ¬ C a b) :
    (Miss L R (addC C a b)).ncard < (Miss L R C).ncard := by
  refine Set.ncard_lt_ncard ⟨fun z hz => ⟨hz.1, fun hh => hz.2 (.inl hh)⟩, fun hh => ?_⟩
    (finite_list _ _)
  have : (a, b) ∈ Miss L R (addC C a b) := hh ⟨List.mem_product.2 ⟨ha, hb⟩, hn⟩
  exact this.2 (.inr ⟨rfl, rfl⟩)

/-- The edge of the next base is new. -/
theorem Inv.fresh {C' : Rel K} {m' : Mesh K} (h : Inv S AL AR C m D base)
    (h' : Inv S AL AR C' m' (fun x => D x ∨ x = ⟨m.size, 0⟩ ∨ x = ⟨m.size, 2⟩) ⟨m.size, 0⟩)
    (ho : ∀ x, D x → m'.org x = m.org x) :
    ¬ C (m'.org (⟨m.size, 0⟩ : Ref).opp) (m'.org ⟨m.size, 0⟩) := by
  intro hc
  obtain ⟨e, he, e1, e2⟩ := h.d2 (.inr (.inr hc))
  have := h'.comp.simple (.inl he) h'.dbase (by rw [ho e he, e1])
    (by rw [ho _ (h.comp.opp he), e2])
  have al := (h.comp.edge he).alloc
  rw [this] at al
  exact lt_irrefl _ al

theorem connectLoop_total (hR : DT R AR) (hL : DT L AL) (inner fuel : Nat) {C : Rel K} {m : Mesh K}
    {D : Ref → Prop} {base : Ref} (hI : Inv S AL AR C m D base)
    (hi : (L ++ R).length * (L ++ R).length < inner) (hf : (Miss L R C).ncard < fuel) :
    ∃ m', connectLoop inner fuel m base = .ok m' := by
  induction fuel generalizing C m D base with
  | zero => omega
  | succ n ih =>
    obtain ⟨⟨m1, l⟩, h1⟩ := toLeft_total hR hL inner hI hi
    obtain ⟨D1, hI1, -⟩ := toLeft hR hL hI.comp.edge inner hI (Fr.refl m D) h1
    obtain ⟨⟨m2, r⟩, h2⟩ := toRight_total hR hL inner hI1 hi
    obtain ⟨D2, hI2, pr, pl⟩ := pick hR hL inner hI h1 h2
    have stepR : ∀ r', r = some r' → (∀ l', l = some l' →
          inCircle (m2.stop r') (m2.stop l') (m2.stop base) (m2.start base) = true) →
        ∃ m', connectLoop inner n (m2.connect r' base.opp).1 (m2.connect r' base.opp).2 = .ok m' := by
      intro r' hr' hin
      obtain ⟨r1, r2, r3⟩ := pr r' hr' hin
      have hI3 := hI2.stepRight hR hL r1 r2 r3
      have hfr := hI2.fresh hI3 fun x hx => connect_org_old m2 _ _ (hI2.comp.edge hx).alloc
      have hms := hI3.ms.cmem (.inr ⟨rfl, rfl⟩)
      have e0 : (m2.connect r' base.opp).1.org ⟨m2.size, 0⟩ = m2.org r'.opp := connect_org0 m2 _ _
      have e2 : (m2.connect r' base.opp).1.org (⟨m2.size, 0⟩ : Ref).opp = m2.org base.opp :=
        connect_org2 m2 _ _
      rw [e0, e2] at hfr
      have := Miss.lt hms.1 hms.2 hfr
      exact ih hI3 (by omega)
    have stepL : ∀ l', l = some l' → (∀ r', r = some r' →
          ¬ inCircle (m2.stop r') (m2.stop l') (m2.stop base) (m2.start base) = true) →
        ∃ m', connectLoop inner n (m2.connect base.opp l'.opp).1 (m2.connect base.opp l'.opp).2 =
          .ok m' := by
      intro l' hl' hin
      obtain ⟨r1, r2, r3⟩ := pl l' hl' hin
      have hI3 := hI2.stepLeft hR hL r1 r2 r3
      have hfr := hI2.fresh hI3 fun x hx => connect_org_old m2 _ _ (hI2.comp.edge hx).alloc
      have hms := hI3.ms.cmem (.inr ⟨rfl, rfl⟩)
      have e0 : (m2.connect base.opp l'.opp).1.org ⟨m2.size, 0⟩ = m2.org base := by
        rw [connect_org0]; show m2.org base.opp.opp = _; rw [Ref.opp_opp]
      have e2 : (m2.connect base.opp l'.opp).1.org (⟨m2.size, 0⟩ : Ref).opp = m2.org l'.opp :=
        connect_org2 m2 _ _
      rw [e0, e2] at hfr
      have := Miss.lt hms.1 hms.2 hfr
      exact ih hI3 (by omega)
    unfold HG.connectLoop
    rw [h1]
    show ∃ m', (toRightCandidate inner m1 base >>= _) = _
    rw [h2]
    rcases l with _ | l' <;> rcases r with _ | r'
    · exact ⟨_, rfl⟩
    · exact stepR r' rfl (by simp)
    · exact stepL l' rfl (by simp)
    · by_cases hc : inCircle (m2.stop r') (m2.stop l') (m2.stop base) (m2.start base) = true
      · obtain ⟨m', hm'⟩ := stepR r' rfl (fun l'' hl => by cases hl; exact hc)
        refine ⟨m', ?_⟩
        show (if inCircle (m2.stop r') (m2.stop l') (m2.stop base) (m2.start base) = true then _ else _)
          = _
        rw [if_pos hc]
        exact hm'
      · obtain ⟨m', hm'⟩ := stepL l' rfl (fun r'' hr => by cases hr; exact hc)
        refine ⟨m', ?_⟩
        show (if inCircle (m2.stop r') (m2.stop l') (m2.stop base) (m2.start base) = true then _ else _)
          = _
        rw [if_neg hc]
        exact hm'

end

/-! ### The base edge -/

section
variable {m : Mesh K} {kx ky : K} {D₁ D₂ : Ref → Prop}

theorem FB.stepR {r l : Ref} (h : FB kx ky L R m D₁ D₂ r l)
    (c1 : Comp m D₁) (t1 : DT L (Adj m D₁)) (t2 : DT R (Adj m D₂))
    (hlt : ∀ x ∈ L, ∀ y ∈ R, sg kx ky x < sg kx ky y)
    (i1 : ∀ x ∈ L, ∀ y ∈ L, sg kx ky x = sg kx ky y → x = y)
    (hc' : 0 < cross (m.org r) (m.org r.opp) (m.org l)) :
    FB kx ky L R m D₁ D₂ (m.lfe r) l ∧ m.org (m.lfe r) = m.org r.opp ∧
      sg kx ky (m.org r.opp) < sg kx ky (m.org r) := by
  have hsq : sg kx ky (m.org r) < sg kx ky (m.org l) :=
    hlt _ (t1.mem (adj_org h.dr)) _ (t2.mem (adj_org h.dl))
  have hsq' : sg kx (-ky) (mir (m.org l)) < sg kx (-ky) (mir (m.org r)) := by
    rw [sg_mir, sg_mir]; linarith
  have ro := c1.opp h.dr
  have wD := c1.prev ro
  have wo := c1.prev_org ro
  have wn := c1.next_prev ro
  rw [lfe_eq]
  have hd := h.tr.desc i1 hsq hc'
  refine ⟨?_, wo, hd⟩
  refine ⟨wD, h.dl, ⟨t1.mem (adj_org wD), t1.mem (adj_org (c1.opp wD)), (c1.ne wD).symm, ?_, ?_⟩, ?_⟩
  · rw [wo]; exact hull_prev c1 t1 h.dr h.tr.hull
  · right
    rw [wo]
    refine ⟨m.org r, h.tr.hs, h.tr.hull, hd, hc', ?_⟩
    have := degen c1 t1 wD ro wo.symm (fun hh => by rw [wn, hh])
    rw [Ref.opp_opp, wo] at this
    exact this
  · rw [wo]
    refine h.tl.move hsq' ?_ ?_
    · rw [sg_mir, sg_mir]
      have := hlt _ (t1.mem (adj_org ro)) _ (t2.mem (adj_org h.dl))
      linarith
    · rw [cross_mir, cross_rot' (m.org r)]; linarith

theorem FB.stepL {r l : Ref} (h : FB kx ky L R m D₁ D₂ r l)
    (c2 : Comp m D₂) (t1 : DT L (Adj m D₁)) (t2 : DT R (Adj m D₂))
    (hlt : ∀ x ∈ L, ∀ y ∈ R, sg kx ky x < sg kx ky y)
    (i2 : ∀ x ∈ R, ∀ y ∈ R, sg kx ky x = sg kx ky y → x = y)
    (hc' : cross (m.org l) (m.org l.opp) (m.org r) < 0) :
    FB kx ky L R m D₁ D₂ r (m.rfe l) ∧ m.org (m.rfe l) = m.org l.opp ∧
      sg kx ky (m.org l) < sg kx ky (m.org l.opp) := by
  have hsq : sg kx ky (m.org r) < sg kx ky (m.org l) :=
    hlt _ (t1.mem (adj_org h.dr)) _ (t2.mem (adj_org h.dl))
  have hsq' : sg kx (-ky) (mir (m.org l)) < sg kx (-ky) (mir (m.org r)) := by
    rw [sg_mir, sg_mir]; linarith
  have lo := c2.opp h.dl
  have wD := c2.next lo
  have wo := c2.org lo
  have hd := h.tl.desc (sg_inj_mir i2) hsq' (by rw [cross_mir]; linarith)
  refine ⟨?_, wo, by rw [sg_mir, sg_mir] at hd; linarith⟩
  refine ⟨h.dr, wD, ?_, ⟨mir_mem (t2.mem (adj_org wD)), mir_mem (t2.mem (adj_org (c2.opp wD))),
    fun hh => c2.ne wD (mir_inj hh).symm, ?_, ?_⟩⟩
  · show Tan kx ky L (m.org r) (m.org r.opp) (m.org (m.next l.opp))
    rw [wo]
    refine h.tr.move hsq (hlt _ (t1.mem (adj_org h.dr)) _ (t2.mem (adj_org lo))) ?_
    rw [cross_rot' (m.org l)]; exact hc'
  · intro x hx
    show cross (mir (m.org (m.next l.opp))) (mir (m.org (m.next l.opp).opp)) x ≤ 0
    rw [wo, ← mir_mir x, cross_mir]
    have := hull_next c2 t2 h.dl (fun y hy => by
      have := h.tl.hull _ (mir_mem hy)
      rw [cross_mir] at this; linarith) (mir x) (mem_mir.1 hx)
    linarith
  · right
    show ∃ p ∈ R.map mir, (∀ x ∈ R.map mir, cross p (mir (m.org (m.next l.opp))) x ≤ 0) ∧
      sg kx (-ky) (mir (m.org (m.next l.opp))) < sg kx (-ky) p ∧
      0 < cross p (mir (m.org (m.next l.opp))) (mir (m.org r)) ∧
      (cross (mir (m.org (m.next l.opp))) p (mir (m.org (m.next l.opp).opp)) = 0 →
        0 < dot (mir (m.org (m.next l.opp))) p (mir (m.org (m.next l.opp).opp)) →
        (∀ x ∈ R.map mir, cross (mir (m.org (m.next l.opp))) p x = 0) →
        ∀ x ∈ R.map mir, 0 ≤ dot (mir (m.org (m.next l.opp))) p x)
    refine ⟨mir (m.org l), h.tl.hs, ?_, ?_, ?_, ?_⟩
    · rw [wo]; exact h.tl.hull
    · rw [wo]; exact hd
    · rw [wo, cross_mir]; linarith
    · intro x1 x2 x3 x hx
      rw [← mir_mir x, dot_mir]
      have := degen c2 t2 wD lo wo.symm (fun hh => congrArg m.next hh)
      rw [Ref.opp_opp] at this
      refine this ?_ ?_ ?_ _ (mem_mir.1 hx)
      · rw [cross_mir] at x1; linarith
      · rw [dot_mir] at x2; exact x2
      · intro y hy
        have := x3 _ (mir_mem hy)
        rw [cross_mir] at this; linarith

theorem findBase_total {r l : Ref} (h : FB kx ky L R m D₁ D₂ r l)
    (c1 : Comp m D₁) (c2 : Comp m D₂) (t1 : DT L (Adj m D₁)) (t2 : DT R (Adj m D₂))
    (hlt : ∀ x ∈ L, ∀ y ∈ R, sg kx ky x < sg kx ky y)
    (i1 : ∀ x ∈ L, ∀ y ∈ L, sg kx ky x = sg kx ky y → x = y)
    (i2 : ∀ x ∈ R, ∀ y ∈ R, sg kx ky x = sg kx ky y → x = y)
    (fuel : Nat) (hf : {x | x ∈ L ∧ sg kx ky x < sg kx ky (m.org r)}.ncard +
      {x | x ∈ R ∧ sg kx ky (m.org l) < sg kx ky x}.ncard < fuel) :
    ∃ y, findBaseLoop m fuel r l = .ok y := by
  induction fuel generalizing r l with
  | zero => omega
  | succ n ih =>
    unfold HG.findBaseLoop
    split
    · rename_i hc
      unfold Mesh.orientationOf at hc
      rw [orient_ccw_iff] at hc
      obtain ⟨k1, k2, k3⟩ := h.stepR c1 t1 t2 hlt i1 hc
      refine ih k1 ?_
      rw [k2]
      have : {x | x ∈ L ∧ sg kx ky x < sg kx ky (m.org r.opp)}.ncard <
          {x | x ∈ L ∧ sg kx ky x < sg kx ky (m.org r)}.ncard :=
        Set.ncard_lt_ncard ⟨fun x hx => ⟨hx.1, lt_trans hx.2 k3⟩,
          fun hh => lt_irrefl _ (hh ⟨t1.mem (adj_org (c1.opp h.dr)), k3⟩).2⟩ (finite_list _ _)
      omega
    · split
      · rename_i hc
        unfold Mesh.orientationOf at hc
        rw [orient_cw_iff] at hc
        obtain ⟨k1, k2, k3⟩ := h.stepL c2 t1 t2 hlt i2 hc
        refine ih k1 ?_
        rw [k2]
        have : {x | x ∈ R ∧ sg kx ky (m.org l.opp) < sg kx ky x}.ncard <
            {x | x ∈ R ∧ sg kx ky (m.org l) < sg kx ky x}.ncard :=
          Set.ncard_lt_ncard ⟨fun x hx => ⟨hx.1, lt_trans k3 hx.2⟩,
            fun hh => lt_irrefl _ (hh ⟨t2.mem (adj_org (c2.opp h.dl)), k3⟩).2⟩ (finite_list _ _)
        omega
      · exact ⟨_, rfl⟩

/-! ### Merging two parts -/

theorem Part.merge_total {s o : Tri} (h₁ : Part kx ky m D₁ L s) (h₂ : Part kx ky m D₂ R o)
    (hlt : ∀ x ∈ L, ∀ y ∈ R, sg kx ky x < sg kx ky y)
    (inj : ∀ x ∈ L ++ R, ∀ y ∈ L ++ R, sg kx ky x = sg kx ky y → x = y) (fuel : Nat)
    (hf : (L ++ R).length * (L ++ R).length < fuel) : ∃ y, mergeTri fuel m s o = .ok y := by
  have i1 : ∀ x ∈ L, ∀ y ∈ L, sg kx ky x = sg kx ky y → x = y := fun x hx y hy =>
    inj x (List.mem_append_left _ hx) y (List.mem_append_left _ hy)
  have i2 : ∀ x ∈ R, ∀ y ∈ R, sg kx ky x = sg kx ky y → x = y := fun x hx y hy =>
    inj x (List.mem_append_right _ hx) y (List.mem_append_right _ hy)
  have mem1 : ∀ {e}, D₁ e → m.org e ∈ L := fun he => h₁.dt.mem (adj_org he)
  have mem2 : ∀ {e}, D₂ e → m.org e ∈ R := fun he => h₂.dt.mem (adj_org he)
  have fb0 : FB kx ky L R m D₁ D₂ s.rightSide o.leftSide := by
    refine ⟨h₁.dr, h₂.dl, ⟨mem1 h₁.dr, mem1 (h₁.comp.opp h₁.dr), (h₁.comp.ne h₁.dr).symm, h₁.rhull,
      .inl h₁.rmax⟩, ⟨mir_mem (mem2 h₂.dl), mir_mem (mem2 (h₂.comp.opp h₂.dl)),
      fun hh => h₂.comp.ne h₂.dl (mir_inj hh).symm, ?_, .inl ?_⟩⟩
    · intro x hx
      rw [← mir_mir x, cross_mir]
      linarith [h₂.lhull _ (mem_mir.1 hx)]
    · intro x hx
      rw [← mir_mir x, sg_mir, sg_mir]
      linarith [h₂.lmin _ (mem_mir.1 hx)]
  have hlen : (L ++ R).length = L.length + R.length := List.length_append
  have len1 : 0 < L.length := List.length_pos_of_mem (mem1 h₁.dr)
  have len2 : 0 < R.length := List.length_pos_of_mem (mem2 h₂.dl)
  obtain ⟨⟨r, l⟩, hfb⟩ := findBase_total fb0 h₁.comp h₂.comp h₁.dt h₂.dt hlt i1 i2 fuel (by
    have e1 := ncard_list L (fun x => sg kx ky x < sg kx ky (m.org s.rightSide))
    have e2 := ncard_list R (fun x => sg kx ky (m.org o.leftSide) < sg kx ky x)
    have : L.length + R.length ≤ (L ++ R).length * (L ++ R).length := by
      rw [hlen]; exact Nat.le_mul_self _
    omega)
  suffices hk : ∃ m2, connectLoop fuel fuel (m.connect l.opp r).1 (m.connect l.opp r).2 = .ok m2 by
    obtain ⟨m2, hm2⟩ := hk
    unfold mergeTri
    rw [hfb]
    show ∃ y, (connectLoop fuel fuel (m.connect l.opp r).1 (m.connect l.opp r).2 >>= _) = _
    rw [hm2]
    exact ⟨_, rfl⟩
  obtain ⟨fb, hr, hl⟩ := FB.loop h₁.comp h₂.comp h₁.dt h₂.dt hlt i1 i2 fuel fb0 hfb
  clear fb0 hfb
  have aL := mem1 fb.dr
  have bR := mem2 fb.dl
  set a := m.org r with ha
  set b := m.org l with hb
  set S : Sep L R := Sep.mk' h₁.rmax h₂.lmin (hlt _ (mem1 h₁.dr) _ (mem2 h₂.dl)) with hS
  have hsS : ∀ p, S.s p = sg kx ky p := fun p => rfl
  have hab := hlt a aL b bR
  have hab' : sg kx (-ky) (mir b) < sg kx (-ky) (mir a) := by rw [sg_mir, sg_mir]; linarith
  have F1 : ∀ x ∈ L, 0 ≤ cross a b x ∧ ¬ Mid a b x := fun x hx => fb.tr.final i1 hab hr hx
  have F2 : ∀ y ∈ R, cross b a y ≤ 0 ∧ ¬ Mid b a y := by
    intro y hy
    have := fb.tl.final (sg_inj_mir i2) hab' (by rw [cross_mir]; linarith) (mir_mem hy)
    rw [cross_mir, mid_mir] at this
    exact ⟨by linarith [this.1], this.2⟩
  have low : ∀ p ∈ L ++ R, 0 ≤ cross a b p := by
    intro p hp
    rcases List.mem_append.1 hp with hp | hp
    · exact (F1 p hp).1
    · rw [cross_swap12 b a]; linarith [(F2 p hp).1]
  have low' : ∀ p ∈ L ++ R, cross b a p ≤ 0 := by
    intro p hp
    rw [cross_swap12 a b]; linarith [low p hp]
  have nom : ∀ p ∈ L ++ R, ¬ Mid b a p := by
    intro p hp
    rcases List.mem_append.1 hp with hp | hp
    · exact fun hm => (F1 p hp).2 (mid_symm hm)
    · exact (F2 p hp).2
  have hdel : Del (L ++ R) a b := (hull_del low' nom).symm
  have disj : ∀ {p}, p ∈ L → p ∈ R → False := fun h1 h2 => S.disj h1 h2
  have hne : a ≠ b := fun hh => disj aL (by rw [hh]; exact bR)
  -- the two parts together
  have hU : Comp m (fun e => D₁ e ∨ D₂ e) := by
    refine h₁.comp.union h₂.comp (fun e f he hf hh => disj (mem1 he) (by rw [hh]; exact mem2 hf)) ?_
    intro e f he hf hX
    exact S.no_XX (mem2 hf) (mem2 (h₂.comp.opp hf)) (mem1 he) (mem1 (h₁.comp.opp he)) hX.symm
  have memU : ∀ {e}, D₁ e ∨ D₂ e → m.org e ∈ L ++ R := by
    rintro e (he | he)
    · exact List.mem_append_left _ (mem1 he)
    · exact List.mem_append_right _ (mem2 he)
  -- directions different from that of the new edge
  have ray1 : ∀ {f}, D₁ f → m.org f = a → cross a b (m.org f.opp) = 0 → ¬ 0 < dot a b (m.org f.opp) := by
    intro f hf ho h0 h1
    have hm := mem1 (h₁.comp.opp hf)
    have := ray_eq h0 h1 (F1 _ hm).2 (fun hh => by
      have := (mid_s S hh).1 (S.lt' aL) (S.lt' hm)
      linarith [S.gt' bR])
    exact disj hm (by rw [this]; exact bR)
  have ray2 : ∀ {f}, D₂ f → m.org f = b → cross b a (m.org f.opp) = 0 → ¬ 0 < dot b a (m.org f.opp) := by
    intro f hf ho h0 h1
    have hm := mem2 (h₂.comp.opp hf)
    have := ray_eq h0 h1 (F2 _ hm).2 (fun hh => by
      have := (mid_s S hh).2 (S.gt' bR) (S.gt' hm)
      linarith [S.lt' aL])
    exact disj aL (by rw [← this]; exact hm)
  have hC : Comp (m.connect l.opp r).1
      (fun x => (D₁ x ∨ D₂ x) ∨ x = ⟨m.size, 0⟩ ∨ x = ⟨m.size, 2⟩) := by
    refine hU.connect (.inr (h₂.comp.opp fb.dl)) (.inl fb.dr) ?_ ?_ ?_ ?_ ?_
    · rw [Ref.opp_opp]; exact hne.symm
    · rw [Ref.opp_opp]
      rintro f (hf | hf) hfo hfs
      · exact disj (mem1 hf) (by rw [hfo]; exact bR)
      · exact disj aL (by rw [ha, ← hfs]; exact mem2 (h₂.comp.opp hf))
    · rw [Ref.opp_opp]
      intro hlne
      have wD := h₂.comp.prev fb.dl
      have wo := h₂.comp.prev_org fb.dl
      have := tang_cyc (o := mir b) (q := mir a) (n := mir (m.org l.opp))
        (p := mir (m.org (m.rfs l).opp)) fb.tl.ne
        (fun hh => h₂.comp.ne wD (by rw [wo]; exact (mir_inj hh).symm)) (fun hh => hne (mir_inj hh))
        (by rw [cross_mir]; linarith [(F2 _ (mem2 (h₂.comp.opp fb.dl))).1])
        (by rw [cross_mir]; linarith [(F2 _ (mem2 (h₂.comp.opp wD))).1])
        (fb.tl.hull _ (mir_mem (mem2 (h₂.comp.opp wD))))
        (by
          rw [cross_mir, dot_mir]
          intro h0 h1
          exact hlne (same_ray h₂.comp h₂.dt fb.dl wD wo (by linarith) h1).symm)
        (by
          rw [cross_mir, dot_mir]
          intro h0 h1
          exact ray2 fb.dl rfl (by linarith) h1)
        (by
          rw [cross_mir, dot_mir]
          intro h0 h1
          exact ray2 wD wo (by linarith) h1)
      rw [cross_mir, cross_mir] at this
      refine .inr (.inr ⟨?_, ?_⟩)
      · rw [cross_neg]; exact this.2
      · rw [cross_neg]; exact this.1
    · rw [Ref.opp_opp]
      intro hrne
      have wD := h₁.comp.next fb.dr
      have wo := h₁.comp.org fb.dr
      have := tang_cyc (o := a) (q := b) (n := m.org r.opp) (p := m.org (m.next r).opp) fb.tr.ne
        (fun hh => h₁.comp.ne wD (by rw [wo]; exact hh.symm)) hne.symm
        (F1 _ (mem1 (h₁.comp.opp fb.dr))).1 (F1 _ (mem1 (h₁.comp.opp wD))).1
        (fb.tr.hull _ (mem1 (h₁.comp.opp wD)))
        (fun h0 h1 => hrne (same_ray h₁.comp h₁.dt fb.dr wD wo h0 h1).symm)
        (ray1 fb.dr rfl) (ray1 wD wo)
      exact .inr (.inl this)
    · rw [Ref.opp_opp]
      intro f hf hX
      have n1 := low' _ (memU hf)
      have n2 := low' _ (memU (hU.opp hf))
      have := mul_nonneg_of_nonpos_of_nonpos n1 n2
      linarith [hX.1]
  have hF0 : Fr (L ++ R) m (fun e => D₁ e ∨ D₂ e) (m.connect l.opp r).1
      (fun x => (D₁ x ∨ D₂ x) ∨ x = ⟨m.size, 0⟩ ∨ x = ⟨m.size, 2⟩) :=
    (Fr.refl m _).connect hU (.inr (h₂.comp.opp fb.dl)) (.inl fb.dr)
  have og : ∀ {x}, D₁ x ∨ D₂ x → (m.connect l.opp r).1.org x = m.org x :=
    fun hx => connect_org_old m _ _ (hU.edge hx).alloc
  have og0 : (m.connect l.opp r).1.org ⟨m.size, 0⟩ = b := by
    rw [connect_org0]; show m.org l.opp.opp = b; rw [Ref.opp_opp]
  have og2 : (m.connect l.opp r).1.org ⟨m.size, 2⟩ = a := connect_org2 m _ _
  have op0 : (⟨m.size, 0⟩ : Ref).opp = ⟨m.size, 2⟩ := rfl
  have op2 : (⟨m.size, 2⟩ : Ref).opp = ⟨m.size, 0⟩ := ref2_opp _
  have hbase : (m.connect l.opp r).2 = ⟨m.size, 0⟩ := rfl
  rw [hbase]
  generalize (m.connect l.opp r).1 = m1 at hC og og0 og2 ⊢
  have hI : Inv S (Adj m D₁) (Adj m D₂) (fun x y => x = a ∧ y = b) m1
      (fun x => (D₁ x ∨ D₂ x) ∨ x = ⟨m.size, 0⟩ ∨ x = ⟨m.size, 2⟩) ⟨m.size, 0⟩ := by
    refine ⟨hC, .inr (.inl rfl), ?_, ?_, ?_, ?_⟩
    · rw [op0, og0, og2]; exact MS.init S aL bR hdel low
    · rw [op0, og0, og2]; exact fun x y h => .inl h
    · rintro e ((he | he) | rfl | rfl)
      · rw [og (.inl he), og (.inl (h₁.comp.opp he))]; exact .inl (adj_org he)
      · rw [og (.inr he), og (.inr (h₂.comp.opp he))]; exact .inr (.inl (adj_org he))
      · rw [op0, og0, og2]; exact .inr (.inr (.inr ⟨rfl, rfl⟩))
      · rw [op2, og0, og2]; exact .inr (.inr (.inl ⟨rfl, rfl⟩))
    · rintro x y (⟨⟨e, he, rfl, rfl⟩ | ⟨e, he, rfl, rfl⟩, -⟩ | ⟨rfl, rfl⟩ | ⟨rfl, rfl⟩)
      · exact ⟨e, .inl (.inl he), og (.inl he), og (.inl (h₁.comp.opp he))⟩
      · exact ⟨e, .inl (.inr he), og (.inr he), og (.inr (h₂.comp.opp he))⟩
      · exact ⟨_, .inr (.inr rfl), og2, by rw [op2, og0]⟩
      · exact ⟨_, .inr (.inl rfl), og0, by rw [op0, og2]⟩
  refine connectLoop_total h₂.dt h₁.dt fuel fuel hI hf ?_
  have hle := ncard_list (L.product R) (fun z => ¬ (z.1 = a ∧ z.2 = b))
  rw [show (L.product R).length = L.length * R.length from List.length_product ..] at hle
  have : L.length * R.length ≤ (L ++ R).length * (L ++ R).length :=
    Nat.mul_le_mul (by omega) (by omega)
  exact lt_of_le_of_lt hle (by omega)

end

/-! ### The whole triangulation -/

section
variable {kx ky : K}

theorem initTri_total {m : Mesh K} {P : List (Point K)} (h : P.length = 2 ∨ P.length = 3) :
    ∃ y, initTri m P = .ok y := by
  match P, h with
  | [a, b], _ => exact ⟨_, rfl⟩
  | [a, b, c], _ => exact ⟨_, rfl⟩

theorem initParts_total (ns : List Nat) {m : Mesh K} {pts : List (Point K)}
    (h : ∀ n ∈ ns, n = 2 ∨ n = 3) (hs : ns.sum ≤ pts.length) :
    ∃ y, initParts m pts ns = .ok y := by
  induction ns generalizing m pts with
  | nil => exact ⟨_, rfl⟩
  | cons n ns ih =>
    rw [List.sum_cons] at hs
    obtain ⟨⟨m1, t⟩, h1⟩ := initTri_total (m := m) (P := pts.take n) (by
      rw [List.length_take, Nat.min_eq_left (by omega)]; exact h n (by simp))
    obtain ⟨⟨m2, ts⟩, h2⟩ := ih (m := m1) (pts := pts.drop n) (fun k hk => h k (by simp [hk])) (by
      rw [List.length_drop]; omega)
    refine ⟨(m2, t :: ts), ?_⟩
    simp only [initParts]
    rw [h1]
    show (initParts m1 (pts.drop n) ns >>= _) = _
    rw [h2]
    rfl

theorem mergeRound_total (fuel : Nat) (ts : List Tri) {m : Mesh K} (w : m.WF)
    {ds : List ((Ref → Prop) × List (Point K))} (hp : Parts kx ky m ts ds) (hP : Inc kx ky (allPts ds))
    (hf : (allPts ds).length * (allPts ds).length < fuel) : ∃ y, mergeRound fuel m ts = .ok y := by
  induction ts using List.twoStepInduction generalizing m ds with
  | nil => exact ⟨_, rfl⟩
  | singleton t => exact ⟨_, rfl⟩
  | cons_cons a b rest ih _ =>
    obtain ⟨d1, dr0, k1, kr0, rfl⟩ : ∃ d1 dr, Part kx ky m d1.1 d1.2 a ∧ Parts kx ky m (b :: rest) dr ∧
        ds = d1 :: dr := by
      cases hp with
      | cons x y => exact ⟨_, _, x, y, rfl⟩
    obtain ⟨d2, dr, k2, kr, rfl⟩ : ∃ d2 dr', Part kx ky m d2.1 d2.2 b ∧ Parts kx ky m rest dr' ∧
        dr0 = d2 :: dr' := by
      cases kr0 with
      | cons x y => exact ⟨_, _, x, y, rfl⟩
    rw [allPts_cons, allPts_cons, ← List.append_assoc] at hP
    obtain ⟨p12, pr, p12r⟩ := hP.append
    obtain ⟨p1, p2, p1r⟩ := p12.append
    have hl : ((d1.2 ++ d2.2) ++ allPts dr).length * ((d1.2 ++ d2.2) ++ allPts dr).length < fuel := by
      rw [allPts_cons, allPts_cons, ← List.append_assoc] at hf; exact hf
    rw [List.length_append (as := d1.2 ++ d2.2)] at hl
    obtain ⟨⟨m1, t⟩, h1⟩ := k1.merge_total k2 p1r p12.inj fuel
      (lt_of_le_of_lt (Nat.mul_le_mul (Nat.le_add_right ..) (Nat.le_add_right ..)) hl)
    obtain ⟨D, hD, ho⟩ := k1.merge k2 p1r p12.inj fuel h1
    have sep : ∀ d ∈ dr, ∀ e, d.1 e → ¬ (d1.1 e ∨ d2.1 e) := by
      rintro d hd e he hh
      have hm := (kr.mem hd he).1
      have hm2 : m.org e ∈ d1.2 ++ d2.2 := by
        rcases hh with hh | hh
        · exact List.mem_append_left _ (k1.mem hh)
        · exact List.mem_append_right _ (k2.mem hh)
      exact lt_irrefl _ (p12r _ hm2 _ (mem_allPts.2 ⟨d, hd, hm⟩))
    have kr1 := kr.frame hD.comp.wf ho sep
    obtain ⟨⟨m2, ts2⟩, h2⟩ := ih hD.comp.wf kr1 pr
      (lt_of_le_of_lt (Nat.mul_le_mul (Nat.le_add_left ..) (Nat.le_add_left ..)) hl)
    refine ⟨(m2, t :: ts2), ?_⟩
    simp only [mergeRound]
    rw [h1]
    show (mergeRound fuel m1 rest >>= _) = _
    rw [h2]
    rfl

theorem mergeRounds_total (fuel k : Nat) (ts : List Tri) {m : Mesh K} (w : m.WF)
    {ds : List ((Ref → Prop) × List (Point K))} (hp : Parts kx ky m ts ds) (hP : Inc kx ky (allPts ds))
    (hf : (allPts ds).length * (allPts ds).length < fuel) : ∃ y, mergeRounds fuel m k ts = .ok y := by
  induction k generalizing m ts ds with
  | zero => exact ⟨_, rfl⟩
  | succ k ih =>
    obtain ⟨⟨m1, ts1⟩, h1⟩ := mergeRound_total fuel ts w hp hP hf
    obtain ⟨ds1, q1, -, q3, q4⟩ := mergeRound_part fuel ts w hp hP h1
    simp only [mergeRounds]
    rw [h1]
    exact ih ts1 q4 q1 (by rw [q3]; exact hP) (by rw [q3]; exact hf)

theorem delaunay_total_field {fuel : Nat} {parts : List Nat} {pts : List (Point K)} (hn : pts.Nodup)
    (hne : pts ≠ []) (hs : parts.sum = pts.length) (h23 : ∀ n ∈ parts, n = 2 ∨ n = 3)
    (hf : pts.length * pts.length < fuel) : ∃ y, delaunay fuel parts pts = .ok y := by
  obtain ⟨k, hk⟩ := exists_inc hn
  have hlen : (pySort Point.leB pts).length = pts.length := pySort_length _ _
  obtain ⟨⟨m0, ts⟩, h1⟩ := initParts_total (m := Mesh.empty (pts.headD default)) parts
    (pts := pySort Point.leB pts) h23 (by omega)
  obtain ⟨ds, q1, -, q3, q4⟩ := initParts_part parts Mesh.WF.empty hk h1
  rw [hs, ← hlen, List.take_length] at q3
  obtain ⟨⟨m1, ts1⟩, h2⟩ := mergeRounds_total fuel (ceilLog2 ts.length) ts q4 q1 (by rw [q3]; exact hk)
    (by rw [q3, hlen]; exact hf)
  obtain ⟨ds', r1, r2⟩ := mergeRounds_part fuel _ ts q4 q1 (by rw [q3]; exact hk) h2
  simp only [delaunay]
  rw [h1]
  show ∃ y, (mergeRounds fuel m0 (ceilLog2 ts.length) ts >>= _) = _
  rw [h2]
  cases r1 with
  | nil =>
    rw [q3] at r2
    have : (pySort Point.leB pts).length = 0 := by rw [← r2]; rfl
    rw [hlen] at this
    exact absurd (List.length_eq_zero_iff.1 this) hne
  | cons x y => exact ⟨_, rfl⟩

end
end

/-- The triangulation of distinct points always succeeds. -/
theorem delaunay_total {K : Type} [CommRing K] [LinearOrder K] [IsStrictOrderedRing K]
    {fuel : Nat} {parts : List Nat} {pts : List (Point K)} (hn : pts.Nodup)
    (hne : pts ≠ []) (hs : parts.sum = pts.length) (h23 : ∀ n ∈ parts, n = 2 ∨ n = 3)
    (hf : pts.length * pts.length < fuel) : ∃ y, delaunay fuel parts pts = .ok y := by
  obtain ⟨F, _, _, _, f, hmono⟩ := exists_field K
  have hinj : Function.Injective (Point.map f) := by
    rintro ⟨a, b⟩ ⟨c, d⟩ h
    simp only [Point.map, Point.mk.injEq] at h
    rw [hmono.injective h.1, hmono.injective h.2]
  obtain ⟨y, hy⟩ := delaunay_total_field (fuel := fuel) (parts := parts) (pts := pts.map (Point.map f))
    (hn.map hinj) (by simpa using hne) (by simpa using hs) h23 (by simpa using hf)
  rw [delaunay_map hmono] at hy
  rcases h : delaunay fuel parts pts with e | z
  · rw [h] at hy
    cases hy
  · exact ⟨z, rfl⟩

end HG
