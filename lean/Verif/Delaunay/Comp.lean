import Verif.Delaunay.Cyc
import Verif.Lemmas.Provenance

/-!
# Plane graphs in the edge structure

`Comp m D`: the darts `D` of the mesh `m` form a straight-line graph without crossings, and `next`
turns counterclockwise around the origin of a dart.
-/

set_option linter.unusedSectionVars false

namespace HG

section ops
variable {K : Type} [CommRing K] [LinearOrder K] {m : Mesh K}

theorem ref2_primal (n : Nat) : (⟨n, 2⟩ : Ref).primal = true := by
  have : ((2 : Fin 4).val % 2 == 0) = true := by decide
  exact this

theorem ref2_opp (n : Nat) : (⟨n, 2⟩ : Ref).opp = ⟨n, 0⟩ := by
  have : ((2 : Fin 4) + 1 + 1) = 0 := by decide
  show (⟨n, (2 : Fin 4) + 1 + 1⟩ : Ref) = _
  rw [this]

theorem splice_next_primal (h : m.WF) {a b x : Ref} (ha : m.Edge a) (hb : m.Edge b) (hx : m.Edge x) :
    (m.splice a b).next x = if x = b then m.next a else if x = a then m.next b else m.next x := by
  rw [splice_next h ⟨ha.alloc, hb.alloc, by rw [ha.primal, hb.primal]⟩]
  have n1 : x ≠ (m.next b).rot := by
    intro e
    have := congrArg Ref.primal e
    rw [Ref.rot_primal, h.par b hb.alloc, hb.primal, hx.primal] at this
    simp at this
  have n2 : x ≠ (m.next a).rot := by
    intro e
    have := congrArg Ref.primal e
    rw [Ref.rot_primal, h.par a ha.alloc, ha.primal, hx.primal] at this
    simp at this
  rw [if_neg n1, if_neg n2]

theorem rfs_edge (h : m.WF) {e : Ref} (he : m.Edge e) : m.Edge (m.rfs e) :=
  ⟨h.rot_closed he.alloc, by rw [h.rfs_par he.alloc, he.primal]⟩

theorem next_edge (h : m.WF) {e : Ref} (he : m.Edge e) : m.Edge (m.next e) :=
  ⟨h.closed e he.alloc, by rw [h.par e he.alloc, he.primal]⟩

theorem eq_rfs_iff (h : m.WF) {e x : Ref} (he : m.Edge e) (hx : m.Edge x) :
    x = m.rfs e ↔ m.next x = e := by
  constructor
  · rintro rfl; exact h.lfs_rfs he.alloc
  · rintro rfl; exact (h.rfs_lfs hx.alloc).symm

theorem delete_next (h : m.WF) {e x : Ref} (he : m.Edge e) (h1 : m.next e ≠ e.opp)
    (h2 : m.next e.opp ≠ e) (hx : m.Edge x) :
    (m.delete e).next x = if x = e ∨ x = e.opp then x else if m.next x = e then m.next e
      else if m.next x = e.opp then m.next e.opp else m.next x := by
  have hoe : e.opp ≠ e := e.opp_ne
  have w1 : (m.splice e (m.rfs e)).WF :=
    h.splice ⟨he.alloc, h.rot_closed he.alloc, (h.rfs_par he.alloc).symm⟩
  have he1 : (m.splice e (m.rfs e)).Edge e.opp := ⟨he.opp.alloc, he.opp.primal⟩
  have hx1 : (m.splice e (m.rfs e)).Edge x := ⟨hx.alloc, hx.primal⟩
  have nx : ∀ y, m.Edge y → (m.splice e (m.rfs e)).next y =
      if m.next y = e then m.next e else if y = e then e else m.next y := by
    intro y hy
    rw [splice_next_primal h he (rfs_edge h he) hy]
    simp only [eq_rfs_iff h he hy]
    have : m.next (m.rfs e) = e := h.lfs_rfs he.alloc
    rw [this]
  have eo : (m.splice e (m.rfs e)).next e.opp = m.next e.opp := by
    rw [nx _ he.opp, if_neg h2, if_neg hoe]
  unfold Mesh.delete
  simp only
  rw [splice_next_primal w1 he1 (rfs_edge w1 he1) hx1]
  simp only [eq_rfs_iff w1 he1 hx1]
  have : (m.splice e (m.rfs e)).next ((m.splice e (m.rfs e)).rfs e.opp) = e.opp := w1.lfs_rfs he1.alloc
  rw [this, eo]
  by_cases c1 : x = e
  · subst c1
    rw [if_pos (Or.inl rfl)]
    have : (m.splice x (m.rfs x)).next x = x := by
      rw [nx _ he]
      split
      · assumption
      · rw [if_pos rfl]
    rw [this, if_neg hoe.symm, if_neg hoe.symm]
  by_cases c2 : x = e.opp
  · subst c2
    rw [if_pos (Or.inr rfl), eo]
    split
    · assumption
    · rw [if_pos rfl]
  rw [if_neg (show ¬ (x = e ∨ x = e.opp) by tauto), if_neg c2, nx x hx]
  by_cases c3 : m.next x = e
  · rw [if_pos c3, if_pos c3, if_neg h1]
  · rw [if_neg c3, if_neg c3, if_neg c1]

theorem connect_next_old (h : m.WF) {a b x : Ref} (ha : m.Edge a) (hb : m.Edge b)
    (hx : m.Edge x) : (m.connect a b).1.next x =
      if x = b then ⟨m.size, 2⟩ else if m.next x = a.opp then ⟨m.size, 0⟩ else m.next x := by
  have w1 := h.fromEndpoints (m.stop a) (m.start b)
  generalize hm1 : (m.fromEndpoints (m.stop a) (m.start b)).1 = m1 at w1
  have s1 : m1.size = m.size + 1 := by rw [← hm1]; rfl
  have old : ∀ y, y.q < m.size → m1.next y = m.next y := by
    intro y hy; rw [← hm1]; exact fromEndpoints_next_old _ _ _ _ (by omega)
  have hlfe : m1.lfe a = m.rfs a.opp := by
    unfold Mesh.lfe Mesh.rfs
    rw [old _ (by simpa using ha.alloc)]; rfl
  have e1 : m1.Edge ⟨m.size, 0⟩ := ⟨by rw [s1]; simp, rfl⟩
  have e2 : m1.Edge ⟨m.size, 2⟩ := ⟨by rw [s1]; simp, ref2_primal _⟩
  have up : ∀ {y}, m.Edge y → m1.Edge y := fun hy => ⟨by rw [s1]; have := hy.alloc; omega, hy.primal⟩
  have hr : m1.Edge (m.rfs a.opp) := up (rfs_edge h ha.opp)
  have n0 : m1.next ⟨m.size, 0⟩ = ⟨m.size, 0⟩ := by
    rw [← hm1, fromEndpoints_next_new _ _ _ _ rfl]; rfl
  have n2 : m1.next ⟨m.size, 2⟩ = ⟨m.size, 2⟩ := by
    rw [← hm1, fromEndpoints_next_new _ _ _ _ rfl, if_pos (ref2_primal _)]
  have w2 : (m1.splice ⟨m.size, 0⟩ (m.rfs a.opp)).WF :=
    w1.splice ⟨e1.alloc, hr.alloc, by rw [e1.primal, hr.primal]⟩
  have hopp : (⟨m.size, 0⟩ : Ref).opp = ⟨m.size, 2⟩ := rfl
  have eq : (m.connect a b).1 = (m1.splice ⟨m.size, 0⟩ (m.rfs a.opp)).splice ⟨m.size, 2⟩ b := by
    rw [← hlfe, ← hm1]; rfl
  have bs : b ≠ ⟨m.size, 2⟩ := by rintro rfl; exact absurd hb.alloc (lt_irrefl _)
  have xs : x ≠ ⟨m.size, 2⟩ := by rintro rfl; exact absurd hx.alloc (lt_irrefl _)
  have xs0 : x ≠ ⟨m.size, 0⟩ := by rintro rfl; exact absurd hx.alloc (lt_irrefl _)
  have two : (m1.splice ⟨m.size, 0⟩ (m.rfs a.opp)).next ⟨m.size, 2⟩ = ⟨m.size, 2⟩ := by
    rw [splice_next_primal w1 e1 hr e2]
    have c1 : (⟨m.size, 2⟩ : Ref) ≠ m.rfs a.opp := by
      intro e
      have := (rfs_edge h ha.opp).alloc
      rw [← e] at this
      exact lt_irrefl _ this
    rw [if_neg c1, if_neg (by simp), n2]
  rw [eq, splice_next_primal w2 ⟨e2.alloc, e2.primal⟩ ⟨(up hb).alloc, hb.primal⟩
    ⟨(up hx).alloc, hx.primal⟩]
  rw [if_neg xs, two, splice_next_primal w1 e1 hr (up hx), n0, if_neg xs0, old _ hx.alloc]
  simp only [eq_rfs_iff h ha.opp hx]

theorem connect_next_new (h : m.WF) {a b : Ref} (ha : m.Edge a) (hb : m.Edge b)
    (hne : m.next b ≠ a.opp) : (m.connect a b).1.next ⟨m.size, 0⟩ = a.opp ∧
      (m.connect a b).1.next ⟨m.size, 2⟩ = m.next b := by
  have w1 := h.fromEndpoints (m.stop a) (m.start b)
  generalize hm1 : (m.fromEndpoints (m.stop a) (m.start b)).1 = m1 at w1
  have s1 : m1.size = m.size + 1 := by rw [← hm1]; rfl
  have old : ∀ y, y.q < m.size → m1.next y = m.next y := by
    intro y hy; rw [← hm1]; exact fromEndpoints_next_old _ _ _ _ (by omega)
  have hlfe : m1.lfe a = m.rfs a.opp := by
    unfold Mesh.lfe Mesh.rfs
    rw [old _ (by simpa using ha.alloc)]; rfl
  have e1 : m1.Edge ⟨m.size, 0⟩ := ⟨by rw [s1]; simp, rfl⟩
  have e2 : m1.Edge ⟨m.size, 2⟩ := ⟨by rw [s1]; simp, ref2_primal _⟩
  have up : ∀ {y}, m.Edge y → m1.Edge y := fun hy => ⟨by rw [s1]; have := hy.alloc; omega, hy.primal⟩
  have hr : m1.Edge (m.rfs a.opp) := up (rfs_edge h ha.opp)
  have w2 : (m1.splice ⟨m.size, 0⟩ (m.rfs a.opp)).WF :=
    w1.splice ⟨e1.alloc, hr.alloc, by rw [e1.primal, hr.primal]⟩
  have eq : (m.connect a b).1 = (m1.splice ⟨m.size, 0⟩ (m.rfs a.opp)).splice ⟨m.size, 2⟩ b := by
    rw [← hlfe, ← hm1]; rfl
  have bs : b ≠ ⟨m.size, 2⟩ := by rintro rfl; exact absurd hb.alloc (lt_irrefl _)
  have bs0 : b ≠ ⟨m.size, 0⟩ := by rintro rfl; exact absurd hb.alloc (lt_irrefl _)
  have nsz : ∀ r, (⟨m.size, r⟩ : Ref) ≠ m.rfs a.opp := by
    intro r e
    have := (rfs_edge h ha.opp).alloc
    rw [← e] at this
    exact lt_irrefl _ this
  have hra : m1.next (m.rfs a.opp) = a.opp := by
    rw [old _ (rfs_edge h ha.opp).alloc]; exact h.lfs_rfs ha.opp.alloc
  constructor
  · rw [eq, splice_next_primal w2 ⟨e2.alloc, e2.primal⟩ ⟨(up hb).alloc, hb.primal⟩
      ⟨e1.alloc, e1.primal⟩, if_neg bs0.symm, if_neg (by simp), splice_next_primal w1 e1 hr e1,
      if_neg (nsz 0), if_pos rfl, hra]
  · rw [eq, splice_next_primal w2 ⟨e2.alloc, e2.primal⟩ ⟨(up hb).alloc, hb.primal⟩
      ⟨e2.alloc, e2.primal⟩, if_neg bs.symm, if_pos rfl, splice_next_primal w1 e1 hr (up hb),
      if_neg, if_neg bs0, old _ hb.alloc]
    rw [eq_rfs_iff h ha.opp hb]; exact hne

theorem connect_org_old (m : Mesh K) (a b : Ref) {x : Ref} (hx : x.q < m.size) :
    (m.connect a b).1.org x = m.org x := by
  show (if x = ⟨m.size, 0⟩ then _ else if x = ⟨m.size, 2⟩ then _ else m.org x) = _
  rw [if_neg (by rintro rfl; exact lt_irrefl _ hx), if_neg (by rintro rfl; exact lt_irrefl _ hx)]

theorem connect_org0 (m : Mesh K) (a b : Ref) : (m.connect a b).1.org ⟨m.size, 0⟩ = m.stop a := by
  show (if (⟨m.size, 0⟩ : Ref) = ⟨m.size, 0⟩ then _ else _) = _
  rw [if_pos rfl]

theorem connect_org2 (m : Mesh K) (a b : Ref) : (m.connect a b).1.org ⟨m.size, 2⟩ = m.org b := by
  show (if (⟨m.size, 2⟩ : Ref) = ⟨m.size, 0⟩ then _ else if (⟨m.size, 2⟩ : Ref) = ⟨m.size, 2⟩ then
    m.start b else _) = _
  rw [if_neg (by simp), if_pos rfl]; rfl

end ops

variable {K : Type} [Field K] [LinearOrder K] [IsStrictOrderedRing K]
variable {m : Mesh K} {D : Ref → Prop}

structure Comp (m : Mesh K) (D : Ref → Prop) : Prop where
  wf : m.WF
  edge : ∀ {e}, D e → m.Edge e
  opp : ∀ {e}, D e → D e.opp
  next : ∀ {e}, D e → D (m.next e)
  org : ∀ {e}, D e → m.org (m.next e) = m.org e
  ne : ∀ {e}, D e → m.org e ≠ m.org e.opp
  simple : ∀ {e f}, D e → D f → m.org e = m.org f → m.org e.opp = m.org f.opp → e = f
  sorted : ∀ {e f}, D e → D f → m.org f = m.org e → f ≠ e → f ≠ m.next e →
    Cyc (m.org e) (m.org e.opp) (m.org (m.next e).opp) (m.org f.opp)
  nocross : ∀ {e f}, D e → D f → ¬ XX (m.org e) (m.org e.opp) (m.org f) (m.org f.opp)

namespace Comp

theorem prev (h : Comp m D) {e : Ref} (he : D e) : D (m.rfs e) := by
  obtain ⟨n, hn, -, hf⟩ := orbit_finite m m.next (fun x hx => h.wf.closed x hx)
    (fun a b ha hb hab => h.wf.inj ha hb hab) e (h.edge he).alloc
  obtain ⟨k, rfl⟩ := Nat.exists_eq_succ_of_ne_zero hn.ne'
  rw [Function.iterate_succ_apply'] at hf
  have hk : ∀ k, D (m.next^[k] e) := by
    intro k
    induction k with
    | zero => exact he
    | succ k ih => rw [Function.iterate_succ_apply']; exact h.next ih
  rw [← (eq_rfs_iff h.wf (h.edge he) (h.edge (hk k))).2 hf]
  exact hk k

theorem next_prev (h : Comp m D) {e : Ref} (he : D e) : m.next (m.rfs e) = e :=
  h.wf.lfs_rfs (h.edge he).alloc

theorem prev_org (h : Comp m D) {e : Ref} (he : D e) : m.org (m.rfs e) = m.org e := by
  have := h.org (h.prev he)
  rw [h.next_prev he] at this
  exact this.symm

theorem next_inj (h : Comp m D) {e f : Ref} (he : D e) (hf : D f) (hn : m.next e = m.next f) :
    e = f := h.wf.inj (h.edge he).alloc (h.edge hf).alloc hn

theorem next_ne_opp (h : Comp m D) {e f : Ref} (he : D e) (_ : D f)
    (hne : m.org e ≠ m.org f) : m.next e ≠ f := by
  intro hh
  have := h.org he
  rw [hh] at this
  exact hne this.symm

/-- A single dart at its origin. -/
theorem single (h : Comp m D) {e f : Ref} (he : D e) (hf : D f) (hn : m.next e = e)
    (ho : m.org f = m.org e) : f = e := by
  by_contra hne
  have := h.sorted he hf ho hne (by rw [hn]; exact hne)
  rw [hn] at this
  exact this.ne rfl

theorem delete (h : Comp m D) {e : Ref} (he : D e) :
    Comp (m.delete e) (fun x => D x ∧ x ≠ e ∧ x ≠ e.opp) := by
  have ho := h.opp he
  have n1 : m.next e ≠ e.opp := h.next_ne_opp he ho (h.ne he)
  have n2 : m.next e.opp ≠ e := h.next_ne_opp ho he (h.ne he).symm
  have nx : ∀ {x}, D x → x ≠ e → x ≠ e.opp → (m.delete e).next x = if m.next x = e then m.next e
      else if m.next x = e.opp then m.next e.opp else m.next x := by
    intro x hx h1 h2
    rw [delete_next h.wf (h.edge he) n1 n2 (h.edge hx), if_neg (by tauto)]
  have srt : ∀ {g}, D g → ∀ {x}, D x → x ≠ g → m.next x = g → ∀ {f}, D f → m.org f = m.org x → f ≠ x →
      f ≠ m.next g → f ≠ g → Cyc (m.org x) (m.org x.opp) (m.org (m.next g).opp) (m.org f.opp) := by
    intro g hg x hx hxg hn f hf hof c1 c2 c3
    have s1 := h.sorted hx hf hof c1 (by rw [hn]; exact c3)
    rw [hn] at s1
    have og : m.org g = m.org x := by rw [← hn]; exact h.org hx
    have s2 := h.sorted hg hf (by rw [og]; exact hof) c3 c2
    rw [og] at s2
    exact (s2.trans s1.rot).2.rot.rot
  refine ⟨h.wf.delete (h.edge he).alloc, fun hx => ⟨(h.edge hx.1).alloc, (h.edge hx.1).primal⟩,
    ?_, ?_, ?_, fun hx => h.ne hx.1, fun hx hf => h.simple hx.1 hf.1, ?_,
    fun hx hf => h.nocross hx.1 hf.1⟩
  · rintro x ⟨hx, h1, h2⟩
    refine ⟨h.opp hx, fun hh => h2 ?_, fun hh => h1 ?_⟩
    · rw [← hh, Ref.opp_opp]
    · have := congrArg Ref.opp hh
      rwa [Ref.opp_opp, Ref.opp_opp] at this
  · rintro x ⟨hx, h1, h2⟩
    rw [nx hx h1 h2]
    split_ifs with c1 c2
    · exact ⟨h.next he, fun hh => h1 (h.next_inj hx he (by rw [c1, hh])), n1⟩
    · exact ⟨h.next ho, n2, fun hh => h2 (h.next_inj hx ho (by rw [c2, hh]))⟩
    · exact ⟨h.next hx, c1, c2⟩
  · rintro x ⟨hx, h1, h2⟩
    rw [nx hx h1 h2, delete_org]
    split_ifs with c1 c2
    · rw [h.org he, ← c1, h.org hx]
    · rw [h.org ho, ← c2, h.org hx]
    · exact h.org hx
  · rintro x f ⟨hx, h1, h2⟩ ⟨hf, f1, f2⟩ hof d1 d2
    rw [nx hx h1 h2] at d2 ⊢
    simp only [delete_org] at hof ⊢
    split_ifs at d2 ⊢ with c1 c2
    · exact srt he hx h1 c1 hf hof d1 d2 f1
    · exact srt ho hx h2 c2 hf hof d1 d2 f2
    · exact h.sorted hx hf hof d1 d2

theorem frame (h : Comp m D) {m' : Mesh K} (w : m'.WF) (hs : m.size ≤ m'.size)
    (hn : ∀ e, D e → m'.next e = m.next e) (ho : ∀ e, D e → m'.org e = m.org e) : Comp m' D := by
  refine ⟨w, fun hx => ⟨lt_of_lt_of_le (h.edge hx).alloc hs, (h.edge hx).primal⟩, h.opp,
    fun hx => by rw [hn _ hx]; exact h.next hx, ?_, ?_, ?_, ?_, ?_⟩
  · intro e he
    rw [hn _ he, ho _ (h.next he), ho _ he]; exact h.org he
  · intro e he
    rw [ho _ he, ho _ (h.opp he)]; exact h.ne he
  · intro e f he hf
    rw [ho _ he, ho _ (h.opp he), ho _ hf, ho _ (h.opp hf)]; exact h.simple he hf
  · intro e f he hf
    rw [ho _ he, ho _ (h.opp he), ho _ hf, ho _ (h.opp hf), hn _ he, ho _ (h.opp (h.next he))]
    exact h.sorted he hf
  · intro e f he hf
    rw [ho _ he, ho _ (h.opp he), ho _ hf, ho _ (h.opp hf)]; exact h.nocross he hf

theorem union {D₁ D₂ : Ref → Prop} (h₁ : Comp m D₁) (h₂ : Comp m D₂)
    (hd : ∀ e f, D₁ e → D₂ f → m.org e ≠ m.org f)
    (hx : ∀ e f, D₁ e → D₂ f → ¬ XX (m.org e) (m.org e.opp) (m.org f) (m.org f.opp)) :
    Comp m (fun e => D₁ e ∨ D₂ e) := by
  refine ⟨h₁.wf, ?_, ?_, ?_, ?_, ?_, ?_, ?_, ?_⟩
  · rintro e (h | h)
    · exact h₁.edge h
    · exact h₂.edge h
  · rintro e (h | h)
    · exact .inl (h₁.opp h)
    · exact .inr (h₂.opp h)
  · rintro e (h | h)
    · exact .inl (h₁.next h)
    · exact .inr (h₂.next h)
  · rintro e (h | h)
    · exact h₁.org h
    · exact h₂.org h
  · rintro e (h | h)
    · exact h₁.ne h
    · exact h₂.ne h
  · rintro e f (h | h) (h' | h') ho
    · exact h₁.simple h h' ho
    · exact absurd ho (hd _ _ h h')
    · exact absurd ho.symm (hd _ _ h' h)
    · exact h₂.simple h h' ho
  · rintro e f (h | h) (h' | h') ho
    · exact h₁.sorted h h' ho
    · exact absurd ho.symm (hd _ _ h h')
    · exact absurd ho (hd _ _ h' h)
    · exact h₂.sorted h h' ho
  · rintro e f (h | h) (h' | h')
    · exact h₁.nocross h h'
    · exact hx _ _ h h'
    · exact fun hX => hx _ _ h' h hX.symm
    · exact h₂.nocross h h'

/-- Inserting a direction `g` between a dart `e` and its successor keeps the circular order. -/
theorem insert_cyc (h : Comp m D) {e : Ref} (he : D e) {g : Point K}
    (hg : m.next e ≠ e → Cyc (m.org e) (m.org e.opp) g (m.org (m.next e).opp)) :
    (∀ f, D f → m.org f = m.org e → f ≠ e → Cyc (m.org e) (m.org e.opp) g (m.org f.opp)) ∧
    (∀ f, D f → m.org f = m.org e → f ≠ m.next e →
      Cyc (m.org e) g (m.org (m.next e).opp) (m.org f.opp)) ∧
    (∀ x, D x → m.org x = m.org e → x ≠ e →
      Cyc (m.org e) (m.org x.opp) (m.org (m.next x).opp) g) := by
  have one : ∀ f, D f → m.org f = m.org e → f ≠ e → m.next e ≠ e := by
    intro f hf ho hne hn
    exact hne (h.single he hf hn ho)
  have A : ∀ f, D f → m.org f = m.org e → f ≠ e → Cyc (m.org e) (m.org e.opp) g (m.org f.opp) := by
    intro f hf ho hne
    have hg' := hg (one f hf ho hne)
    by_cases hfn : f = m.next e
    · rw [hfn]; exact hg'
    · exact (hg'.trans (h.sorted he hf ho hne hfn)).1
  refine ⟨A, ?_, ?_⟩
  · intro f hf ho hfn
    by_cases hne : f = e
    · subst hne
      have hne : m.next f ≠ f := fun hh => hfn hh.symm
      exact (hg hne).rot
    · exact ((hg (one f hf ho hne)).trans (h.sorted he hf ho hne hfn)).2
  · intro x hx ho hne
    have s1 := (A x hx ho hne).rot.rot
    by_cases hxe : m.next x = e
    · rw [hxe]; exact s1
    · have s2 := h.sorted hx he ho.symm hne.symm (fun hh => hxe hh.symm)
      rw [ho] at s2
      exact (s2.trans s1).1

theorem connect (h : Comp m D) {a b : Ref} (ha : D a) (hb : D b) (hne : m.org a.opp ≠ m.org b)
    (hnew : ∀ f, D f → m.org f = m.org a.opp → m.org f.opp ≠ m.org b)
    (ha' : m.rfs a.opp ≠ a.opp →
      Cyc (m.org a.opp) (m.org (m.rfs a.opp).opp) (m.org b) (m.org a))
    (hb' : m.next b ≠ b → Cyc (m.org b) (m.org b.opp) (m.org a.opp) (m.org (m.next b).opp))
    (hx : ∀ f, D f → ¬ XX (m.org a.opp) (m.org b) (m.org f) (m.org f.opp)) :
    Comp (m.connect a b).1 (fun x => D x ∨ x = ⟨m.size, 0⟩ ∨ x = ⟨m.size, 2⟩) := by
  have ea := h.edge ha
  have eb := h.edge hb
  have hao := h.opp ha
  have hn1 : m.next b ≠ a.opp := h.next_ne_opp hb hao hne.symm
  obtain ⟨nw0, nw2⟩ := connect_next_new h.wf ea eb hn1
  have nxo : ∀ {x}, D x → (m.connect a b).1.next x =
      if x = b then ⟨m.size, 2⟩ else if m.next x = a.opp then ⟨m.size, 0⟩ else m.next x :=
    fun hx => connect_next_old h.wf ea eb (h.edge hx)
  have og : ∀ {x}, D x → (m.connect a b).1.org x = m.org x :=
    fun hx => connect_org_old m a b (h.edge hx).alloc
  have og0 : (m.connect a b).1.org ⟨m.size, 0⟩ = m.org a.opp := connect_org0 m a b
  have og2 := connect_org2 m a b
  have op0 : (⟨m.size, 0⟩ : Ref).opp = ⟨m.size, 2⟩ := rfl
  have op2 : (⟨m.size, 2⟩ : Ref).opp = ⟨m.size, 0⟩ := ref2_opp _
  have dn : ∀ {x r}, D x → x ≠ ⟨m.size, r⟩ := by
    rintro x r hx rfl; exact lt_irrefl _ (h.edge hx).alloc
  -- circular order around the two ends
  set y := m.rfs a.opp with hy
  have yD : D y := h.prev hao
  have yn : m.next y = a.opp := h.next_prev hao
  have yo : m.org y = m.org a.opp := h.prev_org hao
  obtain ⟨A1, A2, A3⟩ := h.insert_cyc yD (g := m.org b) (by
    rw [yn, yo, Ref.opp_opp]; exact fun hh => ha' hh.symm)
  obtain ⟨B1, B2, B3⟩ := h.insert_cyc hb (g := m.org a.opp) hb'
  rw [yn, yo, Ref.opp_opp] at A2
  rw [yo] at A1 A3
  have nxy : ∀ x, D x → (m.next x = a.opp ↔ x = y) := by
    intro x hx
    exact ⟨fun hh => h.next_inj hx yD (by rw [hh, yn]), fun hh => by rw [hh, yn]⟩
  refine ⟨h.wf.connect ea.alloc eb.alloc ea.primal eb.primal, ?_, ?_, ?_, ?_, ?_, ?_, ?_, ?_⟩
  · rintro e (he | rfl | rfl)
    · exact ⟨by rw [connect_size]; have := (h.edge he).alloc; omega, (h.edge he).primal⟩
    · exact ⟨by rw [connect_size]; simp, rfl⟩
    · exact ⟨by rw [connect_size]; simp, ref2_primal _⟩
  · rintro e (he | rfl | rfl)
    · exact .inl (h.opp he)
    · exact .inr (.inr rfl)
    · exact .inr (.inl (ref2_opp _))
  · rintro e (he | rfl | rfl)
    · rw [nxo he]
      split_ifs
      · exact .inr (.inr rfl)
      · exact .inr (.inl rfl)
      · exact .inl (h.next he)
    · rw [nw0]; exact .inl hao
    · rw [nw2]; exact .inl (h.next hb)
  · rintro e (he | rfl | rfl)
    · rw [nxo he, og he]
      split_ifs with c1 c2
      · rw [og2, c1]
      · rw [og0, ← c2, h.org he]
      · rw [og (h.next he), h.org he]
    · rw [nw0, og0, og hao]
    · rw [nw2, og2, og (h.next hb), h.org hb]
  · rintro e (he | rfl | rfl)
    · rw [og he, og (h.opp he)]; exact h.ne he
    · rw [op0, og0, og2]; exact hne
    · rw [op2, og0, og2]; exact hne.symm
  · rintro e f (he | rfl | rfl) (hf | rfl | rfl)
    · rw [og he, og hf, og (h.opp he), og (h.opp hf)]; exact h.simple he hf
    · rw [og he, og (h.opp he), op0, og0, og2]
      exact fun h1 h2 => absurd h2 (hnew e he h1)
    · rw [og he, og (h.opp he), op2, og0, og2]
      intro h1 h2
      exact absurd (by rw [Ref.opp_opp]; exact h1) (hnew e.opp (h.opp he) h2)
    · rw [og hf, og (h.opp hf), op0, og0, og2]
      exact fun h1 h2 => absurd h2.symm (hnew f hf h1.symm)
    · intros; rfl
    · rw [op0, og0, og2]
      exact fun h1 => absurd h1 hne
    · rw [og hf, og (h.opp hf), op2, og0, og2]
      intro h1 h2
      exact absurd (by rw [Ref.opp_opp]; exact h1.symm) (hnew f.opp (h.opp hf) h2.symm)
    · rw [og0, og2]
      exact fun h1 => absurd h1.symm hne
    · intros; rfl
  · rintro e f (he | rfl | rfl) (hf | rfl | rfl)
    · rw [og he, og hf, og (h.opp he), og (h.opp hf), nxo he]
      intro ho f1 f2
      split_ifs at f2 ⊢ with c1 c2
      · rw [op2, og0]
        subst c1
        exact B1 f hf ho f1
      · rw [op0, og2]
        have := (nxy e he).1 c2
        subst this
        rw [yo]
        exact A1 f hf (by rw [ho, yo]) f1
      · rw [og (h.opp (h.next he))]
        exact h.sorted he hf ho f1 f2
    · rw [og he, og (h.opp he), op0, og0, og2, nxo he]
      intro ho f1 f2
      have hb1 : e ≠ b := fun hh => hne (by rw [ho, hh])
      rw [if_neg hb1] at f2 ⊢
      split_ifs at f2 ⊢ with c2
      · exact absurd rfl f2
      · rw [og (h.opp (h.next he))]
        rw [← ho]
        exact A3 e he ho.symm (fun hh => c2 ((nxy e he).2 hh))
    · rw [og he, og (h.opp he), op2, og0, og2, nxo he]
      intro ho f1 f2
      split_ifs at f2 ⊢ with c1 c2
      · exact absurd rfl f2
      · exfalso
        have := (nxy e he).1 c2
        subst this
        exact hne (by rw [ho, yo])
      · rw [og (h.opp (h.next he)), ← ho]
        exact B3 e he ho.symm c1
    · rw [og hf, og (h.opp hf), op0, og0, og2, nw0, og (h.opp hao), Ref.opp_opp]
      intro ho f1 f2
      exact A2 f hf (by rw [ho]) f2
    · intro _ f1; exact absurd rfl f1
    · rw [og0, og2]; exact fun ho => absurd ho.symm hne
    · rw [og hf, og (h.opp hf), op2, og0, og2, nw2, og (h.opp (h.next hb))]
      intro ho f1 f2
      exact B2 f hf ho f2
    · rw [og0, og2]; exact fun ho => absurd ho hne
    · intro _ f1; exact absurd rfl f1
  · rintro e f (he | rfl | rfl) (hf | rfl | rfl)
    · rw [og he, og hf, og (h.opp he), og (h.opp hf)]; exact h.nocross he hf
    · rw [og he, og (h.opp he), op0, og0, og2]
      exact fun hX => hx e he hX.symm
    · rw [og he, og (h.opp he), op2, og0, og2]
      exact fun hX => hx e he hX.symm.swap
    · rw [og hf, og (h.opp hf), op0, og0, og2]
      exact hx f hf
    · rintro ⟨h1, -⟩; simp at h1
    · rw [op0, op2]; rintro ⟨h1, -⟩; simp at h1
    · rw [og hf, og (h.opp hf), op2, og0, og2]
      exact fun hX => hx f hf hX.swap
    · rw [op0, op2]; rintro ⟨h1, -⟩; simp at h1
    · rintro ⟨h1, -⟩; simp at h1

end Comp
end HG
