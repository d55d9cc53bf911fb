import Verif.Delaunay.Base

/-!
# Merging two Delaunay triangulations
-/

set_option linter.unusedSectionVars false

namespace HG

variable {K : Type} [Field K] [LinearOrder K] [IsStrictOrderedRing K]
variable {L R P : List (Point K)} {m : Mesh K} {D : Ref → Prop}

/-- The darts `D` of the mesh `m` form a Delaunay triangulation of the points `P`, and `t` holds its
hull edges starting at the least and at the greatest point. -/
structure Part (kx ky : K) (m : Mesh K) (D : Ref → Prop) (P : List (Point K)) (t : Tri) : Prop where
  comp : Comp m D
  dt : DT P (Adj m D)
  dl : D t.leftSide
  lmin : ∀ p ∈ P, sg kx ky (m.org t.leftSide) ≤ sg kx ky p
  lhull : ∀ p ∈ P, 0 ≤ cross (m.org t.leftSide) (m.org t.leftSide.opp) p
  dr : D t.rightSide
  rmax : ∀ p ∈ P, sg kx ky p ≤ sg kx ky (m.org t.rightSide)
  rhull : ∀ p ∈ P, cross (m.org t.rightSide) (m.org t.rightSide.opp) p ≤ 0

/-- Changes of the mesh that concern only the darts `D`. -/
structure Only (m : Mesh K) (D : Ref → Prop) (m' : Mesh K) (D' : Ref → Prop) : Prop where
  size : m.size ≤ m'.size
  org : ∀ {e}, m.Edge e → m'.org e = m.org e
  sub : ∀ {e}, D' e → D e ∨ m.size ≤ e.q
  next : ∀ {e}, m.Edge e → ¬ D e → m'.next e = m.next e

theorem Fr.refl (m : Mesh K) (D : Ref → Prop) : Fr P m D m D :=
  ⟨le_refl _, fun _ => rfl, fun h _ => h, fun h => .inl h, fun _ _ => rfl⟩

theorem mid_mir {a b p : Point K} : Mid (mir a) (mir b) (mir p) ↔ Mid a b p := by
  unfold Mid
  rw [cross_mir, neg_eq_zero, ev_diam, ev_diam]
  have : (mir p).x = - p.x := rfl
  constructor <;> rintro ⟨h1, h2⟩ <;> refine ⟨h1, ?_⟩ <;> (simp only [mir] at h2 ⊢; ring_nf at h2 ⊢; exact h2)

/-- The separating line between two parts. -/
def Sep.mk' {kx ky : K} {u v : Point K} (hu : ∀ x ∈ L, sg kx ky x ≤ sg kx ky u)
    (hv : ∀ y ∈ R, sg kx ky v ≤ sg kx ky y) (h : sg kx ky u < sg kx ky v) : Sep L R where
  sx := kx
  sy := ky
  c := (sg kx ky u + sg kx ky v) / 2
  lt := fun p hp => by
    have := hu p hp
    have : kx * p.x + ky * p.y = sg kx ky p := rfl
    linarith
  gt := fun p hp => by
    have := hv p hp
    have : kx * p.x + ky * p.y = sg kx ky p := rfl
    linarith

section
variable {kx ky : K} {D₁ D₂ : Ref → Prop}

/-- A hull edge of the left part stays a hull edge. -/
theorem keep_left {u n a b : Point K} (hP : ∀ x ∈ L, 0 ≤ cross u n x)
    (hlt : ∀ x ∈ L, ∀ y ∈ R, sg kx ky x < sg kx ky y) (hu : u ∈ L) (_ : n ∈ L) (ha : a ∈ L)
    (hb : b ∈ R) (low : ∀ p ∈ L ++ R, 0 ≤ cross a b p) (h1 : sg kx ky u < sg kx ky a)
    (h2 : sg kx ky u ≤ sg kx ky n) : ∀ p ∈ L ++ R, 0 ≤ cross u n p := by
  intro p hp
  rcases List.mem_append.1 hp with hp' | hp'
  · exact hP p hp'
  have k1 : 0 ≤ cross u a p := by
    have e := sg_rot3 kx ky a b p u
    have e1 : cross a u b = - cross a b u := cross_neg a b u
    have e2 : cross a p u = cross u a p := cross_rot u a p
    rw [e1, e2] at e
    have t1 := mul_nonneg (le_of_lt (sub_pos.2 (hlt a ha p hp'))) (low u (List.mem_append_left _ hu))
    have t2 := mul_nonpos_of_nonpos_of_nonneg (le_of_lt (sub_neg.2 h1)) (low p hp)
    by_contra hc
    have := mul_neg_of_pos_of_neg (sub_pos.2 (hlt a ha b hb)) (not_le.1 hc)
    linarith
  have e := sg_rot3 kx ky u n a p
  rw [cross_neg u n p] at e
  have t1 := mul_nonneg (sub_nonneg.2 h2) k1
  have t2 := mul_nonneg (le_of_lt (sub_pos.2 (hlt u hu p hp'))) (hP a ha)
  by_contra hc
  have := mul_neg_of_pos_of_neg (sub_pos.2 h1) (not_le.1 hc)
  linarith

theorem sg_lt_mir (hlt : ∀ x ∈ L, ∀ y ∈ R, sg kx ky x < sg kx ky y) :
    ∀ x ∈ R.map mir, ∀ y ∈ L.map mir, sg kx (-ky) x < sg kx (-ky) y := by
  intro x hx y hy
  rw [← mir_mir x, ← mir_mir y, sg_mir, sg_mir]
  have := hlt _ (mem_mir.1 hy) _ (mem_mir.1 hx)
  linarith

theorem keep_right {u n a b : Point K} (hP : ∀ x ∈ R, cross u n x ≤ 0)
    (hlt : ∀ x ∈ L, ∀ y ∈ R, sg kx ky x < sg kx ky y) (hu : u ∈ R) (hn : n ∈ R) (ha : a ∈ L)
    (hb : b ∈ R) (low : ∀ p ∈ L ++ R, 0 ≤ cross a b p) (h1 : sg kx ky b < sg kx ky u)
    (h2 : sg kx ky n ≤ sg kx ky u) : ∀ p ∈ L ++ R, cross u n p ≤ 0 := by
  intro p hp
  have := keep_left (kx := kx) (ky := -ky) (L := R.map mir) (R := L.map mir) (u := mir u) (n := mir n)
    (a := mir b) (b := mir a) (fun x hx => by
      rw [← mir_mir x, cross_mir]; linarith [hP _ (mem_mir.1 hx)]) (sg_lt_mir hlt) (mir_mem hu)
    (mir_mem hn) (mir_mem hb) (mir_mem ha) (fun x hx => by
      rw [← mir_mir x, cross_mir, cross_swap12 a b]
      have hx' : mir x ∈ L ++ R := by
        rcases List.mem_append.1 hx with h | h
        · exact List.mem_append_right _ (mem_mir.1 h)
        · exact List.mem_append_left _ (mem_mir.1 h)
      linarith [low _ hx']) (by rw [sg_mir, sg_mir]; linarith) (by rw [sg_mir, sg_mir]; linarith)
    (mir p) (by
      rcases List.mem_append.1 hp with h | h
      · exact List.mem_append_right _ (mir_mem h)
      · exact List.mem_append_left _ (mir_mem h))
  rw [cross_mir] at this
  linarith

theorem Part.merge {s o : Tri} (h₁ : Part kx ky m D₁ L s) (h₂ : Part kx ky m D₂ R o)
    (hlt : ∀ x ∈ L, ∀ y ∈ R, sg kx ky x < sg kx ky y)
    (inj : ∀ x ∈ L ++ R, ∀ y ∈ L ++ R, sg kx ky x = sg kx ky y → x = y) (fuel : Nat)
    {m' : Mesh K} {t : Tri} (h : mergeTri fuel m s o = .ok (m', t)) :
    ∃ D', Part kx ky m' D' (L ++ R) t ∧ Only m (fun e => D₁ e ∨ D₂ e) m' D' := by
  unfold mergeTri at h
  simp only [exc_bind_ok, exc_pure_ok] at h
  obtain ⟨⟨r, l⟩, hfb, m2, hcl, heq⟩ := h
  simp only [Prod.mk.injEq] at heq
  obtain ⟨rfl, rfl⟩ := heq
  dsimp only at hcl
  have i1 : ∀ x ∈ L, ∀ y ∈ L, sg kx ky x = sg kx ky y → x = y := fun x hx y hy =>
    inj x (List.mem_append_left _ hx) y (List.mem_append_left _ hy)
  have i2 : ∀ x ∈ R, ∀ y ∈ R, sg kx ky x = sg kx ky y → x = y := fun x hx y hy =>
    inj x (List.mem_append_right _ hx) y (List.mem_append_right _ hy)
  have mem1 : ∀ {e}, D₁ e → m.org e ∈ L := fun he => h₁.dt.mem (adj_org he)
  have mem2 : ∀ {e}, D₂ e → m.org e ∈ R := fun he => h₂.dt.mem (adj_org he)
  have fb0 : FB kx ky L R m D₁ D₂ s.rightSide o.leftSide := by
    refine ⟨h₁.dr, h₂.dl, ⟨mem1 h₁.dr, mem1 (h₁.comp.opp h₁.dr), (h₁.comp.ne h₁.dr).symm, h₁.rhull,
      .inl h₁.rmax⟩, ⟨mir_mem (mem2 h₂.dl), mir_mem (mem2 (h₂.comp.opp h₂.dl)),
      fun hh => h₂.comp.ne h₂.dl (mir_inj hh).symm, ?_, .inl ?_⟩⟩
    · intro x hx
      rw [← mir_mir x, cross_mir]
      linarith [h₂.lhull _ (mem_mir.1 hx)]
    · intro x hx
      rw [← mir_mir x, sg_mir, sg_mir]
      linarith [h₂.lmin _ (mem_mir.1 hx)]
  obtain ⟨fb, hr, hl⟩ := FB.loop h₁.comp h₂.comp h₁.dt h₂.dt hlt i1 i2 fuel fb0 hfb
  clear fb0 hfb
  have aL := mem1 fb.dr
  have bR := mem2 fb.dl
  set a := m.org r with ha
  set b := m.org l with hb
  set S : Sep L R := Sep.mk' h₁.rmax h₂.lmin (hlt _ (mem1 h₁.dr) _ (mem2 h₂.dl)) with hS
  have hsS : ∀ p, S.s p = sg kx ky p := fun p => rfl
  have hab := hlt a aL b bR
  have hab' : sg kx (-ky) (mir b) < sg kx (-ky) (mir a) := by rw [sg_mir, sg_mir]; linarith
  have F1 : ∀ x ∈ L, 0 ≤ cross a b x ∧ ¬ Mid a b x := fun x hx => fb.tr.final i1 hab hr hx
  have F2 : ∀ y ∈ R, cross b a y ≤ 0 ∧ ¬ Mid b a y := by
    intro y hy
    have := fb.tl.final (sg_inj_mir i2) hab' (by rw [cross_mir]; linarith) (mir_mem hy)
    rw [cross_mir, mid_mir] at this
    exact ⟨by linarith [this.1], this.2⟩
  have low : ∀ p ∈ L ++ R, 0 ≤ cross a b p := by
    intro p hp
    rcases List.mem_append.1 hp with hp | hp
    · exact (F1 p hp).1
    · rw [cross_swap12 b a]; linarith [(F2 p hp).1]
  have low' : ∀ p ∈ L ++ R, cross b a p ≤ 0 := by
    intro p hp
    rw [cross_swap12 a b]; linarith [low p hp]
  have nom : ∀ p ∈ L ++ R, ¬ Mid b a p := by
    intro p hp
    rcases List.mem_append.1 hp with hp | hp
    · exact fun hm => (F1 p hp).2 (mid_symm hm)
    · exact (F2 p hp).2
  have hdel : Del (L ++ R) a b := (hull_del low' nom).symm
  have disj : ∀ {p}, p ∈ L → p ∈ R → False := fun h1 h2 => S.disj h1 h2
  have hne : a ≠ b := fun hh => disj aL (by rw [hh]; exact bR)
  -- the two parts together
  have hU : Comp m (fun e => D₁ e ∨ D₂ e) := by
    refine h₁.comp.union h₂.comp (fun e f he hf hh => disj (mem1 he) (by rw [hh]; exact mem2 hf)) ?_
    intro e f he hf hX
    exact S.no_XX (mem2 hf) (mem2 (h₂.comp.opp hf)) (mem1 he) (mem1 (h₁.comp.opp he)) hX.symm
  have memU : ∀ {e}, D₁ e ∨ D₂ e → m.org e ∈ L ++ R := by
    rintro e (he | he)
    · exact List.mem_append_left _ (mem1 he)
    · exact List.mem_append_right _ (mem2 he)
  -- directions different from that of the new edge
  have ray1 : ∀ {f}, D₁ f → m.org f = a → cross a b (m.org f.opp) = 0 → ¬ 0 < dot a b (m.org f.opp) := by
    intro f hf ho h0 h1
    have hm := mem1 (h₁.comp.opp hf)
    have := ray_eq h0 h1 (F1 _ hm).2 (fun hh => by
      have := (mid_s S hh).1 (S.lt' aL) (S.lt' hm)
      linarith [S.gt' bR])
    exact disj hm (by rw [this]; exact bR)
  have ray2 : ∀ {f}, D₂ f → m.org f = b → cross b a (m.org f.opp) = 0 → ¬ 0 < dot b a (m.org f.opp) := by
    intro f hf ho h0 h1
    have hm := mem2 (h₂.comp.opp hf)
    have := ray_eq h0 h1 (F2 _ hm).2 (fun hh => by
      have := (mid_s S hh).2 (S.gt' bR) (S.gt' hm)
      linarith [S.lt' aL])
    exact disj aL (by rw [← this]; exact hm)
  have hC : Comp (m.connect l.opp r).1
      (fun x => (D₁ x ∨ D₂ x) ∨ x = ⟨m.size, 0⟩ ∨ x = ⟨m.size, 2⟩) := by
    refine hU.connect (.inr (h₂.comp.opp fb.dl)) (.inl fb.dr) ?_ ?_ ?_ ?_ ?_
    · rw [Ref.opp_opp]; exact hne.symm
    · rw [Ref.opp_opp]
      rintro f (hf | hf) hfo hfs
      · exact disj (mem1 hf) (by rw [hfo]; exact bR)
      · exact disj aL (by rw [ha, ← hfs]; exact mem2 (h₂.comp.opp hf))
    · rw [Ref.opp_opp]
      intro hlne
      have wD := h₂.comp.prev fb.dl
      have wo := h₂.comp.prev_org fb.dl
      have := tang_cyc (o := mir b) (q := mir a) (n := mir (m.org l.opp))
        (p := mir (m.org (m.rfs l).opp)) fb.tl.ne
        (fun hh => h₂.comp.ne wD (by rw [wo]; exact (mir_inj hh).symm)) (fun hh => hne (mir_inj hh))
        (by rw [cross_mir]; linarith [(F2 _ (mem2 (h₂.comp.opp fb.dl))).1])
        (by rw [cross_mir]; linarith [(F2 _ (mem2 (h₂.comp.opp wD))).1])
        (fb.tl.hull _ (mir_mem (mem2 (h₂.comp.opp wD))))
        (by
          rw [cross_mir, dot_mir]
          intro h0 h1
          exact hlne (same_ray h₂.comp h₂.dt fb.dl wD wo (by linarith) h1).symm)
        (by
          rw [cross_mir, dot_mir]
          intro h0 h1
          exact ray2 fb.dl rfl (by linarith) h1)
        (by
          rw [cross_mir, dot_mir]
          intro h0 h1
          exact ray2 wD wo (by linarith) h1)
      rw [cross_mir, cross_mir] at this
      refine .inr (.inr ⟨?_, ?_⟩)
      · rw [cross_neg]; exact this.2
      · rw [cross_neg]; exact this.1
    · rw [Ref.opp_opp]
      intro hrne
      have wD := h₁.comp.next fb.dr
      have wo := h₁.comp.org fb.dr
      have := tang_cyc (o := a) (q := b) (n := m.org r.opp) (p := m.org (m.next r).opp) fb.tr.ne
        (fun hh => h₁.comp.ne wD (by rw [wo]; exact hh.symm)) hne.symm
        (F1 _ (mem1 (h₁.comp.opp fb.dr))).1 (F1 _ (mem1 (h₁.comp.opp wD))).1
        (fb.tr.hull _ (mem1 (h₁.comp.opp wD)))
        (fun h0 h1 => hrne (same_ray h₁.comp h₁.dt fb.dr wD wo h0 h1).symm)
        (ray1 fb.dr rfl) (ray1 wD wo)
      exact .inr (.inl this)
    · rw [Ref.opp_opp]
      intro f hf hX
      have n1 := low' _ (memU hf)
      have n2 := low' _ (memU (hU.opp hf))
      have := mul_nonneg_of_nonpos_of_nonpos n1 n2
      linarith [hX.1]
  have hF0 : Fr (L ++ R) m (fun e => D₁ e ∨ D₂ e) (m.connect l.opp r).1
      (fun x => (D₁ x ∨ D₂ x) ∨ x = ⟨m.size, 0⟩ ∨ x = ⟨m.size, 2⟩) :=
    (Fr.refl m _).connect hU (.inr (h₂.comp.opp fb.dl)) (.inl fb.dr)
  have og : ∀ {x}, D₁ x ∨ D₂ x → (m.connect l.opp r).1.org x = m.org x :=
    fun hx => connect_org_old m _ _ (hU.edge hx).alloc
  have og0 : (m.connect l.opp r).1.org ⟨m.size, 0⟩ = b := by
    rw [connect_org0]; show m.org l.opp.opp = b; rw [Ref.opp_opp]
  have og2 : (m.connect l.opp r).1.org ⟨m.size, 2⟩ = a := connect_org2 m _ _
  have op0 : (⟨m.size, 0⟩ : Ref).opp = ⟨m.size, 2⟩ := rfl
  have op2 : (⟨m.size, 2⟩ : Ref).opp = ⟨m.size, 0⟩ := ref2_opp _
  have hbase : (m.connect l.opp r).2 = ⟨m.size, 0⟩ := rfl
  rw [hbase] at hcl
  generalize (m.connect l.opp r).1 = m1 at hC hF0 og og0 og2 hcl
  have hI : Inv S (Adj m D₁) (Adj m D₂) (fun x y => x = a ∧ y = b) m1
      (fun x => (D₁ x ∨ D₂ x) ∨ x = ⟨m.size, 0⟩ ∨ x = ⟨m.size, 2⟩) ⟨m.size, 0⟩ := by
    refine ⟨hC, .inr (.inl rfl), ?_, ?_, ?_, ?_⟩
    · rw [op0, og0, og2]; exact MS.init S aL bR hdel low
    · rw [op0, og0, og2]; exact fun x y h => .inl h
    · rintro e ((he | he) | rfl | rfl)
      · rw [og (.inl he), og (.inl (h₁.comp.opp he))]; exact .inl (adj_org he)
      · rw [og (.inr he), og (.inr (h₂.comp.opp he))]; exact .inr (.inl (adj_org he))
      · rw [op0, og0, og2]; exact .inr (.inr (.inr ⟨rfl, rfl⟩))
      · rw [op2, og0, og2]; exact .inr (.inr (.inl ⟨rfl, rfl⟩))
    · rintro x y (⟨⟨e, he, rfl, rfl⟩ | ⟨e, he, rfl, rfl⟩, -⟩ | ⟨rfl, rfl⟩ | ⟨rfl, rfl⟩)
      · exact ⟨e, .inl (.inl he), og (.inl he), og (.inl (h₁.comp.opp he))⟩
      · exact ⟨e, .inl (.inr he), og (.inr he), og (.inr (h₂.comp.opp he))⟩
      · exact ⟨_, .inr (.inr rfl), og2, by rw [op2, og0]⟩
      · exact ⟨_, .inr (.inl rfl), og0, by rw [op0, og2]⟩
  obtain ⟨C', D', base', hI', hF', -, top⟩ := connectLoop_inv h₂.dt h₁.dt hC.edge fuel fuel hI
    (Fr.refl m1 _) hcl
  have hdt := hI'.adj h₂.dt h₁.dt top (fun p hp q hq hh => inj p hp q hq hh)
  have b0 : D' ⟨m.size, 0⟩ := hF'.keep (.inr (.inl rfl)) (by rw [op0, og0, og2]; exact hdel.symm)
  have b2 : D' ⟨m.size, 2⟩ := hF'.keep (.inr (.inr rfl)) (by rw [op2, og0, og2]; exact hdel)
  have fo : ∀ {x}, (D₁ x ∨ D₂ x) ∨ x = ⟨m.size, 0⟩ ∨ x = ⟨m.size, 2⟩ → m2.org x = m1.org x :=
    fun hx => hF'.org (hC.edge hx)
  have fu : ∀ {x}, D₁ x ∨ D₂ x → m2.org x = m.org x := fun hx => by rw [fo (.inl hx), og hx]
  refine ⟨D', ?_, ?_⟩
  · -- sides of the result
    have HL : D' (if m1.start r = m1.start s.leftSide then (⟨m.size, 0⟩ : Ref).opp else s.leftSide) ∧
        (∀ p ∈ L ++ R, sg kx ky (m2.org (if m1.start r = m1.start s.leftSide then
          (⟨m.size, 0⟩ : Ref).opp else s.leftSide)) ≤ sg kx ky p) ∧
        (∀ p ∈ L ++ R, 0 ≤ cross (m2.org (if m1.start r = m1.start s.leftSide then
          (⟨m.size, 0⟩ : Ref).opp else s.leftSide)) (m2.org (if m1.start r = m1.start s.leftSide then
          (⟨m.size, 0⟩ : Ref).opp else s.leftSide).opp) p) := by
      have e1 : m1.start r = a := og (.inl fb.dr)
      have e2 : m1.start s.leftSide = m.org s.leftSide := og (.inl h₁.dl)
      rw [e1, e2]
      have lm : ∀ p ∈ L ++ R, sg kx ky (m.org s.leftSide) ≤ sg kx ky p := by
        intro p hp
        rcases List.mem_append.1 hp with hp | hp
        · exact h₁.lmin p hp
        · exact le_of_lt (hlt _ (mem1 h₁.dl) p hp)
      split_ifs with hc
      · rw [op0, op2, fo (.inr (.inl rfl)), fo (.inr (.inr rfl)), og0, og2]
        exact ⟨b2, by rw [hc]; exact lm, low⟩
      · have dlo := h₁.comp.opp h₁.dl
        rw [fu (.inl h₁.dl), fu (.inl dlo)]
        have hk := keep_left h₁.lhull hlt (mem1 h₁.dl) (mem1 dlo) aL bR low
          (lt_of_le_of_ne (h₁.lmin a aL) fun hh => hc (i1 _ (mem1 h₁.dl) _ aL hh).symm)
          (h₁.lmin _ (mem1 dlo))
        refine ⟨hF'.keep (.inl (.inl h₁.dl)) ?_, lm, hk⟩
        rw [og (.inl h₁.dl), og (.inl dlo)]
        refine (hull_del (fun p hp => by rw [cross_swap12]; linarith [hk p hp]) ?_).symm
        intro p hp hm
        rcases List.mem_append.1 hp with hp' | hp'
        · exact (h₁.dt.del (adj_org h₁.dl)).symm.not_mid hp' hm
        · have := (mid_s S hm).1 (S.lt' (mem1 dlo)) (S.lt' (mem1 h₁.dl))
          linarith [S.gt' hp']
    have HR : D' (if m1.start l = m1.start o.rightSide then (⟨m.size, 0⟩ : Ref) else o.rightSide) ∧
        (∀ p ∈ L ++ R, sg kx ky p ≤ sg kx ky (m2.org (if m1.start l = m1.start o.rightSide then
          (⟨m.size, 0⟩ : Ref) else o.rightSide))) ∧
        (∀ p ∈ L ++ R, cross (m2.org (if m1.start l = m1.start o.rightSide then
          (⟨m.size, 0⟩ : Ref) else o.rightSide)) (m2.org (if m1.start l = m1.start o.rightSide then
          (⟨m.size, 0⟩ : Ref) else o.rightSide).opp) p ≤ 0) := by
      have e1 : m1.start l = b := og (.inr fb.dl)
      have e2 : m1.start o.rightSide = m.org o.rightSide := og (.inr h₂.dr)
      rw [e1, e2]
      have lm : ∀ p ∈ L ++ R, sg kx ky p ≤ sg kx ky (m.org o.rightSide) := by
        intro p hp
        rcases List.mem_append.1 hp with hp | hp
        · exact le_of_lt (hlt p hp _ (mem2 h₂.dr))
        · exact h₂.rmax p hp
      split_ifs with hc
      · rw [op0, fo (.inr (.inl rfl)), fo (.inr (.inr rfl)), og0, og2]
        exact ⟨b0, by rw [hc]; exact lm, low'⟩
      · have dro := h₂.comp.opp h₂.dr
        rw [fu (.inr h₂.dr), fu (.inr dro)]
        have hk := keep_right h₂.rhull hlt (mem2 h₂.dr) (mem2 dro) aL bR low
          (lt_of_le_of_ne (h₂.rmax b bR) fun hh => hc (i2 _ bR _ (mem2 h₂.dr) hh))
          (h₂.rmax _ (mem2 dro))
        refine ⟨hF'.keep (.inl (.inr h₂.dr)) ?_, lm, hk⟩
        rw [og (.inr h₂.dr), og (.inr dro)]
        refine hull_del hk ?_
        intro p hp hm
        rcases List.mem_append.1 hp with hp' | hp'
        · have := (mid_s S hm).2 (S.gt' (mem2 h₂.dr)) (S.gt' (mem2 dro))
          linarith [S.lt' hp']
        · exact (h₂.dt.del (adj_org h₂.dr)).not_mid hp' hm
    exact ⟨hI'.comp, hdt, HL.1, HL.2.1, HL.2.2, HR.1, HR.2.1, HR.2.2⟩
  · have s1 := hF0.size
    refine ⟨le_trans s1 hF'.size, ?_, ?_, ?_⟩
    · intro e he
      have he1 : m1.Edge e := ⟨lt_of_lt_of_le he.alloc s1, he.primal⟩
      rw [hF'.org he1, hF0.org he]
    · intro e he
      rcases hF'.sub he with (h1 | rfl | rfl) | h1
      · exact .inl h1
      · exact .inr (le_refl _)
      · exact .inr (le_refl _)
      · exact .inr (le_trans s1 h1)
    · intro e he hn
      have he1 : m1.Edge e := ⟨lt_of_lt_of_le he.alloc s1, he.primal⟩
      rw [hF'.next he1, hF0.next he hn]
      rintro (h1 | rfl | rfl)
      · exact hn h1
      · exact lt_irrefl _ he.alloc
      · exact lt_irrefl _ he.alloc

end
end HG
