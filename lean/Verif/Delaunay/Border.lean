import Verif.Delaunay.HullWalk

/-!
# Triangulated regions bounded by a simple contour
-/

set_option linter.unusedSectionVars false

namespace HG

variable {K : Type} [CommRing K] [LinearOrder K] [IsStrictOrderedRing K]
variable {P : List (Point K)} {m : Mesh K} {D : Ref → Prop} {t : Tri} {B : List Ref}

/-- The darts `D` form a triangulated region whose border is the cycle `B`. -/
structure Bord (P : List (Point K)) (m : Mesh K) (D : Ref → Prop) (B : List Ref) : Prop where
  wf : m.WF
  edge : ∀ {e}, D e → m.Edge e
  opp : ∀ {e}, D e → D e.opp
  next : ∀ {e}, D e → D (m.next e)
  org : ∀ {e}, D e → m.org (m.next e) = m.org e
  ne : ∀ {e}, D e → m.org e ≠ m.org e.opp
  mem : ∀ {e}, D e → m.org e ∈ P
  simple : ∀ {e f}, D e → D f → m.org e = m.org f → m.org e.opp = m.org f.opp → e = f
  nocross : ∀ {e f}, D e → D f → ¬ Crossing (m.org e) (m.org e.opp) (m.org f) (m.org f.opp)
  nomid : ∀ {e p}, D e → p ∈ P → ¬ Inside (m.org e) (m.org e.opp) p
  face : ∀ {e}, D e → e.opp ∈ B ∨ TriFace P m e
  bd : ∀ e ∈ B, D e
  one : ∀ e ∈ B, e.opp ∉ B
  nonempty : B ≠ []
  cyc : List.IsChain (fun a b => m.next a.opp = b) (B ++ B.take 1)
  nodup : (B.map m.org).Nodup

theorem chain_mem {R : Ref → Ref → Prop} {l : List Ref} (h : List.IsChain R l) {l' : List Ref} {x : Ref}
    (e : l = l' ++ [x]) : ∀ a ∈ l', ∃ b ∈ l, R a b := by
  subst e
  induction l' with
  | nil => simp
  | cons z l' ih =>
    intro a ha
    rcases List.mem_cons.1 ha with rfl | ha
    · rcases l' with _ | ⟨y, l'⟩
      · rw [List.cons_append, List.nil_append, List.isChain_pair] at h
        exact ⟨x, by simp, h⟩
      · rw [List.cons_append, List.cons_append, List.isChain_cons_cons] at h
        exact ⟨y, by simp, h.1⟩
    · obtain ⟨b, hb, hr⟩ := ih h.tail a ha
      exact ⟨b, by simp only [List.cons_append, List.mem_cons]; exact .inr hb, hr⟩

namespace Bord

theorem rfe (h : Bord P m D B) {e : Ref} (he : e ∈ B) : m.next e.opp ∈ B := by
  rcases B with _ | ⟨s, l⟩
  · simp at he
  obtain ⟨b, hb, rfl⟩ := chain_mem h.cyc (l' := s :: l) (x := s) (by simp) e he
  have : m.next e.opp = s ∨ m.next e.opp ∈ l ∨ m.next e.opp = s := by simpa using hb
  rw [List.mem_cons]; tauto

theorem inj (h : Bord P m D B) {e f : Ref} (he : e ∈ B) (hf : f ∈ B) (ho : m.org e = m.org f) : e = f :=
  List.inj_on_of_nodup_map h.nodup he hf ho

theorem next_inj (h : Bord P m D B) {e f : Ref} (he : D e) (hf : D f) (hn : m.next e = m.next f) :
    e = f := h.wf.inj (h.edge he).alloc (h.edge hf).alloc hn

theorem lf_out (h : Bord P m D B) {e : Ref} (he : e.opp ∈ B) : (m.lf e).opp ∈ B := by
  have := h.rfe he
  rw [Ref.opp_opp] at this
  show (m.next e).opp.opp ∈ B
  rw [Ref.opp_opp]; exact this

end Bord

/-- A border dart whose triangle can be removed. -/
structure Mouth (P : List (Point K)) (m : Mesh K) (D : Ref → Prop) (B : List Ref) (e : Ref) : Prop where
  mem : e ∈ B
  new : ∀ f ∈ B, m.org f ≠ m.org (m.next e).opp

section
variable {e : Ref}

theorem Bord.triFace (h : Bord P m D B) (he : e ∈ B) : TriFace P m e :=
  (h.face (h.bd e he)).resolve_left (h.one e he)

/-- The border after the removal of a mouth. -/
def mouthBorder (m : Mesh K) (B : List Ref) (e : Ref) : List Ref :=
  B.flatMap fun f => if f = e then [m.next e, m.next (m.next e).opp] else [f]

theorem mouthBorder_append (m : Mesh K) (l l' : List Ref) (e : Ref) :
    mouthBorder m (l ++ l') e = mouthBorder m l e ++ mouthBorder m l' e := by
  simp [mouthBorder]

theorem mouthBorder_cons (m : Mesh K) (l : List Ref) (e : Ref) :
    mouthBorder m (e :: l) e = m.next e :: m.next (m.next e).opp :: mouthBorder m l e := by
  simp [mouthBorder]

theorem mouthBorder_notMem (m : Mesh K) {l : List Ref} {e : Ref} (h : e ∉ l) : mouthBorder m l e = l := by
  induction l with
  | nil => rfl
  | cons a l ih =>
    rw [List.mem_cons, not_or] at h
    have := ih h.2
    unfold mouthBorder at this ⊢
    rw [List.flatMap_cons, this, if_neg (Ne.symm h.1)]; rfl

theorem Bord.split (h : Bord P m D B) (he : e ∈ B) :
    ∃ l₁ l₂, B = l₁ ++ e :: l₂ ∧ e ∉ l₁ ∧ e ∉ l₂ := by
  have hn : B.Nodup := List.Nodup.of_map _ h.nodup
  obtain ⟨l₁, l₂, rfl⟩ := List.append_of_mem he
  have := List.nodup_append.1 hn
  refine ⟨l₁, l₂, rfl, fun h1 => ?_, (List.nodup_cons.1 this.2.1).1⟩
  exact this.2.2 e h1 e (by simp) rfl

theorem mem_mouthBorder {f : Ref} (he : e ∈ B) :
    f ∈ mouthBorder m B e ↔ (f ∈ B ∧ f ≠ e) ∨ f = m.next e ∨ f = m.next (m.next e).opp := by
  unfold mouthBorder
  rw [List.mem_flatMap]
  constructor
  · rintro ⟨g, hg, hf⟩
    split_ifs at hf with hge
    · right; simpa using hf
    · left
      rw [List.mem_singleton] at hf
      subst hf; exact ⟨hg, hge⟩
  · rintro (⟨hf, hne⟩ | hf)
    · exact ⟨f, hf, by rw [if_neg hne]; simp⟩
    · exact ⟨e, he, by rw [if_pos rfl]; simpa using hf⟩

theorem chain_map {R R' : Ref → Ref → Prop} {x : Ref} {l : List Ref} {z : Ref}
    (hR : ∀ a b, R a b → a ≠ e → a ∈ l → R' a (if b = e then x else b)) (hl : e ∉ l)
    (h : List.IsChain R (l ++ [z])) : List.IsChain R' (l ++ [if z = e then x else z]) := by
  induction l with
  | nil => simp
  | cons a l ih =>
    rw [List.mem_cons, not_or] at hl
    have ih' := ih (fun a b h1 h2 h3 => hR a b h1 h2 (by simp [h3])) hl.2 h.tail
    rcases l with _ | ⟨y, l⟩
    · rw [List.cons_append, List.nil_append, List.isChain_pair] at h ⊢
      exact hR a z h (Ne.symm hl.1) (by simp)
    · rw [List.cons_append, List.cons_append, List.isChain_cons_cons] at h ⊢
      refine ⟨?_, ih'⟩
      have := hR a y h.1 (Ne.symm hl.1) (by simp)
      rwa [if_neg] at this
      rintro rfl
      exact hl.2 (by simp)

theorem Bord.delete (h : Bord P m D B) (hm : Mouth P m D B e) :
    Bord P (m.delete e) (fun x => D x ∧ x ≠ e ∧ x ≠ e.opp) (mouthBorder m B e) := by
  have he := hm.mem
  have De := h.bd e he
  have ho := h.opp De
  have T := h.triFace he
  obtain ⟨x, hx⟩ : ∃ x, x = m.next e := ⟨_, rfl⟩
  obtain ⟨y, hy⟩ : ∃ y, y = m.next x.opp := ⟨_, rfl⟩
  have Dx : D x := hx ▸ h.next De
  have Dxo := h.opp Dx
  have Dy : D y := hy ▸ h.next Dxo
  have Dyo := h.opp Dy
  have ox : m.org x = m.org e := by rw [hx, h.org De]
  have oy : m.org y = m.org x.opp := by rw [hy, h.org Dxo]
  have l1 : m.lf e = x.opp := by rw [hx]; rfl
  have l2 : m.lf x.opp = y.opp := by rw [hy]; rfl
  have l3 : m.lf y.opp = e := by rw [← l2, ← l1]; exact T.three
  have ny : m.next y.opp = e.opp := by
    have := congrArg Ref.opp l3
    unfold Mesh.lf at this
    rwa [Ref.opp_opp] at this
  have oyo : m.org y.opp = m.org e.opp := by rw [← ny, h.org Dyo]
  have pos := T.pos
  have new := hm.new
  rw [← hx] at pos new
  have nab := h.ne De
  have nbc : m.org e.opp ≠ m.org x.opp := by intro hh; rw [hh] at pos; simp at pos
  have nac : m.org e ≠ m.org x.opp := by intro hh; rw [hh] at pos; simp at pos
  have n1 : m.next e ≠ e.opp := by
    intro hh; rw [← hx] at hh; exact nab (by rw [← ox, hh])
  have n2 : m.next e.opp ≠ e := by
    intro hh
    have := h.org ho
    rw [hh] at this; exact nab this
  have nx : ∀ {z}, D z → z ≠ e → z ≠ e.opp → (m.delete e).next z = if m.next z = e then x
      else if m.next z = e.opp then m.next e.opp else m.next z := by
    intro z hz h1 h2
    rw [delete_next h.wf (h.edge De) n1 n2 (h.edge hz), if_neg (by tauto), ← hx]
  have oppinj : ∀ {u v : Ref}, u.opp = v.opp → u = v := by
    intro u v hh
    have := congrArg Ref.opp hh
    rwa [Ref.opp_opp, Ref.opp_opp] at this
  have xe : x ≠ e := by rintro rfl; exact nbc rfl
  have xeo : x ≠ e.opp := by rw [hx]; exact n1
  have ye : y ≠ e := by intro hh; rw [hh] at oy; exact nac oy
  have yeo : y ≠ e.opp := by intro hh; rw [hh] at oy; exact nbc oy
  have mB : ∀ {f}, f ∈ mouthBorder m B e ↔ (f ∈ B ∧ f ≠ e) ∨ f = x ∨ f = y := by
    intro f; rw [mem_mouthBorder he, hy, hx]
  have yB : y.opp ∉ B := by
    intro hh
    have := h.rfe hh
    rw [Ref.opp_opp] at this
    exact new _ this (by rw [h.org Dy, oy])
  have xB : x.opp ∉ B := fun hh => new _ hh rfl
  obtain ⟨k₁, k₂, hB, e1, e2⟩ := h.split he
  have hB' : mouthBorder m B e = k₁ ++ x :: y :: k₂ := by
    rw [hB, mouthBorder_append, mouthBorder_cons, mouthBorder_notMem m e1, mouthBorder_notMem m e2,
      ← hx, ← hy]
  refine ⟨h.wf.delete (h.edge De).alloc, fun hz => ⟨(h.edge hz.1).alloc, (h.edge hz.1).primal⟩,
    ?_, ?_, ?_, fun hz => h.ne hz.1, fun hz => h.mem hz.1, fun hz hf => h.simple hz.1 hf.1,
    fun hz hf => h.nocross hz.1 hf.1, fun hz hp => h.nomid hz.1 hp, ?_, ?_, ?_, ?_, ?_, ?_⟩
  · rintro z ⟨hz, h1, h2⟩
    exact ⟨h.opp hz, fun hh => h2 (by rw [← hh, Ref.opp_opp]), fun hh => h1 (oppinj hh)⟩
  · rintro z ⟨hz, h1, h2⟩
    rw [nx hz h1 h2]
    split_ifs with c1 c2
    · exact ⟨Dx, xe, xeo⟩
    · exact ⟨h.next ho, n2, fun hh => h2 (h.next_inj hz ho (by rw [c2, hh]))⟩
    · exact ⟨h.next hz, c1, c2⟩
  · rintro z ⟨hz, h1, h2⟩
    rw [nx hz h1 h2, delete_org]
    split_ifs with c1 c2
    · rw [ox, ← c1, h.org hz]
    · rw [h.org ho, ← c2, h.org hz]
    · exact h.org hz
  · rintro f ⟨hf, f1, f2⟩
    rw [mB]
    by_cases c0 : f.opp ∈ B
    · exact .inl (.inl ⟨c0, fun hh => f2 (by rw [← hh, Ref.opp_opp])⟩)
    by_cases c1 : f = x.opp
    · exact .inl (.inr (.inl (by rw [c1, Ref.opp_opp])))
    by_cases c2 : f = y.opp
    · exact .inl (.inr (.inr (by rw [c2, Ref.opp_opp])))
    right
    have Tf := (h.face hf).resolve_left c0
    have dl : ∀ {z}, D z → D (m.lf z) := fun hz => h.opp (h.next hz)
    have eB : e.opp.opp ∈ B := by rw [Ref.opp_opp]; exact he
    have a1 : m.lf f ≠ e := by
      intro hh; apply c2; rw [← Tf.three, hh, l1, l2]
    have a2 : m.lf (m.lf f) ≠ e := by
      intro hh; apply c1; rw [← Tf.three, hh, l1]
    have b1 : m.lf f ≠ e.opp := by
      intro hh; apply c0; rw [← Tf.three, hh]; exact h.lf_out (h.lf_out eB)
    have b2 : m.lf (m.lf f) ≠ e.opp := by
      intro hh; apply c0; rw [← Tf.three, hh]; exact h.lf_out eB
    have same : ∀ {z}, D z → z ≠ e → z ≠ e.opp → m.lf z ≠ e → m.lf z ≠ e.opp →
        (m.delete e).next z = m.next z := by
      intro z hz z1 z2 z3 z4
      rw [nx hz z1 z2, if_neg, if_neg]
      · intro hh; apply z3; unfold Mesh.lf; rw [hh, Ref.opp_opp]
      · intro hh; apply z4; unfold Mesh.lf; rw [hh]
    have s0 := same hf f1 f2 a1 b1
    have s1 := same (dl hf) a1 b1 a2 b2
    have s2 := same (dl (dl hf)) a2 b2 (by rw [Tf.three]; exact f1) (by rw [Tf.three]; exact f2)
    have t0 : (m.delete e).lf f = m.lf f := by unfold Mesh.lf; rw [s0]
    have t1 : (m.delete e).lf (m.lf f) = m.lf (m.lf f) := by
      show ((m.delete e).next (m.lf f)).opp = _; rw [s1]; rfl
    have t2 : (m.delete e).lf (m.lf (m.lf f)) = m.lf (m.lf (m.lf f)) := by
      show ((m.delete e).next (m.lf (m.lf f))).opp = _; rw [s2]; rfl
    refine ⟨?_, ?_, ?_⟩
    · rw [t0, t1, t2]; exact Tf.three
    · rw [s0]; exact Tf.pos
    · rw [s0]; exact Tf.empty
  · intro f hf
    rcases mB.1 hf with ⟨hf, hne⟩ | rfl | rfl
    · exact ⟨h.bd f hf, hne, fun hh => h.one e he (hh ▸ hf)⟩
    · exact ⟨Dx, xe, xeo⟩
    · exact ⟨Dy, ye, yeo⟩
  · intro f hf hfo
    rcases mB.1 hf with ⟨hf, hne⟩ | hf | hf <;> rcases mB.1 hfo with ⟨hfo, hneo⟩ | hfo | hfo
    · exact h.one f hf hfo
    · apply xB; rw [← hfo, Ref.opp_opp]; exact hf
    · apply yB; rw [← hfo, Ref.opp_opp]; exact hf
    · rw [hf] at hfo; exact xB hfo
    · rw [hf] at hfo; exact Ref.opp_ne _ hfo
    · rw [hf] at hfo
      have := oyo
      rw [← hfo, Ref.opp_opp, ox] at this
      exact nab this
    · rw [hf] at hfo; exact yB hfo
    · rw [hf] at hfo; rw [hfo, ox] at oyo; exact nab oyo
    · rw [hf] at hfo; exact Ref.opp_ne _ hfo
  · rw [hB']; simp
  · have yo1 : y.opp ≠ e := by intro hh; rw [hh] at oyo; exact nab oyo
    have yo2 : y.opp ≠ e.opp := fun hh => ye (oppinj hh)
    have xo1 : x.opp ≠ e := by intro hh; rw [hh] at nac; exact nac rfl
    have xo2 : x.opp ≠ e.opp := fun hh => xe (oppinj hh)
    have step : ∀ a b, m.next a.opp = b → a ≠ e → a ∈ B →
        (m.delete e).next a.opp = if b = e then x else b := by
      intro a b hab hae haB
      rw [nx (h.opp (h.bd a haB)) (fun hh => h.one a haB (hh ▸ he)) (fun hh => hae (oppinj hh)), hab]
      split_ifs with c1 c2
      · rfl
      · exact absurd (c2 ▸ hab ▸ h.rfe haB) (h.one e he)
      · rfl
    obtain ⟨z, hz, hz'⟩ : ∃ z, B.take 1 = [z] ∧
        (mouthBorder m B e).take 1 = [if z = e then x else z] := by
      rw [hB', hB]
      rcases k₁ with _ | ⟨s, k₁⟩
      · exact ⟨e, by simp, by simp⟩
      · refine ⟨s, by simp, ?_⟩
        rw [if_neg (by rintro rfl; exact e1 (by simp))]; simp
    have hc := h.cyc
    rw [hz, hB, List.append_assoc, List.cons_append, List.isChain_split] at hc
    obtain ⟨hc1, hc2⟩ := hc
    rw [hz', hB', List.append_assoc, List.cons_append, List.cons_append, List.isChain_split]
    refine ⟨?_, ?_⟩
    · have := chain_map (e := e) (x := x) (R' := fun a b => (m.delete e).next a.opp = b)
        (fun a b h1 h2 h3 => step a b h1 h2 (by rw [hB]; simp [h3])) e1 hc1
      rwa [if_pos rfl] at this
    · rw [List.isChain_cons_cons]
      refine ⟨?_, ?_⟩
      · rw [nx Dxo xo1 xo2, ← hy, if_neg ye, if_neg yeo]
      · have hc3 := chain_map (e := e) (x := x) (R' := fun a b => (m.delete e).next a.opp = b)
          (fun a b h1 h2 h3 => step a b h1 h2 (by rw [hB]; simp [h3])) e2 hc2.tail
        rw [List.isChain_cons] at hc2 ⊢
        refine ⟨?_, hc3⟩
        intro w hw
        have : w = m.next e.opp := by
          rcases k₂ with _ | ⟨s, k₂⟩
          · have := hc2.1 z (by simp)
            rw [if_neg (by rintro rfl; exact n2 this)] at hw
            simp at hw
            rw [← hw]; exact this.symm
          · have := hc2.1 s (by simp)
            simp at hw
            rw [← hw]; exact this.symm
        rw [this, nx Dyo yo1 yo2, if_neg (by rw [ny]; exact Ref.opp_ne _), if_pos ny]
  · have hp : (mouthBorder m B e).Perm (y :: (k₁ ++ x :: k₂)) := by
      rw [hB']
      have : k₁ ++ x :: y :: k₂ = (k₁ ++ [x]) ++ y :: k₂ := by simp
      rw [this]
      refine List.perm_middle.trans ?_
      simp
    have hp' := (hp.map m.org).nodup_iff
    show ((mouthBorder m B e).map m.org).Nodup
    rw [hp', List.map_cons]
    have eq : (k₁ ++ x :: k₂).map m.org = B.map m.org := by
      rw [hB, List.map_append, List.map_append, List.map_cons, List.map_cons, ox]
    rw [eq, List.nodup_cons]
    refine ⟨?_, h.nodup⟩
    intro hh
    obtain ⟨f, hf, hfo⟩ := List.mem_map.1 hh
    exact new f hf (by rw [hfo, oy])

end

end HG
