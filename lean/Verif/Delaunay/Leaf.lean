import Verif.Delaunay.Part

/-!
# Triangulations of two and three points
-/

set_option linter.unusedSectionVars false

namespace HG

variable {K : Type} [Field K] [LinearOrder K] [IsStrictOrderedRing K]
variable {P : List (Point K)} {m : Mesh K} {A : Point K → Point K → Prop}

theorem dt_tri {a b c : Point K} (hP : ∀ x, x ∈ P ↔ x = a ∨ x = b ∨ x = c) (h : 0 < cross a b c)
    (hA : ∀ x y, A x y ↔ x ∈ P ∧ y ∈ P ∧ x ≠ y) : DT P A := by
  obtain ⟨f, fa, fb, fc, -⟩ := circ_through h
  have nab : a ≠ b := by rintro rfl; simp at h
  have nbc : b ≠ c := by rintro rfl; simp at h
  have nca : c ≠ a := by rintro rfl; simp at h
  have ha : a ∈ P := (hP a).2 (.inl rfl)
  have hb : b ∈ P := (hP b).2 (.inr (.inl rfl))
  have hc : c ∈ P := (hP c).2 (.inr (.inr rfl))
  have ev : ∀ x ∈ P, f.ev x = 0 := by
    intro x hx
    rcases (hP x).1 hx with rfl | rfl | rfl <;> assumption
  have emp : f.Empty P := fun x hx => by rw [ev x hx]
  have h1 : 0 < cross b c a := by rw [cross_rot]; exact h
  have h2 : 0 < cross c a b := by rw [cross_rot']; exact h
  refine ⟨?_, ?_, ?_, ?_, ?_, ?_, ?_⟩
  · intro x y hxy
    rw [hA] at hxy ⊢
    exact ⟨hxy.2.1, hxy.1, hxy.2.2.symm⟩
  · intro x y hxy; exact ((hA x y).1 hxy).1
  · intro x y hxy; exact ((hA x y).1 hxy).2.2
  · intro x y hxy
    obtain ⟨hx, hy, -⟩ := (hA x y).1 hxy
    exact ⟨f, emp, ev x hx, ev y hy⟩
  · intro x y hxy
    obtain ⟨hx, hy, hne⟩ := (hA x y).1 hxy
    have tri : ∀ {x y z}, x ∈ P → y ∈ P → z ∈ P → 0 < cross x y z →
        ∃ c, A x c ∧ A y c ∧ DTri P x y c := by
      intro x y z hx hy hz h0
      refine ⟨z, (hA _ _).2 ⟨hx, hz, ?_⟩, (hA _ _).2 ⟨hy, hz, ?_⟩, h0, f, emp, ev x hx, ev y hy, ev z hz⟩
      · rintro rfl; simp at h0
      · rintro rfl; simp at h0
    have neg : ∀ {x y z}, 0 < cross x y z → (∀ w, w ∈ P → w = x ∨ w = y ∨ w = z) →
        ∀ p ∈ P, cross y x p ≤ 0 := by
      intro x y z h0 hw p hp
      rcases hw p hp with rfl | rfl | rfl
      · simp
      · simp
      · rw [cross_swap12]; linarith
    rcases (hP x).1 hx with rfl | rfl | rfl <;> rcases (hP y).1 hy with rfl | rfl | rfl
    · exact absurd rfl hne
    · exact .inr (tri ha hb hc h)
    · exact .inl (neg h2 (fun w hw => by have := (hP w).1 hw; tauto))
    · exact .inl (neg h (fun w hw => (hP w).1 hw))
    · exact absurd rfl hne
    · exact .inr (tri hb hc ha h1)
    · exact .inr (tri hc ha hb h2)
    · exact .inl (neg h1 (fun w hw => by have := (hP w).1 hw; tauto))
    · exact absurd rfl hne
  · intro x hx
    rcases (hP x).1 hx with rfl | rfl | rfl
    · exact ⟨b, (hA _ _).2 ⟨ha, hb, nab⟩⟩
    · exact ⟨c, (hA _ _).2 ⟨hb, hc, nbc⟩⟩
    · exact ⟨a, (hA _ _).2 ⟨hc, ha, nca⟩⟩
  · intro hcol
    have := hcol a ha b hb c hc
    linarith

variable {kx ky : K}

theorem sg_dot_pos {x p c : Point K} (h0 : cross x p c = 0)
    (h : 0 < (sg kx ky p - sg kx ky x) * (sg kx ky c - sg kx ky x)) : 0 < dot x p c := by
  have hc : c ≠ x := by rintro rfl; simp at h
  have e := sg_line kx ky x p c
  rw [h0, zero_mul, sub_zero] at e
  have d := dot_self_pos hc
  have h2 := mul_pos d h
  have : dot x p c * (sg kx ky c - sg kx ky x) * (sg kx ky c - sg kx ky x) =
      dot x c c * ((sg kx ky p - sg kx ky x) * (sg kx ky c - sg kx ky x)) := by rw [e]; ring
  by_contra hcon
  have h3 := mul_nonneg_of_nonpos_of_nonpos (show dot x p c ≤ 0 from not_lt.1 hcon)
    (show -((sg kx ky c - sg kx ky x) * (sg kx ky c - sg kx ky x)) ≤ 0 by
      linarith [mul_self_nonneg (sg kx ky c - sg kx ky x)])
  linarith

/-- A point of an open segment lies between the ends under `sg`. -/
theorem sg_mid {a b p : Point K} (h : Mid a b p) (hab : sg kx ky a < sg kx ky b) :
    sg kx ky a < sg kx ky p ∧ sg kx ky p < sg kx ky b := by
  have key : ∀ {kx ky : K} {a b : Point K}, Mid a b p → sg kx ky a < sg kx ky b →
      sg kx ky a < sg kx ky p := by
    intro kx ky a b h hab
    have e := sg_line kx ky a p b
    have h0 : cross a p b = 0 := by rw [cross_neg, h.1, neg_zero]
    have hba : b ≠ a := by rintro rfl; exact lt_irrefl _ hab
    rw [h0, zero_mul, sub_zero, dot_comm] at e
    have t := mul_pos (mid_dot h) (sub_pos.2 hab)
    by_contra hc
    have := mul_nonpos_of_nonneg_of_nonpos (le_of_lt (dot_self_pos hba)) (sub_nonpos.2 (not_lt.1 hc))
    linarith
  refine ⟨key h hab, ?_⟩
  have neg : ∀ p, sg (-kx) (-ky) p = - sg kx ky p := fun p => by unfold sg; ring
  have := key (kx := -kx) (ky := -ky) (mid_symm h) (by rw [neg, neg]; linarith)
  rw [neg, neg] at this
  linarith

theorem dt_col {a b c : Point K} (hP : ∀ x, x ∈ P ↔ x = a ∨ x = b ∨ x = c) (h : cross a b c = 0)
    (h1 : sg kx ky a < sg kx ky b) (h2 : sg kx ky b < sg kx ky c)
    (hA : ∀ x y, A x y ↔ (x = a ∧ y = b) ∨ (x = b ∧ y = a) ∨ (x = b ∧ y = c) ∨ (x = c ∧ y = b)) :
    DT P A := by
  have nab : a ≠ b := by rintro rfl; exact lt_irrefl _ h1
  have nbc : b ≠ c := by rintro rfl; exact lt_irrefl _ h2
  have ha : a ∈ P := (hP a).2 (.inl rfl)
  have hb : b ∈ P := (hP b).2 (.inr (.inl rfl))
  have hc : c ∈ P := (hP c).2 (.inr (.inr rfl))
  have col : ∀ x ∈ P, cross a b x = 0 := by
    intro x hx
    rcases (hP x).1 hx with rfl | rfl | rfl
    · simp
    · simp
    · exact h
  have col' : ∀ {x y z}, x ∈ P → y ∈ P → z ∈ P → cross x y z = 0 :=
    fun hx hy hz => col3 nab.symm (col _ hx) (col _ hy) (col _ hz)
  have dab : Del P a b := by
    refine hull_del (fun p hp => le_of_eq (col p hp)) ?_
    intro p hp hm
    have := sg_mid hm h1
    rcases (hP p).1 hp with rfl | rfl | rfl <;> linarith [this.1, this.2]
  have dbc : Del P b c := by
    refine hull_del (fun p hp => le_of_eq (col' hb hc hp)) ?_
    intro p hp hm
    have := sg_mid hm h2
    rcases (hP p).1 hp with rfl | rfl | rfl <;> linarith [this.1, this.2]
  have mm : ∀ {x y}, A x y → x ∈ P ∧ y ∈ P := by
    intro x y hxy
    rcases (hA x y).1 hxy with ⟨rfl, rfl⟩ | ⟨rfl, rfl⟩ | ⟨rfl, rfl⟩ | ⟨rfl, rfl⟩
    exacts [⟨ha, hb⟩, ⟨hb, ha⟩, ⟨hb, hc⟩, ⟨hc, hb⟩]
  refine ⟨?_, fun h => (mm h).1, ?_, ?_, ?_, ?_, ?_⟩
  · intro x y hxy
    rw [hA] at hxy ⊢
    tauto
  · intro x y hxy
    rcases (hA x y).1 hxy with ⟨rfl, rfl⟩ | ⟨rfl, rfl⟩ | ⟨rfl, rfl⟩ | ⟨rfl, rfl⟩
    exacts [nab, nab.symm, nbc, nbc.symm]
  · intro x y hxy
    rcases (hA x y).1 hxy with ⟨rfl, rfl⟩ | ⟨rfl, rfl⟩ | ⟨rfl, rfl⟩ | ⟨rfl, rfl⟩
    exacts [dab, dab.symm, dbc, dbc.symm]
  · intro x y hxy
    exact .inl fun p hp => le_of_eq (col' (mm hxy).1 (mm hxy).2 hp)
  · intro x hx
    rcases (hP x).1 hx with rfl | rfl | rfl
    · exact ⟨b, (hA _ _).2 (by tauto)⟩
    · exact ⟨a, (hA _ _).2 (by tauto)⟩
    · exact ⟨b, (hA _ _).2 (by tauto)⟩
  · intro _ x p hx hp hne
    rcases (hP x).1 hx with rfl | rfl | rfl
    · refine ⟨b, (hA _ _).2 (by tauto), sg_dot_pos (kx := kx) (ky := ky) (col' hx hp hb) ?_⟩
      rcases (hP p).1 hp with rfl | rfl | rfl
      · exact absurd rfl hne
      · exact mul_pos (by linarith) (by linarith)
      · exact mul_pos (by linarith) (by linarith)
    · rcases (hP p).1 hp with rfl | rfl | rfl
      · refine ⟨p, (hA _ _).2 (by tauto), sg_dot_pos (kx := kx) (ky := ky) (col' hx hp hp) ?_⟩
        exact mul_pos_of_neg_of_neg (by linarith) (by linarith)
      · exact absurd rfl hne
      · refine ⟨p, (hA _ _).2 (by tauto), sg_dot_pos (kx := kx) (ky := ky) (col' hx hp hp) ?_⟩
        exact mul_pos (by linarith) (by linarith)
    · refine ⟨b, (hA _ _).2 (by tauto), sg_dot_pos (kx := kx) (ky := ky) (col' hx hp hb) ?_⟩
      rcases (hP p).1 hp with rfl | rfl | rfl
      · exact mul_pos_of_neg_of_neg (by linarith) (by linarith)
      · exact mul_pos_of_neg_of_neg (by linarith) (by linarith)
      · exact absurd rfl hne

theorem dt_pair {a b : Point K} (hP : ∀ x, x ∈ P ↔ x = a ∨ x = b) (nab : a ≠ b)
    (hA : ∀ x y, A x y ↔ (x = a ∧ y = b) ∨ (x = b ∧ y = a)) : DT P A := by
  have ha : a ∈ P := (hP a).2 (.inl rfl)
  have hb : b ∈ P := (hP b).2 (.inr rfl)
  have col : ∀ x ∈ P, cross a b x = 0 := by
    intro x hx
    rcases (hP x).1 hx with rfl | rfl <;> simp
  have dab : Del P a b := by
    refine hull_del (fun p hp => le_of_eq (col p hp)) ?_
    intro p hp hm
    have := mid_dot hm
    have h2 := mid_dot (mid_symm hm)
    rcases (hP p).1 hp with rfl | rfl
    · unfold dot at this; simp at this
    · unfold dot at h2; simp at h2
  have mm : ∀ {x y}, A x y → x ∈ P ∧ y ∈ P := by
    intro x y hxy
    rcases (hA x y).1 hxy with ⟨rfl, rfl⟩ | ⟨rfl, rfl⟩
    exacts [⟨ha, hb⟩, ⟨hb, ha⟩]
  refine ⟨?_, fun h => (mm h).1, ?_, ?_, ?_, ?_, ?_⟩
  · intro x y hxy
    rw [hA] at hxy ⊢
    tauto
  · intro x y hxy
    rcases (hA x y).1 hxy with ⟨rfl, rfl⟩ | ⟨rfl, rfl⟩
    exacts [nab, nab.symm]
  · intro x y hxy
    rcases (hA x y).1 hxy with ⟨rfl, rfl⟩ | ⟨rfl, rfl⟩
    exacts [dab, dab.symm]
  · intro x y hxy
    refine .inl fun p hp => le_of_eq ?_
    exact col3 nab.symm (col _ (mm hxy).1) (col _ (mm hxy).2) (col _ hp)
  · intro x hx
    rcases (hP x).1 hx with rfl | rfl
    · exact ⟨b, (hA _ _).2 (by tauto)⟩
    · exact ⟨a, (hA _ _).2 (by tauto)⟩
  · intro _ x p hx hp hne
    rcases (hP x).1 hx with rfl | rfl <;> rcases (hP p).1 hp with rfl | rfl
    · exact absurd rfl hne
    · exact ⟨p, (hA _ _).2 (by tauto), dot_self_pos hne⟩
    · exact ⟨p, (hA _ _).2 (by tauto), dot_self_pos hne⟩
    · exact absurd rfl hne

theorem XX_share {a b c d : Point K} (h : XX a b c d) : a ≠ c ∧ a ≠ d ∧ b ≠ c ∧ b ≠ d := by
  refine ⟨?_, ?_, ?_, ?_⟩ <;> rintro rfl <;> have := h.1 <;> simp at this

/-- The two darts of a new edge. -/
def New1 (n : Nat) (x : Ref) : Prop := x = ⟨n, 0⟩ ∨ x = ⟨n, 2⟩

theorem from_next0 (m : Mesh K) (a b : Point K) :
    (m.fromEndpoints a b).1.next ⟨m.size, 0⟩ = ⟨m.size, 0⟩ := by
  rw [fromEndpoints_next_new _ _ _ _ rfl, if_pos (show (⟨m.size, 0⟩ : Ref).primal = true from rfl)]

theorem from_next2 (m : Mesh K) (a b : Point K) :
    (m.fromEndpoints a b).1.next ⟨m.size, 2⟩ = ⟨m.size, 2⟩ := by
  rw [fromEndpoints_next_new _ _ _ _ rfl, if_pos (ref2_primal _)]

theorem from_org0 (m : Mesh K) (a b : Point K) : (m.fromEndpoints a b).1.org ⟨m.size, 0⟩ = a := by
  simp [Mesh.fromEndpoints]

theorem from_org2 (m : Mesh K) (a b : Point K) : (m.fromEndpoints a b).1.org ⟨m.size, 2⟩ = b := by
  simp [Mesh.fromEndpoints]

theorem from_org_old (m : Mesh K) (a b : Point K) {x : Ref} (hx : x.q < m.size) :
    (m.fromEndpoints a b).1.org x = m.org x := by
  show (if x = ⟨m.size, 0⟩ then _ else if x = ⟨m.size, 2⟩ then _ else m.org x) = _
  rw [if_neg (by rintro rfl; exact lt_irrefl _ hx), if_neg (by rintro rfl; exact lt_irrefl _ hx)]

theorem op0 (n : Nat) : (⟨n, 0⟩ : Ref).opp = ⟨n, 2⟩ := rfl

theorem comp_two (w : m.WF) {a b : Point K} (hab : a ≠ b) :
    Comp (m.fromEndpoints a b).1 (New1 m.size) := by
  have o0 := from_org0 m a b
  have o2 := from_org2 m a b
  have n0 := from_next0 m a b
  have n2 := from_next2 m a b
  refine ⟨w.fromEndpoints a b, ?_, ?_, ?_, ?_, ?_, ?_, ?_, ?_⟩
  · rintro e (rfl | rfl)
    · exact ⟨by simp, rfl⟩
    · exact ⟨by simp, ref2_primal _⟩
  · rintro e (rfl | rfl)
    · exact .inr rfl
    · exact .inl (ref2_opp _)
  · rintro e (rfl | rfl)
    · rw [n0]; exact .inl rfl
    · rw [n2]; exact .inr rfl
  · rintro e (rfl | rfl)
    · rw [n0]
    · rw [n2]
  · rintro e (rfl | rfl)
    · rw [op0, o0, o2]; exact hab
    · rw [ref2_opp, o0, o2]; exact hab.symm
  · rintro e f (rfl | rfl) (rfl | rfl) ho -
    · rfl
    · rw [o0, o2] at ho; exact absurd ho hab
    · rw [o0, o2] at ho; exact absurd ho.symm hab
    · rfl
  · rintro e f (rfl | rfl) (rfl | rfl) ho h1 h2
    · exact absurd rfl h1
    · rw [o0, o2] at ho; exact absurd ho.symm hab
    · rw [o0, o2] at ho; exact absurd ho hab
    · exact absurd rfl h1
  · rintro e f (rfl | rfl) (rfl | rfl) hX <;> have := XX_share hX <;>
      simp only [op0, ref2_opp, o0, o2] at this <;> tauto

theorem part_two (w : m.WF) {a b : Point K} (hab : sg kx ky a < sg kx ky b) :
    Part kx ky (triangulateTwo m a b).1 (New1 m.size) [a, b] (triangulateTwo m a b).2 ∧
      Only m (fun _ => False) (triangulateTwo m a b).1 (New1 m.size) := by
  have nab : a ≠ b := by rintro rfl; exact lt_irrefl _ hab
  have o0 := from_org0 m a b
  have o2 := from_org2 m a b
  show Part kx ky (m.fromEndpoints a b).1 (New1 m.size) [a, b] ⟨⟨m.size, 0⟩, (⟨m.size, 0⟩ : Ref).opp⟩ ∧
    Only m (fun _ => False) (m.fromEndpoints a b).1 (New1 m.size)
  rw [op0]
  refine ⟨⟨comp_two w nab, ?_, .inl rfl, ?_, ?_, .inr rfl, ?_, ?_⟩, ?_⟩
  · refine dt_pair (a := a) (b := b) (by simp) nab ?_
    intro x y
    constructor
    · rintro ⟨e, rfl | rfl, rfl, rfl⟩
      · rw [op0, o0, o2]; exact .inl ⟨rfl, rfl⟩
      · rw [ref2_opp, o0, o2]; exact .inr ⟨rfl, rfl⟩
    · rintro (⟨rfl, rfl⟩ | ⟨rfl, rfl⟩)
      · exact ⟨_, .inl rfl, o0, o2⟩
      · exact ⟨_, .inr rfl, o2, by rw [ref2_opp, o0]⟩
  · simp only [List.mem_cons, List.not_mem_nil, or_false]
    rw [o0]
    rintro p (rfl | rfl) <;> linarith
  · simp only [List.mem_cons, List.not_mem_nil, or_false]
    rw [op0, o0, o2]
    rintro p (rfl | rfl) <;> simp
  · simp only [List.mem_cons, List.not_mem_nil, or_false]
    rw [o2]
    rintro p (rfl | rfl) <;> linarith
  · simp only [List.mem_cons, List.not_mem_nil, or_false]
    rw [ref2_opp, o0, o2]
    rintro p (rfl | rfl) <;> simp
  · refine ⟨by simp, fun h => from_org_old m a b h.alloc, ?_, ?_⟩
    · rintro e (rfl | rfl) <;> exact .inr (le_refl _)
    · intro e he _
      exact fromEndpoints_next_old _ _ _ _ (by have := he.alloc; omega)

/-- Two new edges joined at a common end. -/
def vee (m : Mesh K) (a b c : Point K) : Mesh K :=
  ((m.fromEndpoints a b).1.fromEndpoints b c).1.splice ⟨m.size, 2⟩ ⟨m.size + 1, 0⟩

def New2 (n : Nat) (x : Ref) : Prop := New1 n x ∨ New1 (n + 1) x

section vee
variable (m) (a b c : Point K)

theorem vee_wf (w : m.WF) : (vee m a b c).WF :=
  ((w.fromEndpoints a b).fromEndpoints b c).splice ⟨by simp only [fromEndpoints_size]; omega, by simp, by rw [ref2_primal]; rfl⟩

theorem vee_org : (vee m a b c).org ⟨m.size, 0⟩ = a ∧ (vee m a b c).org ⟨m.size, 2⟩ = b ∧
    (vee m a b c).org ⟨m.size + 1, 0⟩ = b ∧ (vee m a b c).org ⟨m.size + 1, 2⟩ = c := by
  refine ⟨?_, ?_, from_org0 (m.fromEndpoints a b).1 b c, from_org2 (m.fromEndpoints a b).1 b c⟩
  · exact (from_org_old (m.fromEndpoints a b).1 b c (by simp)).trans (from_org0 m a b)
  · exact (from_org_old (m.fromEndpoints a b).1 b c (by simp)).trans (from_org2 m a b)

theorem vee_next (w : m.WF) : (vee m a b c).next ⟨m.size, 0⟩ = ⟨m.size, 0⟩ ∧
    (vee m a b c).next ⟨m.size, 2⟩ = ⟨m.size + 1, 0⟩ ∧
    (vee m a b c).next ⟨m.size + 1, 0⟩ = ⟨m.size, 2⟩ ∧
    (vee m a b c).next ⟨m.size + 1, 2⟩ = ⟨m.size + 1, 2⟩ ∧
    ∀ e, m.Edge e → (vee m a b c).next e = m.next e := by
  have w2 := (w.fromEndpoints a b).fromEndpoints b c
  have h1 : ((m.fromEndpoints a b).1.fromEndpoints b c).1.Edge ⟨m.size, 2⟩ :=
    ⟨by simp only [fromEndpoints_size]; omega, ref2_primal _⟩
  have h2 : ((m.fromEndpoints a b).1.fromEndpoints b c).1.Edge ⟨m.size + 1, 0⟩ := ⟨by simp, rfl⟩
  have h3 : ((m.fromEndpoints a b).1.fromEndpoints b c).1.Edge ⟨m.size, 0⟩ :=
    ⟨by simp only [fromEndpoints_size]; omega, rfl⟩
  have h4 : ((m.fromEndpoints a b).1.fromEndpoints b c).1.Edge ⟨m.size + 1, 2⟩ :=
    ⟨by simp, ref2_primal _⟩
  have k0 : ((m.fromEndpoints a b).1.fromEndpoints b c).1.next ⟨m.size, 0⟩ = ⟨m.size, 0⟩ :=
    (fromEndpoints_next_old _ _ _ _ (by simp)).trans (from_next0 m a b)
  have k2 : ((m.fromEndpoints a b).1.fromEndpoints b c).1.next ⟨m.size, 2⟩ = ⟨m.size, 2⟩ :=
    (fromEndpoints_next_old _ _ _ _ (by simp)).trans (from_next2 m a b)
  have k3 : ((m.fromEndpoints a b).1.fromEndpoints b c).1.next ⟨m.size + 1, 0⟩ = ⟨m.size + 1, 0⟩ :=
    from_next0 (m.fromEndpoints a b).1 b c
  have k4 : ((m.fromEndpoints a b).1.fromEndpoints b c).1.next ⟨m.size + 1, 2⟩ = ⟨m.size + 1, 2⟩ :=
    from_next2 (m.fromEndpoints a b).1 b c
  unfold vee
  refine ⟨?_, ?_, ?_, ?_, ?_⟩
  · rw [splice_next_primal w2 h1 h2 h3, k0, k2, k3, if_neg (by simp), if_neg (by simp)]
  · rw [splice_next_primal w2 h1 h2 h1, k2, k3, if_neg (by simp), if_pos rfl]
  · rw [splice_next_primal w2 h1 h2 h2, k2, k3, if_pos rfl]
  · rw [splice_next_primal w2 h1 h2 h4, k2, k3, k4, if_neg (by simp), if_neg (by simp)]
  · intro e he
    have hq := he.alloc
    have h5 : ((m.fromEndpoints a b).1.fromEndpoints b c).1.Edge e :=
      ⟨by simp only [fromEndpoints_size]; omega, he.primal⟩
    rw [splice_next_primal w2 h1 h2 h5, if_neg (by rintro rfl; simp at hq),
      if_neg (by rintro rfl; simp at hq), fromEndpoints_next_old _ _ _ _ (by
        simp only [fromEndpoints_size]; omega), fromEndpoints_next_old _ _ _ _ (by omega)]

theorem comp_vee (w : m.WF) (nab : a ≠ b) (nbc : b ≠ c) (nac : a ≠ c) :
    Comp (vee m a b c) (New2 m.size) := by
  obtain ⟨o0, o2, o3, o4⟩ := vee_org m a b c
  obtain ⟨n0, n2, n3, n4, -⟩ := vee_next m a b c w
  have hs : (vee m a b c).size = m.size + 2 := rfl
  refine ⟨vee_wf m a b c w, ?_, ?_, ?_, ?_, ?_, ?_, ?_, ?_⟩
  · rintro e ((rfl | rfl) | (rfl | rfl))
    · exact ⟨by rw [hs]; simp, rfl⟩
    · exact ⟨by rw [hs]; simp, ref2_primal _⟩
    · exact ⟨by rw [hs]; simp, rfl⟩
    · exact ⟨by rw [hs]; simp, ref2_primal _⟩
  · rintro e ((rfl | rfl) | (rfl | rfl))
    · exact .inl (.inr rfl)
    · exact .inl (.inl (ref2_opp _))
    · exact .inr (.inr rfl)
    · exact .inr (.inl (ref2_opp _))
  · rintro e ((rfl | rfl) | (rfl | rfl))
    · rw [n0]; exact .inl (.inl rfl)
    · rw [n2]; exact .inr (.inl rfl)
    · rw [n3]; exact .inl (.inr rfl)
    · rw [n4]; exact .inr (.inr rfl)
  · rintro e ((rfl | rfl) | (rfl | rfl))
    · rw [n0]
    · rw [n2, o2, o3]
    · rw [n3, o2, o3]
    · rw [n4]
  · rintro e ((rfl | rfl) | (rfl | rfl)) <;> simp only [op0, ref2_opp, o0, o2, o3, o4] <;>
      first | assumption | (apply Ne.symm; assumption)
  · rintro e f ((rfl | rfl) | (rfl | rfl)) ((rfl | rfl) | (rfl | rfl)) <;>
      simp only [op0, ref2_opp, o0, o2, o3, o4] <;> intro h1 h2 <;>
      first | rfl | trivial | (exfalso; tauto)
  · rintro e f ((rfl | rfl) | (rfl | rfl)) ((rfl | rfl) | (rfl | rfl)) <;>
      simp only [op0, ref2_opp, o0, o2, o3, o4, n0, n2, n3, n4] <;> intro h1 h2 h3 <;>
      first | exact absurd rfl h2 | exact absurd rfl h3 | exact absurd h1 (by assumption) |
        exact absurd h1.symm (by assumption)
  · rintro e f ((rfl | rfl) | (rfl | rfl)) ((rfl | rfl) | (rfl | rfl)) hX <;> have := XX_share hX <;>
      simp only [op0, ref2_opp, o0, o2, o3, o4] at this <;> tauto

theorem only_vee (w : m.WF) : Only m (fun _ => False) (vee m a b c) (New2 m.size) := by
  obtain ⟨-, -, -, -, n5⟩ := vee_next m a b c w
  refine ⟨by show m.size ≤ m.size + 2; omega, ?_, ?_, fun he _ => n5 _ he⟩
  · intro e he
    have hq := he.alloc
    exact (from_org_old (m.fromEndpoints a b).1 b c (by simp only [fromEndpoints_size]; omega)).trans
      (from_org_old m a b hq)
  · rintro e ((rfl | rfl) | (rfl | rfl))
    · exact .inr (le_refl _)
    · exact .inr (le_refl _)
    · exact .inr (Nat.le_succ _)
    · exact .inr (Nat.le_succ _)

/-- The third edge. -/
def New3 (n : Nat) (x : Ref) : Prop := New2 n x ∨ x = ⟨n + 2, 0⟩ ∨ x = ⟨n + 2, 2⟩

theorem comp_three (w : m.WF) (nab : a ≠ b) (nbc : b ≠ c) (nac : a ≠ c) :
    Comp ((vee m a b c).connect ⟨m.size + 1, 0⟩ ⟨m.size, 0⟩).1 (New3 m.size) := by
  obtain ⟨o0, o2, o3, o4⟩ := vee_org m a b c
  obtain ⟨n0, n2, n3, n4, -⟩ := vee_next m a b c w
  have hc := comp_vee m a b c w nab nbc nac
  have r4 : (vee m a b c).rfs ⟨m.size + 1, 2⟩ = ⟨m.size + 1, 2⟩ :=
    ((eq_rfs_iff hc.wf (hc.edge (.inr (.inr rfl))) (hc.edge (.inr (.inr rfl)))).2 n4).symm
  refine hc.connect (a := ⟨m.size + 1, 0⟩) (b := ⟨m.size, 0⟩) (.inr (.inl rfl)) (.inl (.inl rfl)) ?_ ?_ ?_ ?_ ?_
  · rw [op0, o0, o4]; exact nac.symm
  · rw [op0, o0, o4]
    rintro f ((rfl | rfl) | (rfl | rfl)) <;> simp only [op0, ref2_opp, o0, o2, o3, o4] <;>
      intro h1 h2 <;>
      tauto
  · rw [op0]; intro h; exact absurd r4 h
  · intro h; exact absurd n0 h
  · rw [op0, o0, o4]
    rintro f ((rfl | rfl) | (rfl | rfl)) hX <;> have := XX_share hX <;>
      simp only [op0, ref2_opp, o0, o2, o3, o4] at this <;> tauto


theorem part_three (w : m.WF) (h1 : sg kx ky a < sg kx ky b) (h2 : sg kx ky b < sg kx ky c) :
    ∃ D, Part kx ky (triangulateThree m a b c).1 D [a, b, c] (triangulateThree m a b c).2 ∧
      Only m (fun _ => False) (triangulateThree m a b c).1 D := by
  obtain ⟨o0, o2, o3, o4⟩ := vee_org m a b c
  have nab : a ≠ b := by rintro rfl; exact lt_irrefl _ h1
  have nbc : b ≠ c := by rintro rfl; exact lt_irrefl _ h2
  have nac : a ≠ c := by rintro rfl; exact lt_irrefl _ (lt_trans h1 h2)
  have hv := only_vee m a b c w
  have cv := comp_vee m a b c w nab nbc nac
  have ct := comp_three m a b c w nab nbc nac
  have memP : ∀ x, x ∈ [a, b, c] ↔ x = a ∨ x = b ∨ x = c := by simp
  have unf : triangulateThree m a b c = match (vee m a b c).orientationOf ⟨m.size, 0⟩ c with
      | .counterclockwise => (((vee m a b c).connect ⟨m.size + 1, 0⟩ ⟨m.size, 0⟩).1,
          (⟨⟨m.size, 0⟩, (⟨m.size + 1, 0⟩ : Ref).opp⟩ : Tri))
      | .clockwise => (((vee m a b c).connect ⟨m.size + 1, 0⟩ ⟨m.size, 0⟩).1,
          ⟨(⟨m.size + 2, 0⟩ : Ref).opp, ⟨m.size + 2, 0⟩⟩)
      | .collinear => (vee m a b c, ⟨⟨m.size, 0⟩, (⟨m.size + 1, 0⟩ : Ref).opp⟩) := rfl
  have hor : (vee m a b c).orientationOf ⟨m.size, 0⟩ c = orient a b c := by
    unfold Mesh.orientationOf Mesh.start Mesh.stop
    rw [op0, o0, o2]
  rw [unf, hor]
  clear unf hor
  -- the closed triangle
  have hs : (vee m a b c).size = m.size + 2 := rfl
  have oo : ∀ {x}, New2 m.size x → ((vee m a b c).connect ⟨m.size + 1, 0⟩ ⟨m.size, 0⟩).1.org x =
      (vee m a b c).org x := fun hx => connect_org_old _ _ _ (cv.edge hx).alloc
  have t0 : ((vee m a b c).connect ⟨m.size + 1, 0⟩ ⟨m.size, 0⟩).1.org ⟨m.size, 0⟩ = a := by
    rw [oo (.inl (.inl rfl)), o0]
  have t2 : ((vee m a b c).connect ⟨m.size + 1, 0⟩ ⟨m.size, 0⟩).1.org ⟨m.size, 2⟩ = b := by
    rw [oo (.inl (.inr rfl)), o2]
  have t3 : ((vee m a b c).connect ⟨m.size + 1, 0⟩ ⟨m.size, 0⟩).1.org ⟨m.size + 1, 0⟩ = b := by
    rw [oo (.inr (.inl rfl)), o3]
  have t4 : ((vee m a b c).connect ⟨m.size + 1, 0⟩ ⟨m.size, 0⟩).1.org ⟨m.size + 1, 2⟩ = c := by
    rw [oo (.inr (.inr rfl)), o4]
  have t5 : ((vee m a b c).connect ⟨m.size + 1, 0⟩ ⟨m.size, 0⟩).1.org ⟨m.size + 2, 0⟩ = c := by
    have := connect_org0 (vee m a b c) ⟨m.size + 1, 0⟩ ⟨m.size, 0⟩
    rw [hs] at this
    rw [this]; exact o4
  have t6 : ((vee m a b c).connect ⟨m.size + 1, 0⟩ ⟨m.size, 0⟩).1.org ⟨m.size + 2, 2⟩ = a := by
    have := connect_org2 (vee m a b c) ⟨m.size + 1, 0⟩ ⟨m.size, 0⟩
    rw [hs] at this
    rw [this]; exact o0
  have onl : Only m (fun _ => False) ((vee m a b c).connect ⟨m.size + 1, 0⟩ ⟨m.size, 0⟩).1
      (New3 m.size) := by
    have hF := (Fr.refl (P := [a, b, c]) (vee m a b c) (New2 m.size)).connect cv
      (a := ⟨m.size + 1, 0⟩) (b := ⟨m.size, 0⟩) (.inr (.inl rfl)) (.inl (.inl rfl))
    have up : ∀ {e}, m.Edge e → (vee m a b c).Edge e := fun he =>
      ⟨lt_of_lt_of_le he.alloc hv.size, he.primal⟩
    refine ⟨le_trans hv.size hF.size, ?_, ?_, ?_⟩
    · intro e he
      rw [hF.org (up he), hv.org he]
    · rintro e (he | rfl | rfl)
      · exact hv.sub he
      · exact .inr (Nat.le_add_right _ _)
      · exact .inr (Nat.le_add_right _ _)
    · intro e he _
      rw [hF.next (up he), hv.next he (by simp)]
      intro hn
      rcases hv.sub hn with h | h
      · exact h
      · have := he.alloc; omega
  generalize ((vee m a b c).connect ⟨m.size + 1, 0⟩ ⟨m.size, 0⟩).1 = m3 at ct onl t0 t2 t3 t4 t5 t6
  have adj3 : ∀ x y, Adj m3 (New3 m.size) x y ↔ x ∈ [a, b, c] ∧ y ∈ [a, b, c] ∧ x ≠ y := by
    intro x y
    constructor
    · rintro ⟨e, ((rfl | rfl) | (rfl | rfl)) | rfl | rfl, rfl, rfl⟩ <;>
        simp only [op0, ref2_opp, t0, t2, t3, t4, t5, t6, memP] <;> tauto
    · rintro ⟨hx, hy, hne⟩
      rcases (memP x).1 hx with rfl | rfl | rfl <;> rcases (memP y).1 hy with rfl | rfl | rfl
      · exact absurd rfl hne
      · exact ⟨_, .inl (.inl (.inl rfl)), t0, t2⟩
      · exact ⟨_, .inr (.inr rfl), t6, by rw [ref2_opp, t5]⟩
      · exact ⟨_, .inl (.inl (.inr rfl)), t2, by rw [ref2_opp, t0]⟩
      · exact absurd rfl hne
      · exact ⟨_, .inl (.inr (.inl rfl)), t3, t4⟩
      · exact ⟨_, .inr (.inl rfl), t5, t6⟩
      · exact ⟨_, .inl (.inr (.inr rfl)), t4, by rw [ref2_opp, t3]⟩
      · exact absurd rfl hne
  have adj2 : ∀ x y, Adj (vee m a b c) (New2 m.size) x y ↔ (x = a ∧ y = b) ∨ (x = b ∧ y = a) ∨
      (x = b ∧ y = c) ∨ (x = c ∧ y = b) := by
    intro x y
    constructor
    · rintro ⟨e, (rfl | rfl) | (rfl | rfl), rfl, rfl⟩ <;>
        simp only [op0, ref2_opp, o0, o2, o3, o4] <;> tauto
    · rintro (⟨rfl, rfl⟩ | ⟨rfl, rfl⟩ | ⟨rfl, rfl⟩ | ⟨rfl, rfl⟩)
      · exact ⟨_, .inl (.inl rfl), o0, o2⟩
      · exact ⟨_, .inl (.inr rfl), o2, by rw [ref2_opp, o0]⟩
      · exact ⟨_, .inr (.inl rfl), o3, o4⟩
      · exact ⟨_, .inr (.inr rfl), o4, by rw [ref2_opp, o3]⟩
  split
  · rename_i hc
    rw [orient_ccw_iff] at hc
    refine ⟨New3 m.size, ⟨ct, dt_tri memP hc adj3, .inl (.inl (.inl rfl)), ?_, ?_,
      .inl (.inr (.inr rfl)), ?_, ?_⟩, onl⟩
    · rintro p hp
      dsimp only
      rw [t0]
      rcases (memP p).1 hp with rfl | rfl | rfl <;> linarith
    · rintro p hp
      dsimp only
      rw [op0, t0, t2]
      rcases (memP p).1 hp with rfl | rfl | rfl
      · simp
      · simp
      · exact le_of_lt hc
    · rintro p hp
      dsimp only
      rw [op0, t4]
      rcases (memP p).1 hp with rfl | rfl | rfl <;> linarith
    · rintro p hp
      dsimp only
      rw [op0, ref2_opp, t3, t4]
      rcases (memP p).1 hp with rfl | rfl | rfl
      · rw [cross_swap13]; linarith
      · simp
      · simp
  · rename_i hc
    rw [orient_cw_iff] at hc
    have hc' : 0 < cross a c b := by rw [cross_neg]; linarith
    refine ⟨New3 m.size, ⟨ct, dt_tri (a := a) (b := c) (c := b) (by simp; tauto) hc' adj3,
      .inr (.inr rfl), ?_, ?_, .inr (.inl rfl), ?_, ?_⟩, onl⟩
    · rintro p hp
      dsimp only
      rw [op0, t6]
      rcases (memP p).1 hp with rfl | rfl | rfl <;> linarith
    · rintro p hp
      dsimp only
      rw [op0, ref2_opp, t5, t6]
      rcases (memP p).1 hp with rfl | rfl | rfl
      · simp
      · exact le_of_lt hc'
      · simp
    · rintro p hp
      dsimp only
      rw [t5]
      rcases (memP p).1 hp with rfl | rfl | rfl <;> linarith
    · rintro p hp
      dsimp only
      rw [op0, t5, t6]
      rcases (memP p).1 hp with rfl | rfl | rfl
      · simp
      · rw [cross_rot']; linarith
      · simp
  · rename_i hc
    rw [orient_col_iff] at hc
    refine ⟨New2 m.size, ⟨cv, dt_col memP hc h1 h2 adj2, .inl (.inl rfl), ?_, ?_,
      .inr (.inr rfl), ?_, ?_⟩, hv⟩
    · rintro p hp
      dsimp only
      rw [o0]
      rcases (memP p).1 hp with rfl | rfl | rfl <;> linarith
    · rintro p hp
      dsimp only
      rw [op0, o0, o2]
      rcases (memP p).1 hp with rfl | rfl | rfl
      · simp
      · simp
      · exact le_of_eq hc.symm
    · rintro p hp
      dsimp only
      rw [op0, o4]
      rcases (memP p).1 hp with rfl | rfl | rfl <;> linarith
    · rintro p hp
      dsimp only
      rw [op0, ref2_opp, o3, o4]
      rcases (memP p).1 hp with rfl | rfl | rfl
      · rw [cross_swap13]; linarith
      · simp
      · simp

end vee
end HG
