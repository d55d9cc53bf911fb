import Verif.Delaunay.Map
import Verif.Delaunay.Frac

/-!
# Faces of the triangulation, over ordered rings
-/

set_option linter.unusedSectionVars false

namespace HG

/-- The next dart around the face on the left, backwards: `a b` with the triangle `a b c` on the
left gives `c a`. -/
def Mesh.lf {K : Type} (m : Mesh K) (e : Ref) : Ref := (m.next e).opp

section
variable {K : Type} [Field K] [LinearOrder K] [IsStrictOrderedRing K]
variable {P : List (Point K)} {m : Mesh K} {D : Ref → Prop}

theorem tri_next (hc : Comp m D) (dt : DT P (Adj m D)) {e : Ref} (he : D e) {c : Point K}
    (ha : Adj m D (m.org e) c) (hb : Adj m D (m.org e.opp) c)
    (ht : DTri P (m.org e) (m.org e.opp) c) : m.org (m.next e).opp = c := by
  obtain ⟨f, hf, fo, fs⟩ := ha
  by_contra hne
  have h0 := ht.1
  have f1 : f ≠ e := by rintro rfl; rw [fs] at h0; simp at h0
  have f2 : f ≠ m.next e := by rintro rfl; exact hne fs
  have hn := hc.next he
  have no := hc.org he
  have c1 := hc.sorted he hf fo f1 f2
  rw [fs] at c1
  have mz := dt.mem (adj_org (hc.opp hn))
  have nz := hc.ne hn
  rw [no] at nz
  have nzb : m.org (m.next e).opp ≠ m.org e.opp := by
    intro h
    have := hc.simple hn he no h
    have := hc.single he hf this fo
    exact f1 this
  obtain ⟨g, hg, go, gs⟩ := hb
  have an := adj_org (m := m) hn
  rw [no] at an
  have c2 := wedge ht (dt.mem (adj_org (hc.opp he))) (fs ▸ dt.mem (adj_org (hc.opp hf))) mz
    (Ne.symm nz) nzb hne (fun x hx => (dt.del an).not_mid hx) (by
      have := hc.nocross hn hg
      rw [no, go, gs] at this
      exact this)
  exact c1.asymm c2

theorem tri_face (hc : Comp m D) (dt : DT P (Adj m D)) {e : Ref} (he : D e) {c : Point K}
    (ha : Adj m D (m.org e) c) (hb : Adj m D (m.org e.opp) c)
    (ht : DTri P (m.org e) (m.org e.opp) c) :
    m.org (m.next e).opp = c ∧ m.lf (m.lf (m.lf e)) = e := by
  have h1 := tri_next hc dt he ha hb ht
  have d1 : D (m.lf e) := hc.opp (hc.next he)
  have o1 : m.org (m.lf e) = c := h1
  have s1 : m.org (m.lf e).opp = m.org e := by
    show m.org (m.next e).opp.opp = _
    rw [Ref.opp_opp, hc.org he]
  have h2 : m.org (m.next (m.lf e)).opp = m.org e.opp := by
    refine tri_next hc dt d1 ?_ ?_ ?_
    · rw [o1]; exact dt.symm hb
    · rw [s1]; exact adj_org he
    · rw [o1, s1]; exact ht.rot.rot
  have d2 : D (m.lf (m.lf e)) := hc.opp (hc.next d1)
  have s2 : m.org (m.lf (m.lf e)).opp = c := by
    show m.org (m.next (m.lf e)).opp.opp = _
    rw [Ref.opp_opp, hc.org d1, o1]
  have o2 : m.org (m.lf (m.lf e)) = m.org e.opp := h2
  have h3 : m.org (m.next (m.lf (m.lf e))).opp = m.org e := by
    refine tri_next hc dt d2 ?_ ?_ ?_
    · rw [o2]; exact dt.symm (adj_org he)
    · rw [s2]; exact dt.symm ha
    · rw [o2, s2]; exact ht.rot
  have d3 : D (m.lf (m.lf (m.lf e))) := hc.opp (hc.next d2)
  refine ⟨h1, hc.simple d3 he h3 ?_⟩
  show m.org (m.next (m.lf (m.lf e))).opp.opp = _
  rw [Ref.opp_opp, hc.org d2, o2]

end

section
variable {K : Type} [CommRing K] [LinearOrder K]

/-- `p` is an inner point of the segment `a b`. -/
def Inside (a b p : Point K) : Prop :=
  cross a b p = 0 ∧ (a.x - p.x) * (b.x - p.x) + (a.y - p.y) * (b.y - p.y) < 0

/-- The segments `a b` and `c d` have a common inner point and different directions. -/
def Crossing (a b c d : Point K) : Prop :=
  cross a b c * cross a b d < 0 ∧ cross c d a * cross c d b < 0

/-- The face on the left of the dart `e` is a counterclockwise triangle that contains no other
point of `P`. -/
structure TriFace (P : List (Point K)) (m : Mesh K) (e : Ref) : Prop where
  three : m.lf (m.lf (m.lf e)) = e
  pos : 0 < cross (m.org e) (m.org e.opp) (m.org (m.next e).opp)
  empty : ∀ p ∈ P, 0 ≤ cross (m.org e) (m.org e.opp) p →
    0 ≤ cross (m.org e.opp) (m.org (m.next e).opp) p → 0 ≤ cross (m.org (m.next e).opp) (m.org e) p →
    p = m.org e ∨ p = m.org e.opp ∨ p = m.org (m.next e).opp

/-- A mesh whose darts `D` form a Delaunay triangulation of the points `P`. -/
structure Tgl (m : Mesh K) (D : Ref → Prop) (P : List (Point K)) (t : Tri) : Prop where
  wf : m.WF
  edge : ∀ {e}, D e → m.Edge e
  opp : ∀ {e}, D e → D e.opp
  next : ∀ {e}, D e → D (m.next e)
  org : ∀ {e}, D e → m.org (m.next e) = m.org e
  ne : ∀ {e}, D e → m.org e ≠ m.org e.opp
  mem : ∀ {e}, D e → m.org e ∈ P
  simple : ∀ {e f}, D e → D f → m.org e = m.org f → m.org e.opp = m.org f.opp → e = f
  nocross : ∀ {e f}, D e → D f → ¬ Crossing (m.org e) (m.org e.opp) (m.org f) (m.org f.opp)
  nomid : ∀ {e p}, D e → p ∈ P → ¬ Inside (m.org e) (m.org e.opp) p
  side : ∀ {e}, D e → (∀ p ∈ P, cross (m.org e) (m.org e.opp) p ≤ 0) ∨
    (TriFace P m e ∧
      ∀ p ∈ P, inCircleDet p (m.org e) (m.org e.opp) (m.org (m.next e).opp) ≤ 0)
  hull : ∀ {e}, D e → (∀ p ∈ P, 0 ≤ cross (m.org e) (m.org e.opp) p) →
    ∀ p ∈ P, 0 ≤ cross (m.org e.opp) (m.org (m.next e.opp).opp) p
  cover : ∀ p ∈ P, ∃ e, D e ∧ m.org e = p
  dl : D t.leftSide
  lmin : ∀ p ∈ P, Point.leB (m.org t.leftSide) p = true
  lhull : ∀ p ∈ P, 0 ≤ cross (m.org t.leftSide) (m.org t.leftSide.opp) p
  dr : D t.rightSide
  rmax : ∀ p ∈ P, Point.leB p (m.org t.rightSide) = true
  rhull : ∀ p ∈ P, cross (m.org t.rightSide) (m.org t.rightSide.opp) p ≤ 0

end

theorem inc_lex {K : Type} [Field K] [LinearOrder K] [IsStrictOrderedRing K] {k : K}
    {pts : List (Point K)} (h : Inc k 1 (pySort Point.leB pts)) {p q : Point K} (hp : p ∈ pts)
    (hq : q ∈ pts) (h1 : sg k 1 p ≤ sg k 1 q) : Point.leB p q = true := by
  have hs := pySort_sorted Point.leB leB_total leB_trans pts
  rcases leB_total p q with h2 | h2
  · exact h2
  by_cases e : p = q
  · rw [e] at h2 ⊢; exact h2
  have hp' := (pySort_perm Point.leB pts).mem_iff.2 hp
  have hq' := (pySort_perm Point.leB pts).mem_iff.2 hq
  by_contra hc
  have key : ∀ l : List (Point K), Inc k 1 l → l.Pairwise (fun a b => Point.leB a b = true) → p ∈ l →
      q ∈ l → sg k 1 q < sg k 1 p := by
    intro l
    induction l with
    | nil => simp
    | cons a l ih =>
      intro h hs hp hq
      obtain ⟨h3, h4⟩ := List.pairwise_cons.1 h
      obtain ⟨h5, h6⟩ := List.pairwise_cons.1 hs
      rcases List.mem_cons.1 hp with e1 | hp <;> rcases List.mem_cons.1 hq with e2 | hq
      · exact absurd (e1.trans e2.symm) e
      · rw [← e1] at h5; exact absurd (h5 q hq) hc
      · rw [← e2] at h3; exact h3 p hp
      · exact ih h4 h6 hp hq
  exact absurd h1 (not_le.2 (key _ h hs hp' hq'))

theorem delaunay_tgl {K : Type} [CommRing K] [LinearOrder K] [IsStrictOrderedRing K] {fuel : Nat}
    {parts : List Nat} {pts : List (Point K)} (hn : pts.Nodup) (hs : parts.sum = pts.length)
    {m : Mesh K} {t : Tri} (h : delaunay fuel parts pts = .ok (m, t)) : ∃ D, Tgl m D pts t := by
  obtain ⟨F, _, _, _, f, hf⟩ := exists_field K
  have h' : delaunay fuel parts (pts.map (Point.map f)) = .ok (m.map f, t) := by
    rw [delaunay_map hf, h]; rfl
  have inj : Function.Injective (Point.map f) := fun _ _ h => (Point.map_inj hf).1 h
  obtain ⟨k, D, hp, hk⟩ := delaunay_part (hn.map inj) (by simpa using hs) h'
  have mm : ∀ {q}, q ∈ pySort Point.leB (pts.map (Point.map f)) ↔ q ∈ pts.map (Point.map f) :=
    (pySort_perm _ _).mem_iff
  have mp : ∀ p ∈ pts, p.map f ∈ pySort Point.leB (pts.map (Point.map f)) := fun p hp =>
    mm.2 (List.mem_map_of_mem hp)
  have hc := hp.comp
  have dt := hp.dt
  have mem : ∀ {e}, D e → m.org e ∈ pts := by
    intro e he
    have := mm.1 (hp.mem he)
    obtain ⟨q, hq, e⟩ := List.mem_map.1 this
    rw [← inj e]; exact hq
  refine ⟨D, ⟨⟨hc.wf.closed, hc.wf.par, hc.wf.inv⟩, fun he => ⟨(hc.edge he).alloc, (hc.edge he).primal⟩,
    hc.opp, hc.next, fun he => inj (hc.org he), fun he h => hc.ne he (congrArg (Point.map f) h), mem,
    fun he hf' h1 h2 => hc.simple he hf' (congrArg (Point.map f) h1) (congrArg (Point.map f) h2), ?_, ?_,
    ?_, ?_, ?_, hp.dl, ?_, ?_, hp.dr, ?_, ?_⟩⟩
  · rintro e e' he he' ⟨h1, h2⟩
    refine hc.nocross he he' ⟨?_, ?_⟩
    · show cross ((m.org _).map f) ((m.org _).map f) ((m.org _).map f)
        * cross ((m.org _).map f) ((m.org _).map f) ((m.org _).map f) < 0
      rw [cross_map, cross_map, ← map_mul, map_neg_iff hf]; exact h1
    · show cross ((m.org _).map f) ((m.org _).map f) ((m.org _).map f)
        * cross ((m.org _).map f) ((m.org _).map f) ((m.org _).map f) < 0
      rw [cross_map, cross_map, ← map_mul, map_neg_iff hf]; exact h2
  · rintro e p he hpp ⟨h1, h2⟩
    refine (dt.del (adj_org he)).not_mid (mp p hpp) ⟨?_, ?_⟩
    · show cross ((m.org _).map f) ((m.org _).map f) (p.map f) = 0
      rw [cross_map, h1, map_zero]
    · have := (map_neg_iff hf).2 h2
      simp only [map_add, map_mul, map_sub] at this
      show (diam ((m.org _).map f) ((m.org _).map f)).ev (p.map f) < 0
      unfold Circ.ev diam Point.map
      dsimp only
      linarith
  · intro e he
    rcases dt.side (adj_org he) with h1 | ⟨c, h1, h2, h3⟩
    · left
      intro p hpp
      have := h1 _ (mp p hpp)
      change cross ((m.org _).map f) ((m.org _).map f) (p.map f) ≤ 0 at this
      rwa [cross_map, map_nonpos_iff hf] at this
    · right
      obtain ⟨e1, e2⟩ := tri_face hc dt he h1 h2 h3
      obtain ⟨h4, h5⟩ := dtri_iff.1 h3
      obtain ⟨-, g, hg, ga, gb, gc⟩ := h3
      have h40 := h4
      rw [← e1] at h4 h5
      refine ⟨⟨e2, ?_, ?_⟩, ?_⟩
      · change 0 < cross ((m.org _).map f) ((m.org _).map f) ((m.org _).map f) at h4
        rwa [cross_map, map_pos_iff hf] at h4
      · intro p hpp c1 c2 c3
        rw [← e1] at gc h40
        have q1 : 0 ≤ cross ((m.org e).map f) ((m.org e.opp).map f) (p.map f) := by
          rw [cross_map, map_nonneg_iff hf]; exact c1
        have q2 : 0 ≤ cross ((m.org e.opp).map f) ((m.org (m.next e).opp).map f) (p.map f) := by
          rw [cross_map, map_nonneg_iff hf]; exact c2
        have q3 : 0 ≤ cross ((m.org (m.next e).opp).map f) ((m.org e).map f) (p.map f) := by
          rw [cross_map, map_nonneg_iff hf]; exact c3
        rcases dtri_corner (q := p.map f) h40 ga gb gc (by rw [cross_rot']; exact q2)
          (by rw [← cross_rot']; exact q3) q1 (hg _ (mp p hpp)) with h | h | h
        · exact .inl (inj h)
        · exact .inr (.inl (inj h))
        · exact .inr (.inr (inj h))
      · intro p hpp
        have := h5 _ (mp p hpp)
        change inCircleDet (p.map f) ((m.org _).map f) ((m.org _).map f) ((m.org _).map f) ≤ 0 at this
        rwa [det_map, map_nonpos_iff hf] at this
  · intro e he h1 p hpp
    have := hull_next hc dt he (by
      intro x hx
      obtain ⟨q, hq, rfl⟩ := List.mem_map.1 (mm.1 hx)
      show 0 ≤ cross ((m.org _).map f) ((m.org _).map f) (q.map f)
      rw [cross_map, map_nonneg_iff hf]
      exact h1 q hq) _ (mp p hpp)
    change 0 ≤ cross ((m.org _).map f) ((m.org _).map f) (p.map f) at this
    rwa [cross_map, map_nonneg_iff hf] at this
  · intro p hpp
    obtain ⟨b, e, he, h1, -⟩ := dt.deg (mp p hpp)
    exact ⟨e, he, inj h1⟩
  · intro p hpp
    rw [← leB_map hf]
    exact inc_lex hk (List.mem_map_of_mem (mem hp.dl)) (List.mem_map_of_mem hpp) (hp.lmin _ (mp p hpp))
  · intro p hpp
    have := hp.lhull _ (mp p hpp)
    change 0 ≤ cross ((m.org _).map f) ((m.org _).map f) (p.map f) at this
    rwa [cross_map, map_nonneg_iff hf] at this
  · intro p hpp
    rw [← leB_map hf]
    exact inc_lex hk (List.mem_map_of_mem hpp) (List.mem_map_of_mem (mem hp.dr)) (hp.rmax _ (mp p hpp))
  · intro p hpp
    have := hp.rhull _ (mp p hpp)
    change cross ((m.org _).map f) ((m.org _).map f) (p.map f) ≤ 0 at this
    rwa [cross_map, map_nonpos_iff hf] at this

end HG
