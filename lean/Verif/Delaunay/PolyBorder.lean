import Verif.Delaunay.Hull
import Verif.Lemmas.Provenance2

/-!
# The border loop of the polygon construction
-/

set_option linter.unusedSectionVars false

namespace HG

variable {K : Type} [CommRing K] [LinearOrder K] [IsStrictOrderedRing K]
variable {P : List (Point K)} {m : Mesh K} {D : Ref → Prop} {t : Tri} {B : List Ref} {e : Ref}

theorem opp_inj {u v : Ref} (hh : u.opp = v.opp) : u = v := by
  have := congrArg Ref.opp hh
  rwa [Ref.opp_opp, Ref.opp_opp] at this

/-- Removing a mouth changes no triangle next to another border edge. -/
theorem Bord.delete_face (h : Bord P m D B) (hm : Mouth P m D B e) {f : Ref} (hf : f ∈ B)
    (hfe : f ≠ e) : (m.delete e).next f = m.next f ∧
      (m.delete e).next (m.next f).opp = m.next (m.next f).opp := by
  have he := hm.mem
  have De := h.bd e he
  have ho := h.opp De
  have Df := h.bd f hf
  have T := h.triFace he
  have Tf := h.triFace hf
  have pos := T.pos
  have nab := h.ne De
  have n1 : m.next e ≠ e.opp := by
    intro hh
    have := h.org De
    rw [hh] at this; exact nab this.symm
  have n2 : m.next e.opp ≠ e := by
    intro hh
    have := h.org ho
    rw [hh] at this; exact nab this
  have dl : ∀ {z}, D z → D (m.lf z) := fun hz => h.opp (h.next hz)
  have orgl : ∀ {z}, D z → m.org (m.lf z).opp = m.org z := by
    intro z hz; unfold Mesh.lf; rw [Ref.opp_opp, h.org hz]
  have eB : e.opp.opp ∈ B := by rw [Ref.opp_opp]; exact he
  have f2 : f ≠ e.opp := fun hh => h.one e he (hh ▸ hf)
  have a1 : m.lf f ≠ e := by
    intro hh
    have h1 : m.lf (m.lf e) = f := by rw [← Tf.three, hh]
    have h2 := orgl (dl De)
    rw [h1] at h2
    exact hm.new (m.next f.opp) (h.rfe hf) (by rw [h.org (h.opp Df), h2]; rfl)
  have a2 : m.lf (m.lf f) ≠ e := by
    intro hh
    have h1 : m.lf e = f := by rw [← Tf.three, hh]
    exact hm.new f hf (by rw [← h1]; rfl)
  have c0 := h.one f hf
  have b1 : m.lf f ≠ e.opp := by
    intro hh; apply c0; rw [← Tf.three, hh]; exact h.lf_out (h.lf_out eB)
  have b2 : m.lf (m.lf f) ≠ e.opp := by
    intro hh; apply c0; rw [← Tf.three, hh]; exact h.lf_out eB
  have same : ∀ {z}, D z → z ≠ e → z ≠ e.opp → m.lf z ≠ e → m.lf z ≠ e.opp →
      (m.delete e).next z = m.next z := by
    intro z hz z1 z2 z3 z4
    rw [delete_next h.wf (h.edge De) n1 n2 (h.edge hz), if_neg (by tauto), if_neg, if_neg]
    · intro hh; apply z3; unfold Mesh.lf; rw [hh, Ref.opp_opp]
    · intro hh; apply z4; unfold Mesh.lf; rw [hh]
  exact ⟨same Df hfe f2 a1 b1, same (dl Df) a1 b1 a2 b2⟩

theorem Bord.neighbours (h : Bord P m D B) (he : e ∈ B) :
    m.edgeNeighbours e = [m.next e, m.next (m.next e).opp] := by
  have T := h.triFace he
  unfold Mesh.edgeNeighbours
  rw [if_pos]
  · rfl
  · exact (orient_ccw_iff _ _ _).2 T.pos

theorem Bord.apex_notMem (h : Bord P m D B) (hm : Mouth P m D B e) :
    m.next e ∉ B ∧ m.next (m.next e).opp ∉ B := by
  have De := h.bd e hm.mem
  refine ⟨fun hh => ?_, fun hh => hm.new _ hh (h.org (h.opp (h.next De)))⟩
  have := h.inj hh hm.mem (h.org De)
  have pos := (h.triFace hm.mem).pos
  rw [this] at pos
  simp at pos

/-- The values of a keyed set. -/
def KeyedSet.vals (s : KeyedSet K) : List Ref := s.map Prod.snd

theorem KeyedSet.vals_add {s : KeyedSet K} {k : EdgeKey K} :
    (s.add k e).vals = s.vals ∨ (s.add k e).vals.Perm (e :: s.vals) := by
  induction s with
  | nil => right; simp [KeyedSet.add, KeyedSet.vals]
  | cons a l ih =>
    obtain ⟨k', e'⟩ := a
    unfold KeyedSet.add
    split
    · right; simp [KeyedSet.vals]
    · split
      · left; rfl
      · rcases ih with ih | ih
        · left; simp only [KeyedSet.vals, List.map_cons] at ih ⊢; rw [ih]
        · right
          simp only [KeyedSet.vals, List.map_cons] at ih ⊢
          exact (ih.cons e').trans (List.Perm.swap _ _ _)

theorem KeyedSet.vals_popmax {s r : KeyedSet K} (h : s.popmax = some (e, r)) :
    s.vals = r.vals ++ [e] := by
  unfold KeyedSet.popmax at h
  split at h
  · simp at h
  · rename_i k e' hl
    simp only [Option.some.injEq, Prod.mk.injEq] at h
    obtain ⟨rfl, rfl⟩ := h
    have : s = s.dropLast ++ [(k, e')] := by
      rw [List.getLast?_eq_some_iff] at hl
      obtain ⟨ys, rfl⟩ := hl
      simp
    conv_lhs => rw [this]
    simp [KeyedSet.vals]

/-- Invariant of the border loop. -/
structure BInv (P : List (Point K)) (s : BorderState K) (D : Ref → Prop) (B : List Ref) : Prop where
  bord : Bord P s.mesh D B
  head : B.head? = some s.tri.leftSide
  pts : ∀ f ∈ B, s.mesh.org f ∈ s.boundaryPoints
  cand : ∀ c ∈ s.candidates.vals, c ∈ B
  nodup : s.candidates.vals.Nodup
  nbs : ∀ f ∈ B, s.neighbours.lookup f = some [s.mesh.next f, s.mesh.next (s.mesh.next f).opp]

theorem lookup_filter_ne {l : List (Ref × List Ref)} {n z : Ref} (h : z ≠ n) :
    (l.filter (fun p => p.1 ≠ n)).lookup z = l.lookup z := by
  induction l with
  | nil => rfl
  | cons a l ih =>
    obtain ⟨a, b⟩ := a
    rw [List.filter_cons]
    split
    · rw [List.lookup_cons, List.lookup_cons, ih]
    · rename_i h1
      have : a = n := by simpa using h1
      subst this
      rw [List.lookup_cons, ih]
      have : (z == a) = false := by simpa using h
      rw [this]

theorem lookup_cons_ne {l : List (Ref × List Ref)} {n z : Ref} {v : List Ref} (h : z ≠ n) :
    ((n, v) :: l).lookup z = l.lookup z := by
  rw [List.lookup_cons]
  have : (z == n) = false := by simpa using h
  rw [this]

theorem lookup_cons_eq {l : List (Ref × List Ref)} {n : Ref} {v : List Ref} :
    ((n, v) :: l).lookup n = some v := by
  rw [List.lookup_cons]; simp

theorem triDelete_left {m' : Mesh K} {t' : Tri} (h : Tri.delete m t e = .ok (m', t')) :
    m' = m.delete e ∧ t'.leftSide =
      if e = t.leftSide ∨ e.opp = t.leftSide then m.next t.leftSide else t.leftSide := by
  simp only [Tri.delete, exc_bind_ok, exc_pure_ok, Prod.mk.injEq] at h
  obtain ⟨t1, h1, t2, h2, rfl, rfl⟩ := h
  refine ⟨rfl, ?_⟩
  have hl : t1.leftSide = t.leftSide := by
    split at h1
    · split at h1
      · simp at h1
      · simp only [exc_pure_ok] at h1
        subst h1; rfl
    · simp only [exc_pure_ok] at h1
      subst h1; rfl
  rw [hl] at h2
  split at h2
  · rename_i hc
    split at h2
    · simp at h2
    · simp only [exc_pure_ok] at h2
      subst h2; rw [if_pos hc]; rfl
  · rename_i hc
    simp only [exc_pure_ok] at h2
    subst h2; rw [if_neg hc]; exact hl

theorem Bord.head_delete (h : Bord P m D B) (he : e ∈ B) (hh : B.head? = some t.leftSide)
    {m' : Mesh K} {t' : Tri} (hd : Tri.delete m t e = .ok (m', t')) :
    (mouthBorder m B e).head? = some t'.leftSide := by
  obtain ⟨-, hl⟩ := triDelete_left hd
  rcases B with _ | ⟨s, l⟩
  · simp at he
  simp only [List.head?_cons, Option.some.injEq] at hh
  subst hh
  by_cases c : e = t.leftSide
  · rw [if_pos (.inl c)] at hl
    rw [c, mouthBorder_cons, hl]; rfl
  · have c' : ¬ e.opp = t.leftSide := fun hh => h.one e he (by rw [hh]; simp)
    rw [if_neg (by tauto)] at hl
    unfold mouthBorder
    rw [List.flatMap_cons, if_neg (Ne.symm c), hl]; rfl

/-- What the removal of one mouth does to the invariant. -/
theorem BInv.step {s : BorderState K} (h : BInv P s D B) {r : KeyedSet K}
    (hp : s.candidates.popmax = some (e, r)) (hnew : s.mesh.stop (s.mesh.lfs e) ∉ s.boundaryPoints) :
    Mouth P s.mesh D B e := by
  have he : e ∈ B := h.cand e (by rw [KeyedSet.vals_popmax hp]; simp)
  refine ⟨he, fun f hf hh => hnew ?_⟩
  show s.mesh.org (s.mesh.next e).opp ∈ _
  rw [← hh]; exact h.pts f hf

/-- The state of the border loop after the removal of the mouth `e`. -/
def BorderState.after (s : BorderState K) (e : Ref) (t : Tri) (rest : KeyedSet K) (k1 k2 : EdgeKey K) :
    BorderState K :=
  { mesh := s.mesh.delete e
    tri := t
    boundaryPoints := insertSet (s.mesh.stop (s.mesh.lfs e)) s.boundaryPoints
    neighbours := (s.mesh.next (s.mesh.next e).opp,
        (s.mesh.delete e).edgeNeighbours (s.mesh.next (s.mesh.next e).opp)) ::
      ((s.mesh.next e, (s.mesh.delete e).edgeNeighbours (s.mesh.next e)) ::
        (s.neighbours.filter fun p => p.1 ≠ e).filter fun p => p.1 ≠ s.mesh.next e).filter
          fun p => p.1 ≠ s.mesh.next (s.mesh.next e).opp
    candidates := KeyedSet.add k2 (s.mesh.next (s.mesh.next e).opp) (KeyedSet.add k1 (s.mesh.next e) rest)
    size := s.size + 1 }

/-- The removal of a mouth keeps the invariant. -/
theorem BInv.after {s : BorderState K} (hs : BInv P s D B) {rest : KeyedSet K}
    (hp : s.candidates.popmax = some (e, rest)) (hm : Mouth P s.mesh D B e) {m : Mesh K} {t : Tri}
    (hd : Tri.delete s.mesh s.tri e = .ok (m, t)) (k1 k2 : EdgeKey K) :
    BInv P (s.after e t rest k1 k2) (fun x => D x ∧ x ≠ e ∧ x ≠ e.opp) (mouthBorder s.mesh B e) := by
  have hv := KeyedSet.vals_popmax hp
  have hcand := hs.cand
  have hnd := hs.nodup
  rw [hv] at hcand hnd
  rw [List.nodup_append] at hnd
  have hrest : ∀ c ∈ rest.vals, c ∈ B ∧ c ≠ e := fun c hc =>
    ⟨hcand c (by simp [hc]), hnd.2.2 c hc e (by simp)⟩
  have hB := hs.bord
  have hB' := hB.delete hm
  have De := hB.bd e hm.mem
  have hhead := hB.head_delete hm.mem hs.head hd
  unfold BorderState.after
  obtain ⟨x, hx⟩ : ∃ x, x = s.mesh.next e := ⟨_, rfl⟩
  rw [← hx]
  obtain ⟨y, hy⟩ : ∃ y, y = s.mesh.next x.opp := ⟨_, rfl⟩
  rw [← hy]
  have hap := hB.apex_notMem hm
  rw [← hx, ← hy] at hap
  have hmem : ∀ {f}, f ∈ mouthBorder s.mesh B e ↔ (f ∈ B ∧ f ≠ e) ∨ f = x ∨ f = y := by
    intro f; rw [mem_mouthBorder hm.mem, hy, hx]
  have hxy : x ≠ y := by
    intro hh
    have h1 := hB.org De
    have h2 := hB.org (hB.opp (hB.next De))
    rw [← hx] at h1 h2
    rw [← hy, ← hh, h1] at h2
    exact hm.new e hm.mem (by rw [← hx, h2])
  refine ⟨hB', hhead, ?_, ?_, ?_, ?_⟩
  · intro f hf
    show s.mesh.org f ∈ insertSet _ _
    rw [mem_insertSet]
    rcases hmem.1 hf with ⟨hf, -⟩ | rfl | rfl
    · exact .inr (hs.pts f hf)
    · right; rw [hx, hB.org De]; exact hs.pts e hm.mem
    · left; rw [hy, hB.org (hB.opp (hx ▸ hB.next De)), hx]; rfl
  · intro c hc
    rw [hmem]
    have hc' : c ∈ rest.vals ∨ c = x ∨ c = y := by
      dsimp only at hc
      rcases KeyedSet.vals_add (s := KeyedSet.add k1 x rest) (k := k2) (e := y) with h2 | h2
      · rw [h2] at hc
        rcases KeyedSet.vals_add (s := rest) (k := k1) (e := x) with h1 | h1
        · rw [h1] at hc; exact .inl hc
        · rw [h1.mem_iff, List.mem_cons] at hc; tauto
      · rw [h2.mem_iff, List.mem_cons] at hc
        rcases hc with hc | hc
        · exact .inr (.inr hc)
        rcases KeyedSet.vals_add (s := rest) (k := k1) (e := x) with h1 | h1
        · rw [h1] at hc; exact .inl hc
        · rw [h1.mem_iff, List.mem_cons] at hc; tauto
    rcases hc' with hc | hc | hc
    · exact .inl (hrest c hc)
    · exact .inr (.inl hc)
    · exact .inr (.inr hc)
  · have n1 : (KeyedSet.add k1 x rest).vals.Nodup ∧ y ∉ (KeyedSet.add k1 x rest).vals := by
      rcases KeyedSet.vals_add (s := rest) (k := k1) (e := x) with h1 | h1
      · rw [h1]; exact ⟨hnd.1, fun hh => hap.2 (hrest y hh).1⟩
      · rw [h1.nodup_iff, h1.mem_iff, List.nodup_cons, List.mem_cons, not_or]
        exact ⟨⟨fun hh => hap.1 (hrest x hh).1, hnd.1⟩, Ne.symm hxy,
          fun hh => hap.2 (hrest y hh).1⟩
    show (KeyedSet.add k2 y (KeyedSet.add k1 x rest)).vals.Nodup
    rcases KeyedSet.vals_add (s := KeyedSet.add k1 x rest) (k := k2) (e := y) with h2 | h2
    · rw [h2]; exact n1.1
    · rw [h2.nodup_iff, List.nodup_cons]; exact ⟨n1.2, n1.1⟩
  · intro f hf
    dsimp only
    by_cases fy : f = y
    · rw [fy, lookup_cons_eq, hB'.neighbours (fy ▸ hf)]
    rw [lookup_cons_ne fy, lookup_filter_ne fy]
    by_cases fx : f = x
    · rw [fx, lookup_cons_eq, hB'.neighbours (fx ▸ hf)]
    rw [lookup_cons_ne fx, lookup_filter_ne fx]
    have hfB : f ∈ B ∧ f ≠ e := by
      rcases hmem.1 hf with hf | hf | hf
      · exact hf
      · exact absurd hf fx
      · exact absurd hf fy
    rw [lookup_filter_ne hfB.2]
    obtain ⟨e1, e2⟩ := hB.delete_face hm hfB.1 hfB.2
    rw [e1, e2]
    exact hs.nbs f hfB.1

theorem isPolygonMouth_new {env : Env K} {he : List (Segment K)} {bp : List (Point K)}
    (h : isPolygonMouth env he m bp e = true) : m.stop (m.lfs e) ∉ bp := by
  unfold isPolygonMouth at h
  simp only [Bool.and_eq_true, decide_eq_true_eq] at h
  exact h.1.1

/-- The border loop keeps the region triangulated, and keeps every property `Φ` that survives the
removal of one mouth. -/
theorem BInv.loop {env : Env K} {he : List (Segment K)} {bs : Int} {bp : List (Point K)}
    {Φ : Mesh K → (Ref → Prop) → List Ref → Prop}
    (hΦ : ∀ m D B e bps, Bord P m D B → Mouth P m D B e → (∀ f ∈ B, m.org f ∈ bps) →
      (∀ p ∈ bp, p ∈ bps) → isPolygonMouth env he m bps e = true → Φ m D B →
      Φ (m.delete e) (fun x => D x ∧ x ≠ e ∧ x ≠ e.opp) (mouthBorder m B e))
    (fuel : Nat) {s s' : BorderState K} (hs : BInv P s D B) (hbp : ∀ p ∈ bp, p ∈ s.boundaryPoints)
    (h0 : Φ s.mesh D B) (h : borderLoop env he bs fuel s = .ok s') :
    ∃ D' B', BInv P s' D' B' ∧ Φ s'.mesh D' B' := by
  induction fuel generalizing s D B with
  | zero => simp [borderLoop, exc_throw_ok] at h
  | succ n ih =>
    unfold borderLoop at h
    split at h
    · split at h
      · simp only [exc_pure_ok] at h
        exact h ▸ ⟨D, B, hs, h0⟩
      · rename_i e rest hp
        have hv := KeyedSet.vals_popmax hp
        have hcand := hs.cand
        have hnd := hs.nodup
        rw [hv] at hcand hnd
        rw [List.nodup_append] at hnd
        have hrest : ∀ c ∈ rest.vals, c ∈ B ∧ c ≠ e := fun c hc =>
          ⟨hcand c (by simp [hc]), hnd.2.2 c hc e (by simp)⟩
        dsimp only at h
        split at h
        · exact ih (s := { s with candidates := rest })
            ⟨hs.bord, hs.head, hs.pts, fun c hc => (hrest c hc).1, hnd.1, hs.nbs⟩ hbp h0 h
        · rename_i hmouth
          rw [Bool.not_eq_false] at hmouth
          have hm := hs.step hp (isPolygonMouth_new hmouth)
          simp only [exc_bind_ok] at h
          obtain ⟨⟨m, t⟩, hd, h⟩ := h
          obtain ⟨hmm, -⟩ := triDelete_left hd
          subst hmm
          dsimp only at h
          split at h
          · simp only [exc_throw_ok] at h
          · rename_i ns hns
            rw [hs.nbs e hm.mem, Option.some.injEq] at hns
            subst hns
            simp only [List.foldlM_cons, List.foldlM_nil, exc_bind_ok, exc_pure_ok] at h
            obtain ⟨⟨nb, cs⟩, ⟨⟨nb1, cs1⟩, ⟨k1, -, hk1⟩, ⟨nb2, cs2⟩, ⟨k2, -, hk2⟩, hk3⟩, h⟩ := h
            simp only [Prod.mk.injEq] at hk1 hk2 hk3
            obtain ⟨rfl, rfl⟩ := hk1
            obtain ⟨rfl, rfl⟩ := hk2
            obtain ⟨rfl, rfl⟩ := hk3
            refine ih (hs.after hp hm hd k1 k2) ?_ ?_ h
            · intro p hp
              show p ∈ insertSet _ _
              rw [mem_insertSet]
              exact .inr (hbp p hp)
            · exact hΦ _ _ _ _ _ hs.bord hm hs.pts hbp hmouth h0
    · simp only [exc_pure_ok] at h
      exact h ▸ ⟨D, B, hs, h0⟩

theorem lookup_map {f : Ref → List Ref} {l : List Ref} {z : Ref} (hz : z ∈ l) :
    (l.map fun e => (e, f e)).lookup z = some (f z) := by
  induction l with
  | nil => simp at hz
  | cons a l ih =>
    rw [List.map_cons]
    by_cases c : z = a
    · rw [c, lookup_cons_eq]
    · rw [lookup_cons_ne c]
      exact ih ((List.mem_cons.1 hz).resolve_left c)

theorem vals_foldlM {f : Ref → Except Exc (EdgeKey K)} (l : List Ref) {s s' : KeyedSet K}
    (h : l.foldlM (fun c e => do let k ← f e; pure (KeyedSet.add k e c)) s = .ok s')
    (hn : (l ++ s.vals).Nodup) : s'.vals.Nodup ∧ ∀ x ∈ s'.vals, x ∈ l ++ s.vals := by
  induction l generalizing s with
  | nil =>
    simp only [List.foldlM_nil, exc_pure_ok] at h
    subst h
    exact ⟨by simpa using hn, by simp⟩
  | cons a l ih =>
    simp only [List.foldlM_cons, exc_bind_ok, exc_pure_ok] at h
    obtain ⟨b1, ⟨k, -, rfl⟩, h⟩ := h
    rw [List.cons_append, List.nodup_cons] at hn
    rcases KeyedSet.vals_add (s := s) (k := k) (e := a) with h1 | h1
    · obtain ⟨i1, i2⟩ := ih h (by rw [h1]; exact hn.2)
      rw [h1] at i2
      exact ⟨i1, fun x hx => List.mem_cons_of_mem _ (i2 x hx)⟩
    · have hp : (l ++ (KeyedSet.add k a s).vals).Perm (a :: (l ++ s.vals)) :=
        (h1.append_left l).trans List.perm_middle
      obtain ⟨i1, i2⟩ := ih h (hp.nodup_iff.2 (List.nodup_cons.2 hn))
      refine ⟨i1, fun x hx => ?_⟩
      rw [List.cons_append, ← hp.mem_iff]
      exact i2 x hx

/-! ## Collinear points -/

theorem compressInner1_col (k : Nat) (hk : 0 < k) (fuel : Nat) {l : List (Point K)} (hf : l.length ≤ fuel)
    (hc : AllCol l) : (compressInner1 k fuel l).length ≤ max 2 k := by
  induction fuel generalizing l with
  | zero => simp only [compressInner1]; omega
  | succ fuel ih =>
    unfold compressInner1
    split
    · rename_i h
      have hs := pyDelAt_sublist l (-(k : Int) + 1)
      refine ih ?_ (fun x hx y hy z hz => hc x (hs.subset hx) y (hs.subset hy) z (hs.subset hz))
      have hl : (pyDelAt l (-(k : Int) + 1)).length < l.length := by
        have h2 := h.1
        rcases Nat.lt_or_ge 1 k with h1 | h1
        · rw [show -(k : Int) + 1 = -((k - 1 : Nat) : Int) by omega, pyDelAt_neg _ _ (by omega) (by omega),
            List.length_eraseIdx_of_lt (by omega)]
          omega
        · rw [show -(k : Int) + 1 = ((0 : Nat) : Int) by omega, pyDelAt_nonneg _ _ (by omega),
            List.length_eraseIdx_of_lt (by omega)]
          omega
      omega
    · rename_i h
      by_contra hlt
      apply h
      refine ⟨by omega, ?_⟩
      rw [orient_col_iff]
      have hm : ∀ i : Int, (∃ j, j < l.length ∧ pyAt l i = l.getD j ⟨0, 0⟩) → pyAt l i ∈ l := by
        rintro i ⟨j, hj, hi⟩
        rw [hi, List.getD_eq_getElem _ _ hj]
        exact List.getElem_mem _
      have neg : ∀ i : Nat, 0 < i → i ≤ l.length → pyAt l (-(i : Int)) ∈ l := by
        intro i h0 h1
        exact hm _ ⟨_, by omega, pyAt_neg l i h0 h1⟩
      have pos : ∀ i : Nat, i < l.length → pyAt l (i : Int) ∈ l :=
        fun i h1 => hm _ ⟨i, h1, pyAt_nonneg l i⟩
      refine hc _ ?_ _ ?_ _ (neg k hk (by omega))
      · rcases Nat.lt_or_ge 1 k with h1 | h1
        · rw [show -(k : Int) + 1 = -((k - 1 : Nat) : Int) by omega]
          exact neg _ (by omega) (by omega)
        · rw [show -(k : Int) + 1 = ((0 : Nat) : Int) by omega]
          exact pos _ (by omega)
      · rcases Nat.lt_or_ge 2 k with h1 | h1
        · rw [show -(k : Int) + 2 = -((k - 2 : Nat) : Int) by omega]
          exact neg _ (by omega) (by omega)
        · rw [show -(k : Int) + 2 = ((2 - k : Nat) : Int) by omega]
          exact pos _ (by omega)

/-- Collinear points leave no contour. -/
theorem compressContour_col {l : List (Point K)} (hc : AllCol l) : (compressContour l).length ≤ 2 := by
  unfold compressContour
  refine (compressPass2_sublist _ _ _).length_le.trans ?_
  rcases Nat.lt_or_ge 2 l.length with h | h
  · have key : ∀ (k : Nat) (l : List (Point K)), AllCol l → 0 < k → (compressPass1 k l).length ≤ 2 := by
      intro k
      induction k with
      | zero => intro l _ h; omega
      | succ k ih =>
        intro l hc _
        unfold compressPass1
        have hs := compressInner1_sublist (k + 1) l.length l
        have hc' : AllCol (compressInner1 (k + 1) l.length l) :=
          fun x hx y hy z hz => hc x (hs.subset hx) y (hs.subset hy) z (hs.subset hz)
        rcases Nat.eq_zero_or_pos k with h0 | h0
        · subst h0
          exact (compressPass1_sublist _ _).length_le.trans
            (compressInner1_col 1 (by omega) _ le_rfl hc)
        · exact ih _ hc' h0
    exact key _ _ hc (by omega)
  · exact (compressPass1_sublist _ _).length_le.trans h

theorem holeLoop_bp {env : Env K} (l : List (Int × Bool)) {s s' : HoleState K} {prior : Option Bool}
    (h : holeLoop env s prior l = .ok s') : ∀ p ∈ s.boundaryPoints, p ∈ s'.boundaryPoints := by
  induction l generalizing s prior with
  | nil =>
    simp only [holeLoop, exc_pure_ok] at h
    subst h; exact fun p hp => hp
  | cons a l ih =>
    obtain ⟨size, key⟩ := a
    simp only [holeLoop, exc_bind_ok] at h
    obtain ⟨vs, hvs, h⟩ := h
    split at h
    · split at h
      · simp only [exc_throw_ok] at h
      · simp only [exc_bind_ok] at h
        obtain ⟨b, -, h⟩ := h
        exact fun p hp => ih h p (List.mem_append_left _ hp)
    · exact fun p hp => ih h p hp

/-- Regions obtained by removing mouths that pass the test of the border loop. -/
inductive Carved (env : Env K) (he : List (Segment K)) (bp P : List (Point K)) (m₀ : Mesh K)
    (D₀ : Ref → Prop) (B₀ : List Ref) : Mesh K → (Ref → Prop) → List Ref → Prop
  | refl : Carved env he bp P m₀ D₀ B₀ m₀ D₀ B₀
  | step {m : Mesh K} {D : Ref → Prop} {B : List Ref} {e : Ref} {bps : List (Point K)} :
      Carved env he bp P m₀ D₀ B₀ m D B → Bord P m D B → Mouth P m D B e →
      (∀ f ∈ B, m.org f ∈ bps) → (∀ p ∈ bp, p ∈ bps) → isPolygonMouth env he m bps e = true →
      Carved env he bp P m₀ D₀ B₀ (m.delete e) (fun x => D x ∧ x ≠ e ∧ x ≠ e.opp) (mouthBorder m B e)

/-- The run of the polygon construction. -/
structure PolyRun (env : Env K) (pts : List (Point K)) (hss : List Int) (ch : Nat → Bool)
    (p : Polygon K) : Prop where
  nc : ¬ AllCol pts
  run : ∃ m t es hst D m' D' B', Tgl m D pts t ∧ Bord pts m D es ∧
    (∀ e, e ∈ es ↔ HullDart pts m D e) ∧
    holeLoop env
      { innerPoints := env.setOrder (pts.filter (fun p => p ∉ (es.map m.org).dedup))
        boundaryPoints := (es.map m.org).dedup, holes := [], holeEdges := [] } none
      (hss.zip ((List.range hss.length).map ch)) = .ok hst ∧ p.holes = hst.holes ∧
    Carved env hst.holeEdges hst.boundaryPoints pts m D es m' D' B' ∧ Bord pts m' D' B' ∧
    p.border.vertices = compressContour (B'.map m'.org) ∧ 3 ≤ p.border.vertices.length

/-- The region bounded by the border of a polygon is triangulated. -/
theorem toPolygon_run {env : Env K} {pts : List (Point K)} {bs : Int} {hss : List Int} {ch : Nat → Bool}
    {p : Polygon K} (hn : pts.Nodup) (hc : (env.coinChange pts.length).sum = pts.length)
    (h : toPolygon env pts bs hss ch = .ok p) : PolyRun env pts hss ch p := by
  simp only [toPolygon, exc_bind_ok] at h
  obtain ⟨⟨m, t⟩, hd, es, hes, hst, hh, cs, hcs, s, hs, bd, hbd, h⟩ := h
  split at h
  swap
  · simp only [exc_throw_ok] at h
  rename_i h3
  simp only [exc_pure_ok] at h
  subst h
  simp only [triToBorderVertices, exc_bind_ok, exc_pure_ok] at hbd
  obtain ⟨es', hes', rfl⟩ := hbd
  have nc : ¬ AllCol pts := by
    intro hcol
    obtain ⟨g, ht⟩ := Good.delaunay hd
    have hE := g.boundaryEdges ht hes
    have hcs' : SetOk m cs := foldlM_inv (SetOk m) _ _ (by
      intro c e c' he hc hst
      simp only [exc_bind_ok, exc_pure_ok] at hst
      obtain ⟨k, -, rfl⟩ := hst
      exact hc.add k (hE e (List.mem_of_mem_filter he))) _ _ (by intro x hx; simp at hx) hcs
    have hok : s.Ok (· ∈ pts) := BorderState.Ok.loop _ ⟨g, ht, by
      intro x hx n hn
      obtain ⟨e, he, rfl⟩ := List.mem_map.1 hx
      exact g.edgeNeighbours (hE e he) n hn, hcs'⟩ hs
    have hall : ∀ v ∈ es'.map s.mesh.start, v ∈ pts := by
      intro v hv
      obtain ⟨e, he, rfl⟩ := List.mem_map.1 hv
      exact hok.good.start (hok.good.boundaryEdges hok.tri hes' e he)
    have := compressContour_col (l := es'.map s.mesh.start)
      (fun x hx y hy z hz => hcol x (hall x hx) y (hall y hy) z (hall z hz))
    omega
  obtain ⟨D, hT⟩ := delaunay_tgl hn hc hd
  obtain ⟨hB, hiff, hhead⟩ := hT.bord nc hes
  have hbp : ∀ f ∈ es, m.org f ∈ hst.boundaryPoints := by
    intro f hf
    refine holeLoop_bp _ hh _ ?_
    dsimp only
    rw [List.mem_dedup]
    exact List.mem_map_of_mem hf
  have hv := vals_foldlM _ hcs (by
    rw [KeyedSet.vals, List.map_nil, List.append_nil]
    exact (List.Nodup.of_map _ hB.nodup).filter _)
  have hinv : BInv pts { mesh := m, tri := t, boundaryPoints := hst.boundaryPoints
                         neighbours := es.map (fun e => (e, m.edgeNeighbours e))
                         candidates := cs
                         size := (compressContour (es.map m.start)).length } D es := by
    refine ⟨hB, hhead, hbp, ?_, hv.1, ?_⟩
    · intro c hc
      have := hv.2 c hc
      rw [KeyedSet.vals, List.map_nil, List.append_nil] at this
      exact List.mem_of_mem_filter this
    · intro f hf
      dsimp only
      rw [lookup_map hf, hB.neighbours hf]
  obtain ⟨D', B', hI, hC⟩ := hinv.loop (bp := hst.boundaryPoints)
    (Φ := Carved env hst.holeEdges hst.boundaryPoints pts m D es)
    (fun m D B e bps h1 h2 h3 h4 h5 h6 => .step h6 h1 h2 h3 h4 h5) _ (fun p hp => hp) .refl hs
  have hw := hI.bord.walk hI.head hes'
  subst hw
  exact ⟨nc, m, t, es, hst, D, s.mesh, D', es', hT, hB, hiff, hh, rfl, hC, hI.bord, rfl, h3⟩

end HG
