import Verif.Lemmas.Hull
import Verif.Lemmas.Provenance2
import Verif.Spec.Hulls
import Verif.Spec.Order

/-!
# Separation of convex hulls by the lexicographic order
-/

set_option linter.unusedSectionVars false

namespace HG

open Spec

section
variable {K : Type} [CommRing K] [LinearOrder K] [IsStrictOrderedRing K]

theorem inHull_nil (p : Point K) : ¬ InHull [] p := by
  intro h
  have := h 0 0 (-1) (by simp)
  linarith

theorem inHull_of_mem {l : List (Point K)} {p : Point K} (h : p ∈ l) : InHull l p :=
  fun _ _ _ hq => hq p h

theorem inHull_mono {l m : List (Point K)} {p : Point K} (h : InHull l p) (hs : ∀ q ∈ l, q ∈ m) :
    InHull m p :=
  fun a b c hq => h a b c fun q hq' => hq q (hs q hq')

/-- A point of a segment is in the hull of its endpoints. -/
theorem inHull_of_onSeg {s : Segment K} {p : Point K} (h : OnSeg s p) :
    InHull [s.start, s.stop] p := by
  obtain ⟨hc, h1, h2, h3, h4⟩ := h
  intro a b c hq
  have ha := hq s.start (by simp)
  have hb := hq s.stop (by simp)
  unfold Collinear area2 at hc
  obtain ⟨⟨x1, y1⟩, ⟨x2, y2⟩⟩ := s
  obtain ⟨x, y⟩ := p
  dsimp only at *
  by_contra hlt
  push Not at hlt
  rcases lt_trichotomy x1 x2 with hx | hx | hx
  · rw [min_eq_left hx.le] at h1
    rw [max_eq_right hx.le] at h2
    have e : (a * x + b * y) * (x2 - x1) =
        (a * x1 + b * y1) * (x2 - x) + (a * x2 + b * y2) * (x - x1) := by
      linear_combination b * hc
    have i1 := mul_le_mul_of_nonneg_right ha (sub_nonneg.2 h2)
    have i2 := mul_le_mul_of_nonneg_right hb (sub_nonneg.2 h1)
    have i3 := mul_lt_mul_of_pos_right hlt (sub_pos.2 hx)
    nlinarith
  · subst hx
    rw [min_self] at h1
    rw [max_self] at h2
    have hx : x = x1 := le_antisymm h2 h1
    subst hx
    rcases le_total 0 b with hb0 | hb0
    · have : b * y ≤ b * max y1 y2 := mul_le_mul_of_nonneg_left h4 hb0
      rcases le_total y1 y2 with hy | hy
      · rw [max_eq_right hy] at this; linarith
      · rw [max_eq_left hy] at this; linarith
    · have : b * y ≤ b * min y1 y2 := mul_le_mul_of_nonpos_left h3 hb0
      rcases le_total y1 y2 with hy | hy
      · rw [min_eq_left hy] at this; linarith
      · rw [min_eq_right hy] at this; linarith
  · rw [min_eq_right hx.le] at h1
    rw [max_eq_left hx.le] at h2
    have e : (a * x + b * y) * (x1 - x2) =
        (a * x1 + b * y1) * (x - x2) + (a * x2 + b * y2) * (x1 - x) := by
      linear_combination (-b) * hc
    have i1 := mul_le_mul_of_nonneg_right ha (sub_nonneg.2 h1)
    have i2 := mul_le_mul_of_nonneg_right hb (sub_nonneg.2 h2)
    have i3 := mul_lt_mul_of_pos_right hlt (sub_pos.2 hx)
    nlinarith

theorem onSeg_start (s : Segment K) : OnSeg s s.start :=
  ⟨by unfold Collinear area2; ring, min_le_left _ _, le_max_left _ _, min_le_left _ _,
    le_max_left _ _⟩

theorem onSeg_stop (s : Segment K) : OnSeg s s.stop :=
  ⟨by unfold Collinear area2; ring, min_le_right _ _, le_max_right _ _, min_le_right _ _,
    le_max_right _ _⟩

end

section
variable {K : Type} [LinearOrder K] [Zero K] [Add K] [Sub K] [Predicates K]

theorem lexLt_connex (p q : Point K) : LexLt p q ∨ p = q ∨ LexLt q p := by
  unfold LexLt
  rcases lt_trichotomy p.x q.x with h | h | h
  · exact Or.inl (Or.inl h)
  · rcases lt_trichotomy p.y q.y with h' | h' | h'
    · exact Or.inl (Or.inr ⟨h, h'⟩)
    · right; left; cases p; cases q; simp_all
    · exact Or.inr (Or.inr (Or.inr ⟨h.symm, h'⟩))
  · exact Or.inr (Or.inr (Or.inl h))

theorem lexLtV_iff (p q : Point K) : LexLtV p q ↔ LexLt (⟨p.y, p.x⟩ : Point K) ⟨q.y, q.x⟩ := Iff.rfl

theorem keyOrder_trichotomy (k : Bool) (p q : Point K) :
    keyOrder k p q ∨ p = q ∨ keyOrder k q p := by
  unfold keyOrder
  split
  · exact lexLt_connex p q
  · have := lexLt_connex (⟨p.y, p.x⟩ : Point K) ⟨q.y, q.x⟩
    rw [lexLtV_iff, lexLtV_iff]
    rcases this with h | h | h
    · exact Or.inl h
    · right; left; cases p; cases q; simp_all
    · exact Or.inr (Or.inr h)

end

section
variable {K : Type} [CommRing K] [LinearOrder K] [IsStrictOrderedRing K]

theorem exists_functional_key (k : Bool) (s : List (Point K)) :
    ∃ A B : K, ∀ p ∈ s, ∀ q ∈ s, keyOrder k p q → lin A B p < lin A B q := by
  cases k
  · obtain ⟨A, B, h⟩ := exists_functional (s.map fun p => (⟨p.y, p.x⟩ : Point K))
    refine ⟨B, A, fun p hp q hq hlt => ?_⟩
    have := h ⟨p.y, p.x⟩ (List.mem_map_of_mem hp) ⟨q.y, q.x⟩ (List.mem_map_of_mem hq) hlt
    unfold lin at this ⊢
    dsimp only at this
    linarith
  · exact exists_functional s

theorem exists_sup (f : Point K → K) (d : K) (l : List (Point K)) (h : ∀ p ∈ l, f p < d) :
    ∃ c, c < d ∧ ∀ p ∈ l, f p ≤ c := by
  induction l with
  | nil => exact ⟨d - 1, by linarith, by simp⟩
  | cons a l ih =>
    obtain ⟨c, hc, hl⟩ := ih fun p hp => h p (List.mem_cons_of_mem _ hp)
    refine ⟨max c (f a), max_lt hc (h a (by simp)), fun p hp => ?_⟩
    rcases List.mem_cons.1 hp with rfl | hp
    · exact le_max_right _ _
    · exact (hl p hp).trans (le_max_left _ _)

/-- An extreme point of the hull is one of the points. -/
theorem extreme_mem (k : Bool) {l : List (Point K)} {q : Point K} (h : InHull l q)
    (hl : ∀ v ∈ l, v = q ∨ keyOrder k v q) : q ∈ l := by
  by_contra hq
  obtain ⟨A, B, hf⟩ := exists_functional_key k (q :: l)
  obtain ⟨c, hc, hs⟩ := exists_sup (lin A B) (lin A B q) l fun p hp => by
    rcases hl p hp with rfl | hlt
    · exact absurd hp hq
    · exact hf p (List.mem_cons_of_mem _ hp) q (by simp) hlt
  have := h A B c hs
  exact absurd this (not_le.2 hc)

theorem extreme_mem' (k : Bool) {l : List (Point K)} {q : Point K} (h : InHull l q)
    (hl : ∀ v ∈ l, v = q ∨ keyOrder k q v) : q ∈ l := by
  by_contra hq
  obtain ⟨A, B, hf⟩ := exists_functional_key k (q :: l)
  obtain ⟨c, hc, hs⟩ := exists_sup (lin (-A) (-B)) (lin (-A) (-B) q) l fun p hp => by
    rcases hl p hp with rfl | hlt
    · exact absurd hp hq
    · have := hf q (by simp) p (List.mem_cons_of_mem _ hp) hlt
      unfold lin at this ⊢
      linarith
  have := h (-A) (-B) c hs
  exact absurd this (not_le.2 hc)

/-- Hulls separated by a point in lexicographic order. -/
theorem common_eq (k : Bool) {l m : List (Point K)} {q p : Point K}
    (hl : ∀ v ∈ l, v = q ∨ keyOrder k v q) (hm : ∀ v ∈ m, v = q ∨ keyOrder k q v)
    (h1 : InHull l p) (h2 : InHull m p) : p = q := by
  obtain ⟨A, B, hf⟩ := exists_functional_key k (p :: q :: l ++ m)
  have hmem : ∀ v, v ∈ l ∨ v ∈ m → v ∈ p :: q :: l ++ m := by
    intro v hv; simp only [List.cons_append, List.mem_cons, List.mem_append]; tauto
  have a1 : lin A B p ≤ lin A B q := h1 A B _ fun v hv => by
    rcases hl v hv with rfl | hlt
    · exact le_refl _
    · exact (hf v (hmem v (Or.inl hv)) q (by simp) hlt).le
  have a2 : lin A B q ≤ lin A B p := by
    have := h2 (-A) (-B) (-lin A B q) fun v hv => by
      have : lin A B q ≤ lin A B v := by
        rcases hm v hv with rfl | hlt
        · exact le_refl _
        · exact (hf q (by simp) v (hmem v (Or.inr hv)) hlt).le
      unfold lin at this ⊢
      linarith
    unfold lin at this ⊢
    linarith
  rcases keyOrder_trichotomy k p q with h | h | h
  · exact absurd (hf p (by simp) q (by simp) h) (not_lt.2 a2)
  · exact h
  · exact absurd (hf q (by simp) p (by simp) h) (not_lt.2 a1)

theorem hullsTouch_of_sep (k : Bool) {l m : List (Point K)} {q : Point K}
    (hl : ∀ v ∈ l, v = q ∨ keyOrder k v q) (hm : ∀ v ∈ m, v = q ∨ keyOrder k q v) :
    HullsTouch l m := by
  refine ⟨fun p h1 h2 => ?_, fun p p' h1 h2 h1' h2' => ?_⟩
  · have := common_eq k hl hm h1 h2
    subst this
    exact ⟨extreme_mem k h1 hl, extreme_mem' k h2 hm⟩
  · rw [common_eq k hl hm h1 h2, common_eq k hl hm h1' h2']

end

section
variable {K : Type} [LinearOrder K] [Zero K] [Add K] [Sub K] [Predicates K]

theorem Separated.mono {l m l' m' : List (Point K)} (h : Separated l m) (hl : ∀ q ∈ l', q ∈ l)
    (hm : ∀ q ∈ m', q ∈ m) : Separated l' m' := by
  rcases h with rfl | rfl | ⟨k, q, h1, h2⟩
  · left; exact List.eq_nil_iff_forall_not_mem.2 fun v hv => by simpa using hl v hv
  · right; left; exact List.eq_nil_iff_forall_not_mem.2 fun v hv => by simpa using hm v hv
  · exact Or.inr (Or.inr ⟨k, q, fun v hv => h1 v (hl v hv), fun v hv => h2 v (hm v hv)⟩)

end

section
variable {K : Type} [CommRing K] [LinearOrder K] [IsStrictOrderedRing K]

theorem Separated.touch {l m : List (Point K)} (h : Separated l m) : HullsTouch l m := by
  rcases h with rfl | rfl | ⟨k, q, h1, h2⟩
  · exact ⟨fun p h => absurd h (inHull_nil p), fun p _ h => absurd h (inHull_nil p)⟩
  · exact ⟨fun p _ h => absurd h (inHull_nil p), fun p _ _ h => absurd h (inHull_nil p)⟩
  · exact hullsTouch_of_sep k h1 h2

end

section
variable {K : Type} [LinearOrder K] [Zero K] [Add K] [Sub K] [Predicates K]

theorem cyc_mem {l : List (Point K)} (h : 0 < l.length) (i : Nat) : cyc l i ∈ l := by
  unfold cyc
  rw [List.getD_eq_getElem _ _ (Nat.mod_lt _ h)]
  exact List.getElem_mem _

end

section
variable {K : Type} [CommRing K] [LinearOrder K] [IsStrictOrderedRing K]

theorem Separated.noCross {l m : List (Point K)} (h : Separated l m) (hl : l ≠ []) (hm : m ≠ [])
    (i j : Nat) (p : Point K) (h1 : OnSeg (edge l i) p) (h2 : OnSeg (edge m j) p) :
    IsEnd (edge l i) p ∧ IsEnd (edge m j) p ∧
      ∀ q, OnSeg (edge l i) q → OnSeg (edge m j) q → q = p := by
  have hs : Separated [(edge l i).start, (edge l i).stop] [(edge m j).start, (edge m j).stop] := by
    refine h.mono ?_ ?_ <;> intro v hv <;>
      simp only [List.mem_cons, List.not_mem_nil, or_false] at hv <;>
      rcases hv with rfl | rfl <;> exact cyc_mem (List.length_pos_of_ne_nil (by assumption)) _
  have ht := hs.touch
  obtain ⟨a, b⟩ := ht.vertex p (inHull_of_onSeg h1) (inHull_of_onSeg h2)
  exact ⟨by simpa [IsEnd] using a, by simpa [IsEnd] using b, fun q hq1 hq2 =>
    ht.unique q p (inHull_of_onSeg hq1) (inHull_of_onSeg hq2) (inHull_of_onSeg h1)
      (inHull_of_onSeg h2)⟩

/-! ## Sorted points -/

end

section
variable {K : Type} [LinearOrder K] [Zero K] [Add K] [Sub K] [Predicates K]

theorem leVB_iff (p q : Point K) : Point.leVB p q = true ↔ p.y < q.y ∨ (p.y = q.y ∧ p.x ≤ q.x) := by
  unfold Point.leVB; exact decide_eq_true_iff

theorem sortByKey_pairwise (k : Bool) (pts : List (Point K)) (hn : pts.Nodup) :
    (sortByKey k pts).Pairwise (keyOrder k) := by
  have h2 : (sortByKey k pts).Nodup := (sortByKey_perm k pts).nodup_iff.2 hn
  have swap : ∀ p : Point K, Point.leVB p = fun q => Point.leB (⟨p.y, p.x⟩ : Point K) ⟨q.y, q.x⟩ :=
    fun p => rfl
  have h1 : (sortByKey k pts).Pairwise fun p q => p = q ∨ keyOrder k p q := by
    unfold sortByKey
    split
    · rename_i hk
      refine (pySort_sorted Point.leB leB_total leB_trans pts).imp ?_
      intro p q hpq
      rcases (leB_iff p q).1 hpq with h | ⟨h, h'⟩
      · right; unfold keyOrder; rw [if_pos hk]; exact Or.inl h
      · rcases h'.lt_or_eq with h' | h'
        · right; unfold keyOrder; rw [if_pos hk]; exact Or.inr ⟨h, h'⟩
        · left; cases p; cases q; simp_all
    · rename_i hk
      refine (pySort_sorted Point.leVB ?_ ?_ pts).imp ?_
      · intro a b; exact leB_total (⟨a.y, a.x⟩ : Point K) ⟨b.y, b.x⟩
      · intro a b c; exact leB_trans (⟨a.y, a.x⟩ : Point K) ⟨b.y, b.x⟩ ⟨c.y, c.x⟩
      · intro p q hpq
        rcases (leVB_iff p q).1 hpq with h | ⟨h, h'⟩
        · right; unfold keyOrder; rw [if_neg hk]; exact Or.inl h
        · rcases h'.lt_or_eq with h' | h'
          · right; unfold keyOrder; rw [if_neg hk]; exact Or.inr ⟨h, h'⟩
          · left; cases p; cases q; simp_all
  refine (List.Pairwise.and h1 h2).imp ?_
  rintro p q ⟨h | h, hne⟩
  · exact absurd h hne
  · exact h

/-- Cutting a sorted list: the first `n` elements and the rest from the `n - 1`-st on. -/
theorem sorted_cut {k : Bool} {pts : List (Point K)} (hs : pts.Pairwise (keyOrder k)) {n j : Nat}
    (hn : 0 < n) (hj : n - 1 ≤ j) :
    Separated (pts.take n) (pts.drop j) := by
    cases hd : pts.drop (n - 1) with
    | nil =>
      right; left
      have := List.drop_eq_nil_iff.1 hd
      exact List.drop_eq_nil_iff.2 (by omega)
    | cons q r =>
      have hsplit : pts = pts.take (n - 1) ++ q :: r := by rw [← hd, List.take_append_drop]
      have hs' := hs
      rw [hsplit, List.pairwise_append] at hs'
      obtain ⟨-, hs2, hs3⟩ := hs'
      have ht : pts.take n = pts.take (n - 1) ++ [q] := by
        have e : pts.take n = pts.take ((n - 1) + 1) := by rw [Nat.sub_add_cancel hn]
        rw [e, List.take_add, hd]; rfl
      have hdj : ∀ v ∈ pts.drop j, v ∈ q :: r := by
        intro v hv
        rw [← hd]
        have : pts.drop j = (pts.drop (n - 1)).drop (j - (n - 1)) := by
          rw [List.drop_drop]; congr 1; omega
        rw [this] at hv
        exact List.mem_of_mem_drop hv
      refine Or.inr (Or.inr ⟨k, q, ?_, ?_⟩)
      · intro v hv
        rw [ht] at hv
        rcases List.mem_append.1 hv with h | h
        · exact Or.inr (hs3 v h q (by simp))
        · left; simpa using h
      · intro v hv
        rcases List.mem_cons.1 (hdj v hv) with h | h
        · exact Or.inl h
        · exact Or.inr ((List.pairwise_cons.1 hs2).1 v h)

theorem keyOrder_sortedBy {k : Bool} {prior : Option Bool} {pts : List (Point K)} (hn : pts.Nodup)
    (hp : ∀ k', prior = some k' → pts.Pairwise (keyOrder k')) :
    (if prior ≠ some k then sortByKey k pts else pts).Pairwise (keyOrder k) ∧
    (if prior ≠ some k then sortByKey k pts else pts).Nodup := by
  split
  · exact ⟨sortByKey_pairwise k pts hn, (sortByKey_perm k pts).nodup_iff.2 hn⟩
  · rename_i h
    exact ⟨hp k (not_not.1 h), hn⟩

theorem b2i_cases (b : Bool) : b2i b = 0 ∨ b2i b = 1 := by cases b <;> simp [b2i]

/-- Contours of a multicontour touch at most at one vertex. -/
theorem multicontourLoop_sep {env : Env K} (l : List (Int × Bool)) {pts : List (Point K)}
    {prior : Option Bool} (hn : pts.Nodup)
    (hp : ∀ k', prior = some k' → pts.Pairwise (keyOrder k')) {cs : List (Contour K)}
    (h : multicontourLoop env pts prior l = .ok cs) :
    cs.Pairwise fun a b => Separated a.vertices b.vertices := by
  induction l generalizing pts prior cs with
  | nil =>
    simp only [multicontourLoop, exc_pure_ok] at h
    subst h; simp
  | cons a l ih =>
    obtain ⟨size, key⟩ := a
    simp only [multicontourLoop, exc_bind_ok] at h
    obtain ⟨vs, hvs, h⟩ := h
    obtain ⟨hs, hnd⟩ := keyOrder_sortedBy (k := key) hn hp
    generalize (if prior ≠ some key then sortByKey key pts else pts) = ps at hs hnd h hvs
    have hv := toVertexSequence_mem hvs
    split at h
    · rename_i h3
      simp only [exc_bind_ok, exc_pure_ok] at h
      obtain ⟨b, -, r, hr, rfl⟩ := h
      have hpos : 0 < size.toNat := by
        rcases Nat.eq_zero_or_pos size.toNat with h0 | h0
        · exfalso
          obtain ⟨v, hvm⟩ := List.exists_mem_of_length_pos (l := vs) (by omega)
          have := hv v hvm
          rw [h0] at this
          simp at this
        · exact h0
      have hb := b2i_cases b
      refine List.pairwise_cons.2 ⟨fun c hc => ?_, ih (hnd.sublist (List.drop_sublist _ _)) ?_ hr⟩
      · exact (sorted_cut hs hpos (j := (size - b2i b).toNat) (by omega)).mono hv
          (fun v hvm => multicontourLoop_mem l hr c hc v hvm)
      · intro k' hk'
        cases hk'
        exact hs.sublist (List.drop_sublist _ _)
    · refine ih hnd ?_ h
      intro k' hk'
      cases hk'
      exact hs

/-- Holes of a polygon touch at most at one vertex. -/
theorem holeLoop_sep {env : Env K} (l : List (Int × Bool)) {s s' : HoleState K}
    {prior : Option Bool} (hn : s.innerPoints.Nodup)
    (hp : ∀ k', prior = some k' → s.innerPoints.Pairwise (keyOrder k'))
    (hh : s.holes.Pairwise fun a b => Separated a.vertices b.vertices)
    (hx : ∀ c ∈ s.holes, ∀ m : List (Point K), (∀ v ∈ m, v ∈ s.innerPoints) →
      Separated c.vertices m)
    (h : holeLoop env s prior l = .ok s') :
    s'.holes.Pairwise fun a b => Separated a.vertices b.vertices := by
  induction l generalizing s prior with
  | nil =>
    simp only [holeLoop, exc_pure_ok] at h
    subst h; exact hh
  | cons a l ih =>
    obtain ⟨size, key⟩ := a
    simp only [holeLoop, exc_bind_ok] at h
    obtain ⟨vs, hvs, h⟩ := h
    obtain ⟨hs, hnd⟩ := keyOrder_sortedBy (k := key) hn hp
    have hmem : ∀ v ∈ (if prior ≠ some key then sortByKey key s.innerPoints else s.innerPoints),
        v ∈ s.innerPoints := by
      intro v hv
      split at hv
      · exact (sortByKey_perm key _).mem_iff.1 hv
      · exact hv
    generalize (if prior ≠ some key then sortByKey key s.innerPoints else s.innerPoints) = ps
      at hs hnd h hvs hmem
    have hv := toVertexSequence_mem hvs
    split at h
    · rename_i h3
      split at h
      · simp only [exc_throw_ok] at h
      · simp only [exc_bind_ok] at h
        obtain ⟨b, -, h⟩ := h
        have hpos : 0 < size.toNat := by
          rcases Nat.eq_zero_or_pos size.toNat with h0 | h0
          · exfalso
            obtain ⟨v, hvm⟩ := List.exists_mem_of_length_pos (l := vs) (by omega)
            have := hv v hvm
            rw [h0] at this
            simp at this
          · exact h0
        have hb := b2i_cases b
        have hlen : (ps.take size.toNat).length ≤ size.toNat := List.length_take_le _ _
        have cut : ∀ m : List (Point K),
            (∀ v ∈ m, v ∈ ps.drop (((ps.take size.toNat).length : Int) - b2i b).toNat) →
            Separated (reverseVertices vs) m := by
          intro m hm
          have hpl : 0 < (ps.take size.toNat).length := by
            obtain ⟨v, hvm⟩ := List.exists_mem_of_length_pos (l := vs) (by omega)
            exact List.length_pos_of_mem (hv v hvm)
          have ht : ps.take (ps.take size.toNat).length = ps.take size.toNat := by
            rw [List.length_take]
            rcases le_total size.toNat ps.length with hle | hle
            · rw [min_eq_left hle]
            · rw [min_eq_right hle, List.take_length, List.take_of_length_le hle]
          refine (sorted_cut hs hpl (j := (((ps.take size.toNat).length : Int) - b2i b).toNat)
            (by omega)).mono ?_ hm
          intro v hvm
          rw [ht]
          exact hv v (mem_reverseVertices.1 hvm)
        refine ih (by exact hnd.sublist (List.drop_sublist _ _)) ?_ ?_ ?_ h
        · intro k' hk'
          cases hk'
          exact hs.sublist (List.drop_sublist _ _)
        · refine List.pairwise_append.2 ⟨hh, by simp, ?_⟩
          intro c hc d hd
          simp only [List.mem_cons, List.not_mem_nil, or_false] at hd
          subst hd
          exact hx c hc _ fun v hvm =>
            hmem v (List.mem_of_mem_take (hv v (mem_reverseVertices.1 hvm)))
        · intro c hc m hm
          rcases List.mem_append.1 hc with hc | hc
          · exact hx c hc m fun v hvm => hmem v (List.mem_of_mem_drop (hm v hvm))
          · simp only [List.mem_cons, List.not_mem_nil, or_false] at hc
            subst hc
            exact cut m hm
    · refine ih (by exact hnd) ?_ (by exact hh) ?_ h
      · intro k' hk'
        cases hk'
        exact hs
      · exact fun c hc m hm => hx c hc m fun v hvm => hmem v (hm v hvm)

end
end HG
