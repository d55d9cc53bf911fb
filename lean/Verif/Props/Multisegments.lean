import Verif.Props.Mixes
import Verif.Props.Simplicity
import Verif.Props.SubSequence
import Verif.Lemmas.Compress2
import Verif.Lemmas.Segments

/-!
# Simple convex contours (C15) and multisegments (C17, C18)
-/

set_option linter.unusedSectionVars false

namespace HG

open Strategy Spec

section
variable {K : Type} [CommRing K] [LinearOrder K] [IsStrictOrderedRing K]

/-! ## Convex contours are simple -/

/-- In a strictly convex contour all other vertices are on the left of an edge. -/
theorem strictlyConvex_left {l : List (Point K)} (h : StrictlyConvex l) {i k : Nat}
    (hi : i < l.length) (hk : k < l.length) (h1 : k ≠ i) (h2 : k ≠ (i + 1) % l.length) :
    0 < area2 (cyc l i) (cyc l (i + 1)) (cyc l k) := by
  unfold cyc
  rw [Nat.mod_eq_of_lt hi, Nat.mod_eq_of_lt hk]
  by_cases hl : i + 1 < l.length
  · rw [Nat.mod_eq_of_lt hl] at h2 ⊢
    rcases Nat.lt_or_ge k i with hki | hki
    · rw [area2_rot]
      exact h.2 k i (i + 1) hki (by omega) hl
    · exact h.2 i (i + 1) k (by omega) (by omega) hk
  · have e : i + 1 = l.length := by omega
    rw [e, Nat.mod_self] at h2 ⊢
    rw [← area2_rot]
    exact h.2 0 k i (by omega) (by omega) hi

/-- A strictly convex contour is simple. -/
theorem strictlyConvex_simple {l : List (Point K)} (h : StrictlyConvex l) (h3 : 3 ≤ l.length) :
    SimpleContour l := by
  refine ⟨h3, fun i j hij hj p hp hq => ?_⟩
  have hcol : area2 (cyc l i) (cyc l (i + 1)) p = 0 := hp.1
  have base : area2 (cyc l i) (cyc l (i + 1)) (cyc l i) = 0 := by unfold area2; ring
  have base' : area2 (cyc l i) (cyc l (i + 1)) (cyc l (i + 1)) = 0 := by unfold area2; ring
  have hm : (i + 1) % l.length = i + 1 := Nat.mod_eq_of_lt (by omega)
  have cm : cyc l (j + 1) = cyc l ((j + 1) % l.length) := by
    unfold cyc; rw [Nat.mod_mod]
  by_cases h1 : j = i + 1
  · left
    refine ⟨h1, ?_⟩
    have hd : (j + 1) % l.length < l.length := Nat.mod_lt _ (by omega)
    have hne : (j + 1) % l.length ≠ i ∧ (j + 1) % l.length ≠ i + 1 := by
      rcases Nat.lt_or_ge (j + 1) l.length with k | k
      · rw [Nat.mod_eq_of_lt k]; omega
      · have : j + 1 = l.length := by omega
        rw [this, Nat.mod_self]; omega
    have := strictlyConvex_left h (i := i) (by omega) hd hne.1 (by rw [hm]; exact hne.2)
    rw [← cm] at this
    exact onSeg_off_line (a := cyc l i) (b := cyc l (i + 1)) hq hcol (by rw [h1]; exact base')
      this.ne'
  · have hc := strictlyConvex_left h (i := i) (k := j) (by omega) hj (by omega) (by omega)
    by_cases h2 : (j + 1) % l.length = i
    · right
      have hj1 : j + 1 = l.length := by
        by_contra hne
        rw [Nat.mod_eq_of_lt (by omega)] at h2
        omega
      have hi0 : i = 0 := by rw [hj1, Nat.mod_self] at h2; exact h2.symm
      refine ⟨hi0, hj1, ?_⟩
      have : p = cyc l (j + 1) := onSeg_off_line (a := cyc l i) (b := cyc l (i + 1))
        (onSeg_swap hq) hcol (by rw [cm, h2]; exact base) hc.ne'
      rw [this, cm, h2, hi0]
    · exfalso
      have hd := strictlyConvex_left h (i := i) (k := (j + 1) % l.length) (by omega)
        (Nat.mod_lt _ (by omega)) h2 (by
          rw [hm]
          rcases Nat.lt_or_ge (j + 1) l.length with k | k
          · rw [Nat.mod_eq_of_lt k]; omega
          · have : j + 1 = l.length := by omega
            rw [this, Nat.mod_self]; omega)
      rw [← cm] at hd
      exact onSeg_left_line (a := cyc l i) (b := cyc l (i + 1)) hq hcol hc hd

/-- C15 for `convex_contours`: the contours are simple. -/
theorem C15_convex_contours (env : Env K) (henv : ∀ pts, HullOk (env.convexHull pts) pts)
    (x : Strategy K) (y : Option (Strategy K)) (lo : Int) (hi : Option Int) (s : Made (Contour K))
    (hs : convexContours env x y lo hi = .ok s) (c : Contour K) (h : s.2.val c) :
    SimpleContour c.vertices ∧ StrictlyConvex c.vertices := by
  have hc := C07_convex env henv x y lo hi s hs c h
  have h3 := ((C10_contour_sizes env x y lo hi c).2.1 s hs h).1
  exact ⟨strictlyConvex_simple hc (by omega), hc⟩

/-! ## Where multisegments come from -/

/-- The branches of `multisegments`. -/
theorem segmentSequence_cases {env : Env K} {x : Strategy K} {y : Option (Strategy K)} {lo : Int}
    {hi : Option Int} (hlo : 2 ≤ lo) (hb : ∀ m, hi = some m → lo ≤ m) {l : List (Segment K)}
    (h : (toSegmentSequenceStrategy env x y lo hi).val l) :
    (∃ a b, x.val a ∧ (∀ c ∈ b, (yOr x y).val c) ∧ b.Nodup ∧ l = verticalMultisegment a b) ∨
    (∃ a b, (yOr x y).val a ∧ (∀ c ∈ b, x.val c) ∧ b.Nodup ∧ l = horizontalMultisegment b a) ∨
    (∃ vs, (toVertexSequenceStrategy env x (some (yOr x y)) (max lo 3) hi).val vs ∧
      (∀ m, hi = some m → 3 ≤ m) ∧ l.Subperm (contourEdges vs)) ∨
    ((∀ s ∈ l, (toSegmentStrategy x (some (yOr x y))).val s) ∧
      env.segmentsCrossOrOverlap l = false) := by
  have v1 : ∀ {a b}, ((prod x (uniqueLists (yOr x y) a b)).map
      fun p => verticalMultisegment p.1 p.2).val l → ∃ a b, x.val a ∧ (∀ c ∈ b, (yOr x y).val c) ∧
        b.Nodup ∧ l = verticalMultisegment a b := by
    rintro a b ⟨p, ⟨h1, h2⟩, rfl⟩
    exact ⟨p.1, p.2, h1, h2.1, h2.2.1, rfl⟩
  have v2 : ∀ {a b}, ((prod (uniqueLists x a b) (yOr x y)).map
      fun p => horizontalMultisegment p.1 p.2).val l → ∃ a b, (yOr x y).val a ∧
        (∀ c ∈ b, x.val c) ∧ b.Nodup ∧ l = horizontalMultisegment b a := by
    rintro a b ⟨p, ⟨h1, h2⟩, rfl⟩
    exact ⟨p.2, p.1, h2, h1.1, h1.2.1, rfl⟩
  have v3 : (((toVertexSequenceStrategy env x (some (yOr x y)) (max lo 3) hi).map
      contourEdges).bind (toSubSequenceStrategy lo)).val l →
      ∃ vs, (toVertexSequenceStrategy env x (some (yOr x y)) (max lo 3) hi).val vs ∧
        l.Subperm (contourEdges vs) := by
    rintro ⟨es, ⟨vs, hvs, rfl⟩, hl⟩
    exact ⟨vs, hvs, ((C44_sub_sequence lo (by omega) _ _).1 hl).1⟩
  have v4 : ((lists (toSegmentStrategy x (some (yOr x y))) lo hi).filter
      fun ss => !env.segmentsCrossOrOverlap ss).val l →
      (∀ s ∈ l, (toSegmentStrategy x (some (yOr x y))).val s) ∧
      env.segmentsCrossOrOverlap l = false := by
    rintro ⟨⟨h, -⟩, hf⟩
    exact ⟨h, by simpa using hf⟩
  unfold toSegmentSequenceStrategy at h
  cases hi with
  | none =>
    rcases h with ((h | h) | h) | h
    · exact .inl (v1 h)
    · exact .inr (.inl (v2 h))
    · obtain ⟨vs, a, b⟩ := v3 h
      exact .inr (.inr (.inl ⟨vs, a, by simp, b⟩))
    · exact .inr (.inr (.inr (v4 h)))
  | some m =>
    have := hb m rfl
    dsimp only at h
    rw [if_neg (by omega)] at h
    split at h
    · rename_i h3
      rcases h with ((h | h) | h) | h
      · exact .inl (v1 h)
      · exact .inr (.inl (v2 h))
      · obtain ⟨vs, a, b⟩ := v3 h
        exact .inr (.inr (.inl ⟨vs, a, fun m' e => by cases e; exact h3, b⟩))
      · exact .inr (.inr (.inr (v4 h)))
    · rcases h with (h | h) | h
      · exact .inl (v1 h)
      · exact .inr (.inl (v2 h))
      · exact .inr (.inr (.inr (v4 h)))

/-- Edges of a contour by index. -/
theorem contourEdges_edge {vs : List (Point K)} {s : Segment K} (h : s ∈ contourEdges vs) :
    ∃ i < vs.length, s = edge vs i := by
  unfold contourEdges at h
  obtain ⟨i, hi, rfl⟩ := List.mem_map.1 h
  rw [List.mem_range] at hi
  cases i with
  | zero =>
    refine ⟨vs.length - 1, by omega, ?_⟩
    rw [show ((0 : Nat) : Int) - 1 = -((1 : Nat) : Int) by rfl, pyAt_neg _ _ (by omega) (by omega),
      pyAt_nonneg]
    unfold edge cyc
    rw [Nat.mod_eq_of_lt (a := vs.length - 1) (by omega),
      show vs.length - 1 + 1 = vs.length by omega, Nat.mod_self]
  | succ i =>
    refine ⟨i, by omega, ?_⟩
    rw [show ((i + 1 : Nat) : Int) - 1 = (i : Int) by omega, pyAt_nonneg, pyAt_nonneg]
    unfold edge cyc
    rw [Nat.mod_eq_of_lt hi, Nat.mod_eq_of_lt (a := i) (by omega)]

/-- Neighbouring vertices of generated contours differ. -/
theorem vertexSequence_noStall {env : Env K} (henv : ∀ pts, HullOk (env.convexHull pts) pts)
    {x : Strategy K} {y : Option (Strategy K)} {lo : Int} {hi : Option Int} (hlo : 3 ≤ lo)
    (hb : ∀ m, hi = some m → lo ≤ m) {vs : List (Point K)}
    (h : (toVertexSequenceStrategy env x y lo hi).val vs) : NoStall vs := by
  have h3 : 3 ≤ vs.length := by
    have := (vertexSequence_size ⟨hlo, hb⟩ h).1
    omega
  have nd : vs.Nodup → NoStall vs := by
    intro hn i hi he
    unfold cyc at he
    rw [List.getD_eq_getElem _ _ (Nat.mod_lt _ (by omega)),
      List.getD_eq_getElem _ _ (Nat.mod_lt _ (by omega))] at he
    have := (List.Nodup.getElem_inj_iff hn).1 he
    rw [Nat.mod_eq_of_lt hi] at this
    rcases Nat.lt_or_ge (i + 1) vs.length with k | k
    · rw [Nat.mod_eq_of_lt k] at this; omega
    · have e : i + 1 = vs.length := by omega
      rw [e, Nat.mod_self] at this; omega
  rcases h with h | h | h
  · rcases convexStrategy_cases h with h | h | ⟨pts, r, cand, -, -, -, rfl⟩
    · simp only [toTriangularStrategy, val_map, val_filter] at h
      obtain ⟨t, ⟨-, ht⟩, rfl⟩ := h
      exact nd (toCcwTriplet_strictlyConvex ht).1
    · simp only [toRectangularStrategy, val_map] at h
      obtain ⟨b, hb, rfl⟩ := h
      have := box_drawn hb
      exact nd (box_strictlyConvex this.1 this.2.1).1
    · exact nd (henv cand).convex.1
  · exact nd (star_val hlo h).1
  · obtain ⟨h, -⟩ := h
    rw [val_mapE] at h
    obtain ⟨⟨pts, n⟩, -, h⟩ := h
    simp only [toVertexSequence, exc_bind_ok] at h
    obtain ⟨⟨m, t⟩, -, es, -, h⟩ := h
    unfold toVertexSequence' at h
    dsimp only at h
    split at h
    · rename_i hs
      simp only [exc_pure_ok] at h
      subst h
      omega
    · simp only [exc_bind_ok] at h
      obtain ⟨b, -, s, -, ec, -, eb, -, s', -, h⟩ := h
      simp only [triToBorderVertices, exc_bind_ok, exc_pure_ok] at h
      obtain ⟨es', -, rfl⟩ := h
      rcases compressContour_noStall (es'.map s'.mesh.start) with k | k
      · omega
      · exact k

/-! ## C17 -/

theorem pairwise_lt {l : List K} (h : l.Pairwise (· < ·)) :
    (∀ p ∈ pairwise l, p.1 < p.2) ∧ (pairwise l).Pairwise fun p q => p.2 ≤ q.1 := by
  induction l with
  | nil => simp [pairwise]
  | cons a l ih =>
    cases l with
    | nil => simp [pairwise]
    | cons b l =>
      obtain ⟨h1, h2⟩ := ih (List.pairwise_cons.1 h).2
      have hab := (List.pairwise_cons.1 h).1 b (by simp)
      have hb := (List.pairwise_cons.1 (List.pairwise_cons.1 h).2).1
      have e : pairwise (a :: b :: l) = (a, b) :: pairwise (b :: l) := by simp [pairwise]
      rw [e]
      refine ⟨?_, List.pairwise_cons.2 ⟨?_, h2⟩⟩
      · intro p hp
        rcases List.mem_cons.1 hp with rfl | hp
        · exact hab
        · exact h1 p hp
      · intro q hq
        have := (pairwise_mem hq).1
        rcases List.mem_cons.1 this with e | e
        · rw [e]
        · exact (hb _ e).le

theorem validate_max {lo : Int} {hi : Option Int} {least : Int} (h0 : 0 ≤ least)
    (hb : ∀ m, hi = some m → max lo least ≤ m) :
    validateSizes (max lo least) hi least = .ok [] := by
  rw [validate_ok]
  constructor
  · rintro ⟨m, rfl, h⟩
    have := hb m rfl
    omega
  · unfold lowWarning
    rw [if_neg (by omega)]

theorem convexContours_ok {env : Env K} {x : Strategy K} {y : Option (Strategy K)} {lo : Int}
    {hi : Option Int} (hb : ∀ m, hi = some m → max lo 3 ≤ m) :
    convexContours env x y (max lo 3) hi =
      .ok ([], (toConvexStrategy env x y (max (max lo 3) 3) hi).map Contour.mk) := by
  unfold convexContours
  rw [validate_max (by norm_num) hb]
  rfl

theorem contours_ok {env : Env K} {x : Strategy K} {y : Option (Strategy K)} {lo : Int}
    {hi : Option Int} (hb : ∀ m, hi = some m → max lo 3 ≤ m) :
    contours env x y (max lo 3) hi =
      .ok ([], (toVertexSequenceStrategy env x y (max (max lo 3) 3) hi).map Contour.mk) := by
  unfold contours
  rw [validate_max (by norm_num) hb]
  rfl

/-- C17: a multisegment has the requested number of segments, each with different endpoints; they
are made of drawn coordinates, unless they are edges of a contour of `convex_contours`. -/
theorem C17_multisegments (env : Env K) (henv : ∀ pts, HullOk (env.convexHull pts) pts)
    (x : Strategy K) (y : Option (Strategy K)) (lo : Int) (hi : Option Int)
    (s : Made (List (Segment K))) (hs : multisegments env x y lo hi = .ok s)
    (l : List (Segment K)) (h : s.2.val l) :
    SizeIn (max lo 2) hi l.length ∧ (∀ t ∈ l, t.start ≠ t.stop) ∧
    ((∀ t ∈ l, Drawn x y t.start ∧ Drawn x y t.stop) ∨
      ∃ r c, convexContours env x (some (y.getD x)) (max lo 3) hi = .ok r ∧ r.2.val c ∧
        ∀ t ∈ l, ∃ i < c.vertices.length, t = edge c.vertices i) := by
  refine ⟨C17_multisegment_sizes env x y lo hi s hs l h, ?_⟩
  simp only [multisegments, exc_bind_ok, exc_pure_ok, validate_ok] at hs
  obtain ⟨w, ⟨hb, rfl⟩, rfl⟩ := hs
  obtain ⟨b1, b2⟩ := okBounds_of hb
  have hdr : ∀ v, Drawn x (some (yOr x y)) v ↔ Drawn x y v := fun v => by
    rw [drawn_iff, drawn_iff]
    rfl
  rcases segmentSequence_cases (le_max_right _ _) b2 h with
    ⟨a, b, ha, hb, hn, rfl⟩ | ⟨a, b, ha, hb, hn, rfl⟩ | ⟨vs, hv, h3, hp⟩ | ⟨h, -⟩
  · have hlt := (pairwise_lt (sortCoords_lt b hn)).1
    refine ⟨?_, .inl ?_⟩ <;> intro t ht <;> obtain ⟨q, hq, rfl⟩ := List.mem_map.1 ht
    · intro e
      exact (hlt q hq).ne (congrArg Point.y e)
    · obtain ⟨q1, q2⟩ := pairwise_mem hq
      exact ⟨drawn_iff.2 ⟨ha, hb _ ((sortCoords_perm _).mem_iff.1 q1)⟩,
        drawn_iff.2 ⟨ha, hb _ ((sortCoords_perm _).mem_iff.1 q2)⟩⟩
  · have hlt := (pairwise_lt (sortCoords_lt b hn)).1
    refine ⟨?_, .inl ?_⟩ <;> intro t ht <;> obtain ⟨q, hq, rfl⟩ := List.mem_map.1 ht
    · intro e
      exact (hlt q hq).ne (congrArg Point.x e)
    · obtain ⟨q1, q2⟩ := pairwise_mem hq
      exact ⟨drawn_iff.2 ⟨hb _ ((sortCoords_perm _).mem_iff.1 q1), ha⟩,
        drawn_iff.2 ⟨hb _ ((sortCoords_perm _).mem_iff.1 q2), ha⟩⟩
  · have e3 : max (max lo 2) 3 = max lo 3 := by omega
    rw [e3] at hv
    have hb3 : ∀ m, hi = some m → max lo 3 ≤ m := fun m e => by
      have := b2 m e; have := h3 m e; omega
    have hns := vertexSequence_noStall henv (le_max_right _ _) hb3 hv
    have hed : ∀ t ∈ l, ∃ i < vs.length, t = edge vs i := fun t ht =>
      contourEdges_edge (hp.subset ht)
    refine ⟨?_, ?_⟩
    · intro t ht
      obtain ⟨i, hi, rfl⟩ := hed t ht
      exact hns i hi
    · rcases hv with hv | hv
      · right
        refine ⟨([], (toConvexStrategy env x (some (y.getD x)) (max (max lo 3) 3) hi).map
          Contour.mk), ⟨vs⟩, convexContours_ok hb3, ⟨vs, ?_, rfl⟩, hed⟩
        rw [max_eq_left (le_max_right _ _)]
        cases y <;> exact hv
      · left
        intro t ht
        obtain ⟨e1, e2⟩ := contourEdges_mem (hp.subset ht)
        exact ⟨(hdr _).1 (vertexSequences_drawn (le_max_right _ _) hv _ e1),
          (hdr _).1 (vertexSequences_drawn (le_max_right _ _) hv _ e2)⟩
  · have : ∀ t ∈ l, t.start ≠ t.stop ∧ Drawn x y t.start ∧ Drawn x y t.stop := by
      intro t ht
      obtain ⟨r, hr, hg⟩ := C03_segments x (some (yOr x y))
      simp only [segments, exc_pure_ok, Prod.mk.injEq, true_and] at hr
      subst hr
      obtain ⟨g1, g2, g3⟩ := (hg t).1 (h t ht)
      exact ⟨g3, (hdr _).1 g1, (hdr _).1 g2⟩
    exact ⟨fun t ht => (this t ht).1, .inl fun t ht => (this t ht).2⟩

/-! ## C18 -/

/-- Segments on one axis-parallel line, one after another, do not cross. -/
theorem noCross_vertical {x a b c d : K} (hab : a < b) (hbc : b ≤ c) (hcd : c < d) :
    NoCross (⟨⟨x, a⟩, ⟨x, b⟩⟩ : Segment K) ⟨⟨x, c⟩, ⟨x, d⟩⟩ := by
  have key : ∀ p : Point K, OnSeg ⟨⟨x, a⟩, ⟨x, b⟩⟩ p → OnSeg ⟨⟨x, c⟩, ⟨x, d⟩⟩ p → p = ⟨x, b⟩ := by
    rintro ⟨px, py⟩ ⟨-, h1, h2, h3, h4⟩ ⟨-, -, -, h5, h6⟩
    dsimp only at *
    rw [min_self] at h1
    rw [max_self] at h2
    rw [max_eq_right hab.le] at h4
    rw [min_eq_left hcd.le] at h5
    rw [Point.mk.injEq]
    exact ⟨le_antisymm h2 h1, le_antisymm h4 (hbc.trans h5)⟩
  exact ⟨fun p h1 h2 => .inl (.inr (key p h1 h2)), fun p q h1 h2 h3 h4 => by
    rw [key p h1 h2, key q h3 h4]⟩

/-- See `noCross_vertical`. -/
theorem noCross_horizontal {y a b c d : K} (hab : a < b) (hbc : b ≤ c) (hcd : c < d) :
    NoCross (⟨⟨a, y⟩, ⟨b, y⟩⟩ : Segment K) ⟨⟨c, y⟩, ⟨d, y⟩⟩ := by
  have key : ∀ p : Point K, OnSeg ⟨⟨a, y⟩, ⟨b, y⟩⟩ p → OnSeg ⟨⟨c, y⟩, ⟨d, y⟩⟩ p → p = ⟨b, y⟩ := by
    rintro ⟨px, py⟩ ⟨-, h1, h2, h3, h4⟩ ⟨-, h5, h6, -, -⟩
    dsimp only at *
    rw [min_self] at h3
    rw [max_self] at h4
    rw [max_eq_right hab.le] at h2
    rw [min_eq_left hcd.le] at h5
    rw [Point.mk.injEq]
    exact ⟨le_antisymm h2 (hbc.trans h5), le_antisymm h4 h3⟩
  exact ⟨fun p h1 h2 => .inl (.inr (key p h1 h2)), fun p q h1 h2 h3 h4 => by
    rw [key p h1 h2, key q h3 h4]⟩

/-- Edges of a simple contour do not cross. -/
theorem simple_noCross {l : List (Point K)} (h : SimpleContour l) {i j : Nat} (hij : i < j)
    (hj : j < l.length) : NoCross (edge l i) (edge l j) := by
  have key := h.2 i j hij hj
  refine ⟨fun p h1 h2 => ?_, fun p q h1 h2 h3 h4 => ?_⟩
  · rcases key p h1 h2 with ⟨-, e⟩ | ⟨e0, -, e⟩
    · exact .inr (.inl e)
    · left; left
      rw [e, e0]; rfl
  · have h3l := h.1
    rcases key p h1 h2 with ⟨e, e'⟩ | ⟨e0, e1, e'⟩ <;>
      rcases key q h3 h4 with ⟨f, f'⟩ | ⟨f0, f1, f'⟩
    · rw [e', f']
    · omega
    · omega
    · rw [e', f']

/-- The edges of a simple contour, in the order of `contourEdges`. -/
theorem contourEdges_noCross {l : List (Point K)} (h : SimpleContour l) :
    (contourEdges l).Pairwise NoCross := by
  have h3 := h.1
  have e : contourEdges l = (List.range l.length).map fun i => edge l ((i + (l.length - 1)) % l.length) := by
    unfold contourEdges
    refine List.map_congr_left fun i hi => ?_
    rw [List.mem_range] at hi
    unfold edge cyc
    rw [Nat.mod_mod, pyAt_nonneg]
    cases i with
    | zero =>
      rw [show ((0 : Nat) : Int) - 1 = -((1 : Nat) : Int) by rfl,
        pyAt_neg _ _ (by omega) (by omega), Nat.zero_add,
        Nat.mod_eq_of_lt (a := l.length - 1) (by omega),
        show l.length - 1 + 1 = l.length by omega, Nat.mod_self]
    | succ i =>
      rw [show ((i + 1 : Nat) : Int) - 1 = (i : Int) by omega, pyAt_nonneg,
        show i + 1 + (l.length - 1) = i + l.length by omega, Nat.add_mod_right,
        Nat.mod_eq_of_lt (a := i) (by omega), Nat.mod_eq_of_lt hi]
  rw [e, List.pairwise_map]
  refine (List.pairwise_lt_range).imp_of_mem ?_
  intro i j hi hj hij
  rw [List.mem_range] at hi hj
  have m1 : ∀ k, 0 < k → k < l.length → (k + (l.length - 1)) % l.length = k - 1 := by
    intro k k0 k1
    rw [show k + (l.length - 1) = (k - 1) + l.length by omega, Nat.add_mod_right,
      Nat.mod_eq_of_lt (by omega)]
  rw [m1 j (by omega) hj]
  rcases Nat.eq_zero_or_pos i with rfl | h0
  · rw [Nat.zero_add, Nat.mod_eq_of_lt (a := l.length - 1) (by omega)]
    exact NoCross.symm (simple_noCross h (by omega) (by omega))
  · rw [m1 i h0 hi]
    exact simple_noCross h (by omega) (by omega)

/-- C18, what holds: given that the dependency finds crossings and overlaps of proper segments, two segments of a
multisegment may cross or overlap only if all segments are edges of one contour of `contours` that
crosses itself (which does happen, see `C18_multisegments_cross`). -/
theorem C18_multisegments_partial (env : Env K)
    (hcross : ∀ l : List (Segment K), (∀ t ∈ l, t.start ≠ t.stop) →
      env.segmentsCrossOrOverlap l = false → l.Pairwise NoCross)
    (x : Strategy K) (y : Option (Strategy K)) (lo : Int) (hi : Option Int)
    (s : Made (List (Segment K))) (hs : multisegments env x y lo hi = .ok s)
    (l : List (Segment K)) (h : s.2.val l) :
    l.Pairwise NoCross ∨
      ∃ r c, contours env x (some (y.getD x)) (max lo 3) hi = .ok r ∧ r.2.val c ∧
        ¬ SimpleContour c.vertices ∧ ¬ StrictlyConvex c.vertices ∧
        ∀ t ∈ l, ∃ i < c.vertices.length, t = edge c.vertices i := by
  simp only [multisegments, exc_bind_ok, exc_pure_ok, validate_ok] at hs
  obtain ⟨w, ⟨hb, rfl⟩, rfl⟩ := hs
  obtain ⟨b1, b2⟩ := okBounds_of hb
  rcases segmentSequence_cases (le_max_right _ _) b2 h with
    ⟨a, b, ha, hb, hn, rfl⟩ | ⟨a, b, ha, hb, hn, rfl⟩ | ⟨vs, hv, h3, hp⟩ | ⟨hg, h⟩
  · left
    obtain ⟨h1, h2⟩ := pairwise_lt (sortCoords_lt b hn)
    unfold verticalMultisegment
    rw [List.pairwise_map]
    exact h2.imp_of_mem fun {p q} hp hq hpq => noCross_vertical (h1 p hp) hpq (h1 q hq)
  · left
    obtain ⟨h1, h2⟩ := pairwise_lt (sortCoords_lt b hn)
    unfold horizontalMultisegment
    rw [List.pairwise_map]
    exact h2.imp_of_mem fun {p q} hp hq hpq => noCross_horizontal (h1 p hp) hpq (h1 q hq)
  · have e3 : max (max lo 2) 3 = max lo 3 := by omega
    rw [e3] at hv
    have hb3 : ∀ m, hi = some m → max lo 3 ≤ m := fun m e => by
      have := b2 m e; have := h3 m e; omega
    by_cases hsim : SimpleContour vs
    · left
      obtain ⟨l', hl', hsub⟩ := hp
      have := (contourEdges_noCross hsim).sublist hsub
      exact (hl'.pairwise_iff (fun {a b} h => NoCross.symm h)).1 this
    · right
      have h3l := (vertexSequence_size ⟨le_max_right _ _, hb3⟩ hv).1
      refine ⟨_, ⟨vs⟩, contours_ok hb3, ⟨vs, ?_, rfl⟩, hsim, fun hc => hsim
        (strictlyConvex_simple hc (by omega)), fun t ht => contourEdges_edge (hp.subset ht)⟩
      rw [max_eq_left (le_max_right _ _)]
      cases y <;> exact hv
  · refine .inl (hcross l (fun t ht => ?_) h)
    obtain ⟨r, hr, hq⟩ := C03_segments x (some (yOr x y))
    simp only [segments, exc_pure_ok, Prod.mk.injEq, true_and] at hr
    subst hr
    exact ((hq t).1 (hg t ht)).2.2

end

/-! ## Concrete cases -/

section
open Sample

/-- The concrete environment finds crossings and overlaps. -/
theorem sample_cross (l : List (Segment ℤ)) (hl : ∀ t ∈ l, t.start ≠ t.stop)
    (h : env.segmentsCrossOrOverlap l = false) : l.Pairwise NoCross := by
  change crossOrOverlap l = false at h
  induction l with
  | nil => exact List.Pairwise.nil
  | cons s l ih =>
    rw [crossOrOverlap, Bool.or_eq_false_iff] at h
    refine List.pairwise_cons.2 ⟨fun t ht => ?_, ih (fun t ht => hl t (List.mem_cons_of_mem _ ht))
      h.2⟩
    refine noCross_of_test (hl s (by simp)) (hl t (List.mem_cons_of_mem _ ht)) ?_
    have := List.any_eq_false.1 h.1 t ht
    simpa using this

/-- Two segments of the free branch: the hypotheses of C17 and C18 are met. -/
theorem sample_multisegments : ∃ s, multisegments env (sampledFrom [0, 1, 5]) none 1 none = .ok s ∧
    s.2.val [⟨⟨0, 0⟩, ⟨1, 5⟩⟩, ⟨⟨5, 0⟩, ⟨1, 5⟩⟩] := by
  refine ⟨_, rfl, Or.inr ⟨⟨?_, by decide, trivial⟩, by decide⟩⟩
  intro t ht
  have := C03_segments (sampledFrom [(0 : ℤ), 1, 5]) (some (yOr (sampledFrom [0, 1, 5]) none))
  obtain ⟨r, hr, hq⟩ := this
  simp only [segments, exc_pure_ok, Prod.mk.injEq, true_and] at hr
  subst hr
  refine (hq t).2 ?_
  simp only [List.mem_cons, List.not_mem_nil, or_false] at ht
  rcases ht with rfl | rfl <;> simp [yOr]

example : ([⟨⟨0, 0⟩, ⟨1, 5⟩⟩, ⟨⟨5, 0⟩, ⟨1, 5⟩⟩] : List (Segment ℤ)).Pairwise NoCross := by
  obtain ⟨s, hs, h⟩ := sample_multisegments
  rcases C18_multisegments_partial env sample_cross _ _ _ _ s hs _ h with h | ⟨r, c, -, -, hc, -⟩
  · exact h
  · exact sample_cross _ (by simp) (by decide)

/-- C15 and C17 applied to the draws above. -/
example : SimpleContour ([⟨0, 3⟩, ⟨2, 1⟩, ⟨4, 0⟩, ⟨5, 1⟩, ⟨6, 3⟩, ⟨4, 4⟩, ⟨2, 4⟩] :
    List (Point ℤ)) := by
  obtain ⟨h, s, hs, hv⟩ := sample_convex
  exact (C15_convex_contours env h _ _ _ _ s hs _ hv).1

example : ∃ s, multisegments env (sampledFrom [0, 1, 5]) none 1 none = .ok s ∧
    ∃ l, s.2.val l ∧ SizeIn 2 none l.length ∧ ∀ t ∈ l, t.start ≠ t.stop := by
  obtain ⟨s, hs, h⟩ := sample_multisegments
  have := C17_multisegments env sample_hullOk _ _ _ _ s hs _ h
  exact ⟨s, hs, _, h, this.1, this.2.1⟩

end
end HG
