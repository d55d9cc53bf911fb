import Verif.Lemmas.Feasible
import Verif.Props.Mixes

/-!
# C36, C37, C38: drawing does not fail for lack of room

Drawing from a strategy may only fail when the geometric construction itself fails
(`Spec.ContourFails`, `Spec.PolygonFails`), and then it was given enough drawn points for the
requested numbers of vertices.  In particular no integer range is empty, no collection to sample from is
empty, and no size or coordinate is missing.
-/

set_option linter.unusedSectionVars false

namespace HG

open Strategy Spec

section
variable {K : Type} [CommRing K] [LinearOrder K] [IsStrictOrderedRing K]

/-! ## Contours -/

theorem splitEnds_error {l : List K} (h : 2 ≤ l.length) (e : Exc) : splitEnds l ≠ .error e := by
  match l, h with
  | a :: b :: l, _ =>
    unfold splitEnds
    cases hl : (b :: l).getLast? with
    | none => simp at hl
    | some c => simp [hl, exc_pure_error]

theorem convexVertexSequence_error {env : Env K} {pts : List (Point K)} {r : ConvexRandom K}
    (h : 2 ≤ pts.length) (e : Exc) : toConvexVertexSequence env pts r ≠ .error e := by
  intro he
  have hx : ∀ f : Point K → K, 2 ≤ (pySort (fun a b => decide (a ≤ b)) (pts.map f)).length := by
    intro f
    rw [(pySort_perm _ _).length_eq, List.length_map]
    exact h
  simp only [toConvexVertexSequence, convexCandidates, exc_bind_error, exc_pure_error, and_false,
    exists_false, or_false] at he
  rcases he with he | ⟨_, _, he⟩
  · exact splitEnds_error (hx _) e he
  · exact splitEnds_error (hx _) e he

theorem point_err {x : Strategy K} {y : Option (Strategy K)} {n m : Int} (hx : Rich x n)
    (hy : Rich (y.getD x) m) (e : Exc) : ¬ (toPointStrategy x y).err e := by
  simp only [toPointStrategy, err_map, err_prod, yOr]
  rintro (h | ⟨-, h⟩)
  · exact hx.ok e h
  · exact hy.ok e h

theorem uniqueLists_err {x : Strategy K} {lo : Int} {hi : Option Int} (hx : Rich x lo)
    (hb : leOpt lo hi) (e : Exc) : ¬ (uniqueLists x lo hi).err e := by
  simp only [err_uniqueLists]
  rintro (h | ⟨h, -⟩ | ⟨h, -⟩)
  · exact hx.ok e h
  · exact h hb
  · exact h hx.many

theorem triangular_err {x : Strategy K} {y : Option (Strategy K)} {n m : Int} (hx : Rich x n)
    (hy : Rich (y.getD x) m) (e : Exc) : ¬ (toTriangularStrategy x y).err e := by
  have := point_err hx hy e
  simp only [toTriangularStrategy, err_map, err_filter, err_prod]
  rintro (h | ⟨-, h | ⟨-, h⟩⟩) <;> exact this h

theorem rectangular_err {x : Strategy K} {y : Option (Strategy K)} (hx : Rich x 2)
    (hy : Rich (y.getD x) 2) (e : Exc) : ¬ (toRectangularStrategy x y).err e := by
  have key : ∀ {s : Strategy K}, Rich s 2 → ¬ ((uniqueLists s 2 (some 2)).mapE sortPairList).err e := by
    intro s hs
    rw [err_mapE]
    rintro (h | ⟨l, hl, h⟩)
    · exact uniqueLists_err hs (by simp) e h
    · have h2 : l.length = 2 := by
        have h1 := hl.2.2.1; have h2 := hl.2.2.2; rw [leOpt_some] at h2; omega
      match l, h2 with
      | [a, b], _ => simp [sortPairList, exc_pure_error] at h
  simp only [toRectangularStrategy, toBoxStrategy, err_map, err_prod, yOr]
  rintro (h | ⟨-, h⟩)
  · exact key hx h
  · exact key hy h

theorem vertexSequences_err {env : Env K} {x : Strategy K} {y : Option (Strategy K)} {lo : Int}
    {hi : Option Int} (h3 : 3 ≤ lo) (hb : ∀ m, hi = some m → lo ≤ m) {p : ℕ} (hp : p.Prime)
    (h5 : 5 ≤ p) (hpl : lo ≤ p) (hx : Rich x p) (hy : Rich (y.getD x) p) {e : Exc}
    (h : (toVertexSequences env x y lo hi).err e) : ContourFails env (Drawn x y) e := by
  have hgp := generalPosition_err (hi := hi) h3 hp h5 hpl hx hy e
  simp only [toVertexSequences, toStarStrategy, err_or, err_filter, err_map, err_mapE, err_bind',
    err_prod, err_just, val_bind', val_prod, val_just, err_integers, val_integers, hgp,
    false_or] at h
  rcases h with ⟨pts, hpts, -, h, -⟩ | ⟨⟨q, n⟩, ⟨pts, hpts, rfl, h1, h2⟩, h⟩
  · obtain ⟨-, -, hlen, -⟩ := C35_distinct x y lo hi h3 pts hpts
    have : lo ≤ minOpt (pts.length : Int) hi := by
      cases hi with
      | none => exact hlen
      | some m => exact le_min hlen (hb m rfl)
    omega
  · obtain ⟨hn, -⟩ := C35_distinct x y lo hi h3 q hpts
    dsimp only at h1 h2 h
    refine ⟨q, n, generalPosition_scattered h3 hpts, by omega, ?_, h⟩
    cases hi with
    | none => exact h2
    | some m => exact h2.trans (min_le_left _ _)

/-- Drawing a convex contour does not fail. -/
theorem convexStrategy_err {env : Env K} {x : Strategy K} {y : Option (Strategy K)} {lo : Int}
    {hi : Option Int} (h3 : 3 ≤ lo) {p : ℕ} (hp : p.Prime)
    (h5 : 5 ≤ p) (hpl : lo ≤ p) (hx : Rich x p) (hy : Rich (y.getD x) p) (e : Exc) :
    ¬ (toConvexStrategy env x y lo hi).err e := by
  intro h
  have ht := triangular_err hx hy e
  have hr := rectangular_err (hx.mono (by omega)) (hy.mono (by omega)) e
  have hbig : ¬ (((prod (toGeneralPositionStrategy x y lo hi) convexRandoms).mapE
      fun p => toConvexVertexSequence env p.1 p.2).filter
      fun vs => hasValidSize lo hi vs.length).err e := by
    simp only [err_filter, err_mapE, err_prod, val_prod]
    rintro ((h | ⟨-, h⟩) | ⟨⟨pts, r⟩, ⟨hpts, -⟩, h⟩)
    · exact generalPosition_err h3 hp h5 hpl hx hy e h
    · exact h
    · exact convexVertexSequence_error (C35_distinct x y lo hi h3 pts hpts).2.1.two_le e h
  have or' : ∀ {a b : Strategy (List (Point K))}, ¬ a.err e → ¬ b.err e → ¬ (a ||| b).err e :=
    fun ha hb h => h.elim ha hb
  unfold toConvexStrategy at h
  dsimp only at h
  have h1 : ¬ (if lo ≤ 4 then toRectangularStrategy x y |||
      (((prod (toGeneralPositionStrategy x y lo hi) convexRandoms).mapE
      fun p => toConvexVertexSequence env p.1 p.2).filter
      fun vs => hasValidSize lo hi vs.length) else
      (((prod (toGeneralPositionStrategy x y lo hi) convexRandoms).mapE
      fun p => toConvexVertexSequence env p.1 p.2).filter
      fun vs => hasValidSize lo hi vs.length)).err e := by
    split
    · exact or' hr hbig
    · exact hbig
  cases hi with
  | none =>
    dsimp only at h
    split at h
    · exact or' ht h1 h
    · exact h1 h
  | some m =>
    dsimp only at h
    split at h
    · exact ht h
    · split at h
      · exact or' ht h1 h
      · exact h1 h

theorem vertexSequence_err {env : Env K} {x : Strategy K} {y : Option (Strategy K)} {lo : Int}
    {hi : Option Int} (h3 : 3 ≤ lo) (hb : ∀ m, hi = some m → lo ≤ m) {p : ℕ} (hp : p.Prime)
    (h5 : 5 ≤ p) (hpl : lo ≤ p) (hx : Rich x p) (hy : Rich (y.getD x) p) {e : Exc}
    (h : (toVertexSequenceStrategy env x y lo hi).err e) : ContourFails env (Drawn x y) e := by
  rcases h with h | h
  · exact absurd h (convexStrategy_err h3 hp h5 hpl hx hy e)
  · exact vertexSequences_err h3 hb hp h5 hpl hx hy h

/-! ## Multisegments -/

theorem segment_err {x : Strategy K} {y : Option (Strategy K)} {n m : Int} (hx : Rich x n)
    (hy : Rich (y.getD x) m) (e : Exc) : ¬ (toSegmentStrategy x y).err e := by
  have := point_err hx hy e
  simp only [toSegmentStrategy, err_map, err_filter, err_prod]
  rintro (h | ⟨-, h⟩) <;> exact this h

theorem segmentSequence_err {env : Env K} {x y : Strategy K} {lo : Int} {hi : Option Int}
    (h1 : 1 ≤ lo) (hb : ∀ m, hi = some m → lo ≤ m) (hx : Rich x (lo + 1)) (hy : Rich y (lo + 1))
    (hprime : (∀ m, hi = some m → 3 ≤ m) → ∃ p : ℕ, p.Prime ∧ 5 ≤ p ∧ lo ≤ p ∧ Rich x p ∧ Rich y p)
    {e : Exc} (h : (toSegmentSequenceStrategy env x (some y) lo hi).err e) :
    ContourFails env (Drawn x (some y)) e := by
  have hle : leOpt (lo + 1) (hi.map (· + 1)) := by
    cases hi with
    | none => trivial
    | some m => have := hb m rfl; simpa using this
  have hle' : leOpt lo hi := by
    cases hi with
    | none => trivial
    | some m => have := hb m rfl; simpa using this
  have hv : ¬ ((prod x (uniqueLists y (lo + 1) (hi.map (· + 1)))).map
      fun p => verticalMultisegment p.1 p.2).err e := by
    rw [err_map, err_prod]
    rintro (h | ⟨-, h⟩)
    · exact hx.ok e h
    · exact uniqueLists_err hy hle e h
  have hh : ¬ ((prod (uniqueLists x (lo + 1) (hi.map (· + 1))) y).map
      fun p => horizontalMultisegment p.1 p.2).err e := by
    rw [err_map, err_prod]
    rintro (h | ⟨-, h⟩)
    · exact uniqueLists_err hx hle e h
    · exact hy.ok e h
  have hs : ¬ (toSegmentStrategy x (some y)).err e := segment_err hx (y := some y) hy e
  have hf : ¬ ((lists (toSegmentStrategy x (some y)) lo hi).filter
      fun ss => !env.segmentsCrossOrOverlap ss).err e := by
    rw [err_filter, err_lists]
    rintro (h | ⟨h, -⟩)
    · exact hs h
    · exact h hle'
  have hc : (∀ m, hi = some m → 3 ≤ m) →
      (((toVertexSequenceStrategy env x (some y) (max lo 3) hi).map
      contourEdges).bind (toSubSequenceStrategy lo)).err e → ContourFails env (Drawn x (some y)) e := by
    intro hm h
    obtain ⟨p, hp, h5, hpl, hxp, hyp⟩ := hprime hm
    rw [err_bind'] at h
    rcases h with h | ⟨es, ⟨vs, hvs, rfl⟩, h⟩
    · exact vertexSequence_err (y := some y) (le_max_right _ _)
        (fun m e => max_le (hb m e) (hm m e)) hp h5 (max_le hpl (by omega)) hxp hyp h
    · exfalso
      have hsz : max lo 3 ≤ (vs.length : Int) :=
        (vertexSequence_size ⟨le_max_right _ _, fun m e => max_le (hb m e) (hm m e)⟩ hvs).1
      simp only [toSubSequenceStrategy, err_map, err_prod, err_permutations, err_integers,
        contourEdges_length, false_or] at h
      have := le_max_left lo 3
      omega
  unfold toSegmentSequenceStrategy at h
  simp only [yOr, Option.getD_some] at h
  cases hi with
  | none =>
    dsimp only at h
    rcases h with ((h | h) | h) | h
    exacts [absurd h hv, absurd h hh, hc (by simp) h, absurd h hf]
  | some m =>
    dsimp only at h
    have hm := hb m rfl
    split at h
    · split at h
      · exact absurd h hs
      · exact absurd h (by simp)
    · split at h
      · rcases h with ((h | h) | h) | h
        exacts [absurd h hv, absurd h hh, hc (by intro m' e; cases e; omega) h, absurd h hf]
      · rcases h with (h | h) | h
        exacts [absurd h hv, absurd h hh, absurd h hf]

/-! ## Multipolygons -/

theorem rich_getD {x : Strategy K} {y : Strategy K} {n : Int} (h : Rich y n) :
    Rich ((some y).getD x) n := h

/-- The points of a slab with coordinates on one axis. -/
def SlabIn (a : Bool) (coords : List K) (other : Strategy K) (G : Point K → Prop) : Prop :=
  ∀ u ∈ coords, ∀ v, other.val v → G (if a then ⟨u, v⟩ else ⟨v, u⟩)

theorem SlabIn.mono {a : Bool} {coords l : List K} {other : Strategy K} {G : Point K → Prop}
    (h : SlabIn a coords other G) (hl : ∀ u ∈ l, u ∈ coords) : SlabIn a l other G :=
  fun u hu => h u (hl u hu)

theorem slabPolygon_err {env : Env K} (henv : ∀ pts, HullOk (env.convexHull pts) pts) {a : Bool}
    {coords : List K} {other : Strategy K} {z : PolygonSizes} (hz : PolyBoundsOk z) {p : ℕ}
    (hp : p.Prime) (h5 : 5 ≤ p) (hpl : z.minSize + z.minHoleSize * z.minHoleCount ≤ p)
    (hn : coords.Nodup) (hc : p ≤ coords.length) (hy : Rich other p) {G : Point K → Prop}
    (hG : SlabIn a coords other G) {e : Exc}
    (h : (slabPolygon env a coords other z).err e) : PolygonFails env G z.maxHoleCount e := by
  have hx : Rich (sampledFrom coords) p :=
    (rich_sampledFrom hn (by rintro rfl; simp at hc; omega)).mono (by exact_mod_cast hc)
  cases a
  · simp only [slabPolygon, Bool.false_eq_true, if_false] at h
    exact (polygonStrategy_err henv hz hp h5 hpl hy (y := some (sampledFrom coords)) hx h).mono
      fun q hq => hG q.y hq.2 q.x hq.1
  · simp only [slabPolygon, if_true] at h
    exact (polygonStrategy_err henv hz hp h5 hpl hx (y := some other) hy h).mono
      fun q hq => hG q.x hq.1 q.y hq.2

theorem slabPolygon_border3 {env : Env K} {a : Bool} {coords : List K} {other : Strategy K}
    {z : PolygonSizes} (hz : 3 ≤ z.minSize) {g : Polygon K}
    (h : (slabPolygon env a coords other z).val g) : 3 ≤ g.border.vertices.length := by
  have key : ∀ {x : Strategy K} {y}, (toPolygonStrategy env x y z).val g →
      3 ≤ g.border.vertices.length := by
    rintro x y ⟨-, h⟩
    simp only [polygonHasValidSizes, Bool.and_eq_true, hasValidSize_iff] at h
    have := h.1.1
    omega
  cases a
  · simp only [slabPolygon, Bool.false_eq_true, if_false] at h
    exact key h
  · simp only [slabPolygon, if_true] at h
    exact key h

theorem slabLoop_err {env : Env K} (henv : ∀ pts, HullOk (env.convexHull pts) pts) {a : Bool}
    {coords : List K} {other : Strategy K} {z : PolygonSizes} (hz : PolyBoundsOk z) {p : ℕ}
    (hp : p.Prime) (h5 : 5 ≤ p) (hpl : z.minSize + z.minHoleSize * z.minHoleCount ≤ p)
    (hn : coords.Nodup) (hy : Rich other p) {G : Point K → Prop} (hG : SlabIn a coords other G)
    {e : Exc} (left : Nat) (start : Int)
    (h0 : 0 ≤ start) (hroom : ((left : Int) + 1) * p ≤ coords.length - start)
    (h : (slabLoop env a coords other z p left start).err e) :
    PolygonFails env G z.maxHoleCount e := by
  induction left generalizing start with
  | zero =>
    simp only [slabLoop, err_map] at h
    refine slabPolygon_err henv hz hp h5 hpl (hn.sublist (List.drop_sublist _ _)) ?_ hy
      (hG.mono fun u hu => List.mem_of_mem_drop hu) h
    rw [List.length_drop]
    push_cast at hroom
    omega
  | succ left ih =>
    push_cast at hroom
    simp only [slabLoop, err_bind, err_integers, val_integers, err_ofExcept, val_ofExcept,
      err_pure, and_false, exists_false, or_false] at h
    have hl : (p : Int) ≤ (coords.length - start) / ((left : Int) + 2) :=
      (Int.le_ediv_iff_mul_le (by omega)).2 (by nlinarith)
    rcases h with ⟨h, -⟩ | ⟨count, ⟨hc1, hc2⟩, h⟩
    · omega
    · have hc3 : count * ((left : Int) + 2) ≤ coords.length - start :=
        (Int.le_ediv_iff_mul_le (by omega)).1 hc2
      have hc4 : ((left : Int) + 1) * p ≤ coords.length - start - count := by
        by_contra hcon
        push Not at hcon
        nlinarith
      obtain ⟨q, hq, -, hq1, hq2, hq3⟩ := toPriorPrime_spec count (by omega)
      have hpq := hq3 p hp hc1
      rcases h with h | ⟨prime, h', h⟩
      · rw [hq] at h; cases h
      · rw [hq] at h'
        cases h'
        rcases h with h | ⟨g, hg, h⟩
        · refine slabPolygon_err henv hz hp h5 hpl
            ((hn.sublist (List.drop_sublist _ _)).sublist (List.take_sublist _ _)) ?_ hy
            (hG.mono fun u hu => List.mem_of_mem_drop (List.mem_of_mem_take hu)) h
          rw [List.length_take, List.length_drop]
          have : 0 ≤ ((left : Int) + 1) * p := by positivity
          omega
        · rcases h with h | ⟨ext, hext, h⟩
          · exact absurd h (touchPredicate_no_error (slabPolygon_border3 hz.size hg) e)
          · have hb := b2i_cases (!ext)
            exact ih (start + count - b2i (!ext)) (by omega) (by omega) h

theorem coordsToPolygons_err {env : Env K} (henv : ∀ pts, HullOk (env.convexHull pts) pts)
    {a : Bool} {coords : List K} {other : Strategy K} {z : PolygonSizes} (hz : PolyBoundsOk z)
    {p : ℕ} (hp : p.Prime) (h5 : 5 ≤ p)
    (hpl : z.minSize + z.minHoleSize * z.minHoleCount ≤ p) {lo : Int} {hi : Option Int}
    (h1 : 1 ≤ lo) (hb : ∀ m, hi = some m → lo ≤ m) (hn : coords.Nodup)
    (hc : lo * p ≤ coords.length) (hy : Rich other p) {G : Point K → Prop}
    (hG : SlabIn a coords other G) {e : Exc}
    (h : (coordsToPolygons env a other z p lo hi coords).err e) :
    PolygonFails env G z.maxHoleCount e := by
  simp only [coordsToPolygons, err_bind, err_integers, val_integers] at h
  have hl : lo ≤ (coords.length : Int) / p := (Int.le_ediv_iff_mul_le (by omega)).2 hc
  rcases h with ⟨h, -⟩ | ⟨n, ⟨hn1, hn2⟩, h⟩
  · have : lo ≤ minOpt ((coords.length : Int) / p) hi := by
      cases hi with
      | none => exact hl
      | some m => exact le_min hl (hb m rfl)
    omega
  · have hn3 : n ≤ (coords.length : Int) / p := by
      cases hi with
      | none => exact hn2
      | some m => exact hn2.trans (min_le_left _ _)
    have hn4 := (Int.le_ediv_iff_mul_le (by omega)).1 hn3
    refine slabLoop_err henv hz hp h5 hpl ((sortCoords_perm coords).nodup_iff.2 hn) hy
      (hG.mono fun u hu => (sortCoords_perm coords).mem_iff.1 hu) _ 0 (le_refl _) ?_ h
    rw [(sortCoords_perm coords).length_eq]
    have : (((n - 1).toNat : Nat) : Int) = n - 1 := by omega
    rw [this]
    simpa using hn4

theorem multipolygon_err {env : Env K} (henv : ∀ pts, HullOk (env.convexHull pts) pts)
    {x : Strategy K} {y : Option (Strategy K)} {z : PolygonSizes} (hz : PolyBoundsOk z) {p : ℕ}
    (hp : p.Prime) (h5 : 5 ≤ p) (hpl : z.minSize + z.minHoleSize * z.minHoleCount ≤ p)
    {lo : Int} {hi : Option Int} (h1 : 1 ≤ lo) (hb : ∀ m, hi = some m → lo ≤ m) {n : ℕ}
    (hnp : n.Prime) (hn : lo * p ≤ n) (hx : Rich x n) (hy : Rich (y.getD x) n)
    {s : Strategy (List (Polygon K))} (hs : toMultipolygonStrategy env x y lo hi z = .ok s)
    {e : Exc} (h : s.err e) :
    ContourFails env (Drawn x y) e ∨ PolygonFails env (Drawn x y) z.maxHoleCount e := by
  have z1 := hz.size; have z3 := hz.count; have z5 := hz.hole
  have hmul : 0 ≤ z.minHoleSize * z.minHoleCount := by positivity
  obtain ⟨q, hq, hqp, hq1, hq5, -, hqmin⟩ :=
    toNextPrime_spec (z.minSize + z.minHoleCount * z.minHoleSize) (by
      rw [mul_comm z.minHoleCount]; omega)
  have hqp' := hqmin p hp (by rw [mul_comm z.minHoleCount]; exact hpl) h5
  have hlq : lo * q ≤ lo * p := by nlinarith
  have hp1 : (p : Int) ≤ n := by nlinarith
  have hmax : leOpt (lo * q) (multipolygonMaxTotal hi z (lo * q)) := by
    unfold multipolygonMaxTotal
    split
    · exact le_max_right _ _
    · trivial
  have hql : z.minSize + z.minHoleSize * z.minHoleCount ≤ q := by
    rw [mul_comm z.minHoleSize]; exact hq1
  simp only [toMultipolygonStrategy, exc_bind_ok, hq] at hs
  obtain ⟨_, h', hs⟩ := hs
  cases h'
  have slab : ((uniqueLists x (lo * q) (multipolygonMaxTotal hi z (lo * q))).bind
        (coordsToPolygons env true (yOr x y) z q lo hi) |||
      (uniqueLists (yOr x y) (lo * q) (multipolygonMaxTotal hi z (lo * q))).bind
        (coordsToPolygons env false x z q lo hi)).err e →
      PolygonFails env (Drawn x y) z.maxHoleCount e := by
    rintro (h | h)
    · rw [err_bind'] at h
      rcases h with h | ⟨l, hl, h⟩
      · exact absurd h (uniqueLists_err (hx.mono (by omega)) hmax e)
      · exact coordsToPolygons_err henv hz hqp hq5 hql h1 hb hl.2.1 hl.2.2.1
          (hy.mono (by omega)) (fun u hu v hv =>
          (drawn_iff (x := x) (y := y) (p := ⟨u, v⟩)).2 ⟨hl.1 u hu, hv⟩) h
    · rw [err_bind'] at h
      rcases h with h | ⟨l, hl, h⟩
      · exact absurd h (uniqueLists_err (hy.mono (by omega)) hmax e)
      · exact coordsToPolygons_err henv hz hqp hq5 hql h1 hb hl.2.1 hl.2.2.1
          (hx.mono (by omega)) (fun u hu v hv =>
          (drawn_iff (x := x) (y := y) (p := ⟨v, u⟩)).2 ⟨hv, hl.1 u hu⟩) h
  split at hs
  · simp only [exc_pure_ok] at hs
    subst hs
    rcases h with h | h
    · rw [err_map] at h
      left
      refine (multicontour_err (y := some (yOr x y)) h1 hb z1 hnp (by omega) ?_ hx hy h).mono
        fun q hq => drawn_iff.2 hq
      have : z.minSize ≤ p := by omega
      nlinarith
    · exact Or.inr (slab h)
  · simp only [exc_pure_ok] at hs
    subst hs
    exact Or.inr (slab h)

/-! ## Mixes -/

theorem rich_slab {R : List K} (hR : R.Nodup) {n : Int} (h1 : 1 ≤ n) (hn : n ≤ R.length) :
    Rich (sampledFrom (R.take n.toNat)) n := by
  have hl : (R.take n.toNat).length = n.toNat := by rw [List.length_take]; omega
  refine (rich_sampledFrom (hR.sublist (List.take_sublist _ _)) ?_).mono (by omega)
  intro he
  rw [he] at hl
  simp at hl
  omega

/-- Enough different points. -/
theorem points_err {x y : Strategy K} {n : Int} (h1 : 1 ≤ n)
    (h : (Rich x n ∧ Rich y 1) ∨ (Rich x 1 ∧ Rich y n)) (e : Exc) :
    ¬ (toUniquePointSequenceStrategy x (some y) n (some n)).err e := by
  have hx : Rich x 1 := by rcases h with ⟨h, -⟩ | ⟨h, -⟩; exacts [h.mono h1, h]
  have hy : Rich y 1 := by rcases h with ⟨-, h⟩ | ⟨-, h⟩; exacts [h, h.mono h1]
  simp only [toUniquePointSequenceStrategy, err_uniqueLists, leOpt_some, le_refl, not_true,
    false_and, false_or]
  rintro (h' | ⟨h', -⟩)
  · exact point_err hx (y := some y) hy e h'
  · apply h'
    rcases h with ⟨h, -⟩ | ⟨-, h⟩
    · obtain ⟨l, k1, k2, k3⟩ := h.many
      obtain ⟨b, hb⟩ := hy.nonempty (le_refl _)
      refine ⟨l.map fun a => (⟨a, b⟩ : Point K), ?_, k2.map ?_, by simpa using k3⟩
      · intro p hp
        obtain ⟨a, ha, rfl⟩ := List.mem_map.1 hp
        exact ⟨(a, b), ⟨k1 a ha, hb⟩, rfl⟩
      · intro a a' haa
        exact congrArg Point.x haa
    · obtain ⟨l, k1, k2, k3⟩ := h.many
      obtain ⟨b, hb⟩ := hx.nonempty (le_refl _)
      refine ⟨l.map fun a => (⟨b, a⟩ : Point K), ?_, k2.map ?_, by simpa using k3⟩
      · intro p hp
        obtain ⟨a, ha, rfl⟩ := List.mem_map.1 hp
        exact ⟨(b, a), ⟨hb, k1 a ha⟩, rfl⟩
      · intro a a' haa
        exact congrArg Point.y haa

theorem pieceSegments_err {env : Env K} {x y : Strategy K} {n : Int} (h1 : 1 ≤ n)
    (hx : Rich x (2 * n)) (hy : Rich y (2 * n)) {e : Exc}
    (h : (toSegmentSequenceStrategy env x (some y) n (some n)).err e) :
    ContourFails env (Drawn x (some y)) e := by
  refine segmentSequence_err h1 (by simp) (hx.mono (by omega)) (hy.mono (by omega)) ?_ h
  intro h3
  have h3 := h3 n rfl
  obtain ⟨p, -, hp, hp1, hp5, hp2, -⟩ := toNextPrime_spec n h3
  exact ⟨p, hp, hp5, hp1, hx.mono hp2, hy.mono hp2⟩

/-- What the counts of the pieces satisfy. -/
def PieceOk (p : Int) (N : Int) (d : Drawer × Int) : Prop :=
  1 ≤ d.2 ∧ d.2 ≤ N ∧ (d.1 = .segments → 2 ≤ d.2 ∧ d.2 % 2 = 0) ∧ (d.1 = .polygon → p ≤ d.2)

theorem mixLoop_err {env : Env K} (henv : ∀ pts, HullOk (env.convexHull pts) pts) {a : Bool}
    {other : Strategy K} {z : PolygonSizes} (hz : PolyBoundsOk z) {p : ℕ} (hp : p.Prime)
    (h5 : 5 ≤ p) (hpl : z.minSize + z.minHoleSize * z.minHoleCount ≤ p) {N : Int}
    (ds : List (Drawer × Int)) (hd : ∀ d ∈ ds, PieceOk p N d) (ho : 1 ≤ N → Rich other N)
    {G : Point K → Prop}
    (R : List K) (hR : R.Nodup) (hG : SlabIn a R other G)
    (hsum : (ds.map Prod.snd).sum ≤ R.length) (s : MixState K)
    {e : Exc} (h : (mixLoop env a other z ds R s).err e) :
    ContourFails env G e ∨ PolygonFails env G z.maxHoleCount e := by
  induction ds generalizing R s with
  | nil => simp [mixLoop] at h
  | cons d ds ih =>
    obtain ⟨dr, n⟩ := d
    obtain ⟨d1, d2, d3, d4⟩ := hd (dr, n) (by simp)
    dsimp only at d1 d2 d3 d4
    have ho' := ho (by omega)
    have hd' : ∀ d ∈ ds, PieceOk p N d := fun d hd' => hd d (by simp [hd'])
    have hrest : 0 ≤ (ds.map Prod.snd).sum := List.sum_nonneg (by
      intro a ha
      obtain ⟨b, hb, rfl⟩ := List.mem_map.1 ha
      have := (hd' b hb).1
      omega)
    simp only [List.map_cons, List.sum_cons] at hsum
    have hslab : Rich (sampledFrom (R.take n.toNat)) n := rich_slab hR d1 (by omega)
    simp only [mixLoop, err_bind, err_ofExcept, val_ofExcept] at h
    rcases h with h | ⟨s1, h1, h⟩
    · cases dr with
      | points =>
        exfalso
        simp only [runDrawer, drawPoints, err_bind, err_pure, and_false, exists_false,
          or_false] at h
        cases a
        · simp only [Bool.false_eq_true, if_false] at h
          exact points_err d1 (Or.inr ⟨ho'.mono (by omega), hslab⟩) e h
        · simp only [if_true] at h
          exact points_err d1 (Or.inl ⟨hslab, ho'.mono (by omega)⟩) e h
      | segments =>
        left
        obtain ⟨d5, d6⟩ := d3 rfl
        simp only [runDrawer, drawSegments, err_bind, err_pure, and_false, exists_false,
          or_false] at h
        cases a
        · simp only [Bool.false_eq_true, if_false] at h
          exact (pieceSegments_err (by omega) (ho'.mono (by omega)) (hslab.mono (by omega)) h).mono
            fun q hq => hG q.y (List.mem_of_mem_take hq.2) q.x hq.1
        · simp only [if_true] at h
          exact (pieceSegments_err (by omega) (hslab.mono (by omega)) (ho'.mono (by omega)) h).mono
            fun q hq => hG q.x (List.mem_of_mem_take hq.1) q.y hq.2
      | polygon =>
        right
        have d5 := d4 rfl
        simp only [runDrawer, drawPolygon, err_bind, err_pure, and_false, exists_false,
          or_false] at h
        obtain ⟨q, hq, -, hq1, hq2, hq3⟩ := toPriorPrime_spec n (by omega)
        have hpq := hq3 p hp d5
        have key : ∀ m : Int, p ≤ m → m ≤ n → (slabPolygon env a (R.take m.toNat) other z).err e →
            PolygonFails env G z.maxHoleCount e := by
          intro m h1 h2 h
          refine slabPolygon_err henv hz hp h5 hpl (hR.sublist (List.take_sublist _ _)) ?_
            (ho'.mono (by omega)) (hG.mono fun u hu => List.mem_of_mem_take hu) h
          rw [List.length_take]
          omega
        cases a
        · simp only [Bool.false_eq_true, if_false, err_just, val_just, false_or,
            exists_eq_left] at h
          exact key n d5 (le_refl _) h
        · simp only [if_true, err_ofExcept, val_ofExcept, hq] at h
          rcases h with h | ⟨m, hm, h⟩
          · cases h
          · cases hm
            exact key q (by exact_mod_cast hpq) hq1 h
    · rcases h with h | ⟨touch, -, h⟩
      · exfalso
        cases hh : ds.head?.map Prod.fst with
        | none => rw [hh] at h; simp [canTouchNext, exc_pure_error] at h
        | some d =>
          rw [hh] at h
          cases dr with
          | points => cases d <;> simp [canTouchNext, exc_pure_error] at h
          | segments =>
            obtain ⟨d5, d6⟩ := d3 rfl
            simp only [runDrawer, drawSegments, val_bind, val_pure] at h1
            obtain ⟨ss, hss, rfl⟩ := h1
            have hlen : (n / 2 : Int) ≤ ss.length := by
              cases a
              · simp only [Bool.false_eq_true, if_false] at hss
                exact (segmentSequence_size ⟨by omega, by simp⟩ hss).1
              · simp only [if_true] at hss
                exact (segmentSequence_size ⟨by omega, by simp⟩ hss).1
            have hne : ss ≠ [] := by rintro rfl; simp at hlen; omega
            have hl : (s.segments ++ ss) ≠ [] := by simp [hne]
            cases hsl : s.segments ++ ss with
            | nil => exact hl hsl
            | cons u l =>
              cases d <;> cases a <;>
                simp [canTouchNext, hsl, exc_pure_error, hasExtremeSegment,
                  touchPredicate, hasVerticalLeftmostSegment,
                  hasHorizontalLowermostSegment] at h
          | polygon =>
            simp only [runDrawer, drawPolygon, val_bind, val_pure] at h1
            obtain ⟨m, hm, g, hg, rfl⟩ := h1
            have h3 := slabPolygon_border3 hz.size hg
            cases d <;> simp only [canTouchNext, List.getLast?_concat, exc_pure_error,
              exc_bind_error, and_false, exists_false, or_false] at h
            all_goals exact touchPredicate_no_error h3 e h
      · have hb := b2i_cases touch
        refine ih hd' _ (hR.sublist (List.drop_sublist _ _))
          (hG.mono fun u hu => List.mem_of_mem_drop hu) ?_ s1 h
        rw [List.length_drop]
        omega

theorem partitionLoop_err (fuel : Nat) (v : Int) (h0 : 0 ≤ v) (e : Exc) :
    ¬ (partitionLoop fuel v).err e := by
  induction fuel generalizing v with
  | zero => simp [partitionLoop]
  | succ fuel ih =>
    rw [partitionLoop]
    split
    · simp
    · simp only [err_bind, err_integers, val_integers, err_pure, and_false, exists_false, or_false]
      rintro (⟨h, -⟩ | ⟨part, ⟨h1, h2⟩, h⟩)
      · omega
      · exact ih (v - part) (by omega) h

theorem replicateDraw_err {α : Type} {s : Strategy α} {e : Exc} (hs : ¬ s.err e) (n : Nat) :
    ¬ (replicateDraw s n).err e := by
  induction n with
  | zero => simp [replicateDraw]
  | succ n ih =>
    simp only [replicateDraw, err_bind, err_pure, and_false, exists_false, or_false]
    rintro (h | ⟨-, -, h⟩)
    · exact hs h
    · exact ih h

theorem sum_le_mul {l : List Int} {m : Int} (h : ∀ a ∈ l, a ≤ m) : l.sum ≤ l.length * m := by
  induction l with
  | nil => simp
  | cons a l ih =>
    have h1 := h a (by simp)
    have h2 := ih fun b hb => h b (by simp [hb])
    simp only [List.sum_cons, List.length_cons]
    push_cast
    linarith

theorem pointCounts_err {z : MixSizes} {p : ℕ} (hp : p.Prime) (h5 : 5 ≤ p) {total : Int}
    (h0 : 0 ≤ z.minPoints) (h1 : 0 ≤ z.minSegments) (h2 : 0 ≤ z.minPolygons)
    (hb0 : ∀ m, z.maxPoints = some m → z.minPoints ≤ m)
    (hb1 : ∀ m, z.maxSegments = some m → z.minSegments ≤ m)
    (hb2 : ∀ m, z.maxPolygons = some m → z.minPolygons ≤ m)
    (ht : z.minPoints + 2 * z.minSegments + z.minPolygons * p ≤ total) (e : Exc) :
    ¬ (toPointCounts z p total).err e := by
  intro h
  simp only [toPointCounts, err_bind, err_integers, val_integers, err_pure, and_false,
    exists_false, or_false] at h
  have hl : z.minPolygons ≤ (total - z.minPoints - 2 * z.minSegments) / p :=
    (Int.le_ediv_iff_mul_le (by omega)).2 (by omega)
  rcases h with ⟨h, -⟩ | ⟨n, ⟨hn1, hn2⟩, h⟩
  · have : z.minPolygons ≤ minOpt ((total - z.minPoints - 2 * z.minSegments) / p)
        z.maxPolygons := by
      cases hm : z.maxPolygons with
      | none => exact hl
      | some m => exact le_min hl (hb2 m hm)
    omega
  · have hn3 : n * p ≤ total - z.minPoints - 2 * z.minSegments := by
      refine (Int.le_ediv_iff_mul_le (by omega)).1 (hn2.trans ?_)
      cases z.maxPolygons with
      | none => exact le_refl _
      | some m => exact min_le_left _ _
    have hn0 : 0 ≤ n := h2.trans hn1
    have htot : 0 ≤ total - z.minPoints - 2 * z.minSegments := le_trans (by positivity) hn3
    -- the counts of polygon coordinates
    have hpoly : ∀ (m : Int) (pcs : List Int),
        (if n ≠ 0 then Strategy.ofExcept (toPriorPrime
          ((total - z.minPoints - 2 * z.minSegments) / n)) else just 0).val m →
        (if n ≠ 0 then replicateDraw (integers p m) n.toNat else just []).val pcs →
        pcs.sum ≤ total - z.minPoints - 2 * z.minSegments := by
      intro m pcs hm hpcs
      by_cases hz : n = 0
      · simp only [hz, ne_eq, not_true, if_false, val_just] at hpcs
        subst hpcs
        simpa using htot
      · simp only [ne_eq, hz, not_false_eq_true, if_true, val_ofExcept] at hm hpcs
        have hpos : 0 < n := by omega
        obtain ⟨k1, k2⟩ := replicateDraw_val _ _ hpcs
        have hle := toPriorPrime_le hm
        have := sum_le_mul fun a ha => ((k2 a ha).2.trans hle)
        rw [k1] at this
        have h4 : ((n.toNat : Nat) : Int) = n := by omega
        rw [h4] at this
        exact this.trans (Int.mul_ediv_self_le hpos.ne')
    rcases h with h | ⟨m, hm, h⟩
    · by_cases hz : n = 0
      · simp [hz] at h
      · simp only [ne_eq, hz, not_false_eq_true, if_true, err_ofExcept] at h
        have : (p : Int) ≤ (total - z.minPoints - 2 * z.minSegments) / n :=
          (Int.le_ediv_iff_mul_le (by omega)).2 (by rw [mul_comm]; exact hn3)
        obtain ⟨q, hq, -⟩ := toPriorPrime_spec
          ((total - z.minPoints - 2 * z.minSegments) / n) (by omega)
        rw [hq] at h
        cases h
    · rcases h with h | ⟨pcs, hpcs, h⟩
      · by_cases hz : n = 0
        · simp [hz] at h
        · simp only [ne_eq, hz, not_false_eq_true, if_true, val_ofExcept] at h hm
          refine replicateDraw_err ?_ _ h
          rw [err_integers]
          rintro ⟨h, -⟩
          have : (p : Int) ≤ (total - z.minPoints - 2 * z.minSegments) / n :=
            (Int.le_ediv_iff_mul_le (by omega)).2 (by rw [mul_comm]; exact hn3)
          obtain ⟨q, hq, -, -, -, hq3⟩ := toPriorPrime_spec
            ((total - z.minPoints - 2 * z.minSegments) / n) (by omega)
          rw [hq] at hm
          cases hm
          have := hq3 p hp this
          omega
      · have hs := hpoly m pcs hm hpcs
        rcases h with ⟨h, -⟩ | ⟨sp, hsp, h⟩
        · have hle : 2 * z.minSegments ≤ minOpt (total - pcs.sum - z.minPoints)
              (z.maxSegments.map (2 * ·)) := by
            cases hm : z.maxSegments with
            | none => simp only [Option.map_none, minOpt]; omega
            | some k =>
              have := hb1 k hm
              simp only [Option.map_some, minOpt]
              exact le_min (by omega) (by omega)
          have hlen := congrArg List.length h
          simp only [rangeStep2, List.length_map, List.length_range, List.length_nil] at hlen
          omega
        · obtain ⟨r1, r2, -⟩ := mem_rangeStep2 _ _ _ hsp
          have r3 : sp ≤ total - pcs.sum - z.minPoints := by
            have : minOpt (total - pcs.sum - z.minPoints) (z.maxSegments.map (2 * ·)) ≤
                total - pcs.sum - z.minPoints := by
              cases z.maxSegments with
              | none => exact le_refl _
              | some k => exact min_le_left _ _
            omega
          have part : ∀ v : Int, 0 ≤ v → ¬ (partitionStrategy v).err e := by
            intro v hv
            rw [partitionStrategy, if_pos hv]
            exact partitionLoop_err _ _ hv e
          rcases h with h | ⟨-, -, h⟩
          · refine part _ ?_ h
            cases hm : z.maxPoints with
            | none => simp only [minOpt]; omega
            | some k =>
              have := hb0 k hm
              exact le_min (by omega) (by omega)
          · exact part _ (by omega) h

/-- The size arguments of one branch of `mixes`. -/
structure MixBoundsOk (z : MixSizes) : Prop where
  points : 0 ≤ z.minPoints
  segments : 0 ≤ z.minSegments
  polygons : 0 ≤ z.minPolygons
  pointsLe : ∀ m, z.maxPoints = some m → z.minPoints ≤ m
  segmentsLe : ∀ m, z.maxSegments = some m → z.minSegments ≤ m
  polygonsLe : ∀ m, z.maxPolygons = some m → z.minPolygons ≤ m
  polygon : PolyBoundsOk z.polygon

theorem coordsToMix_err {env : Env K} (henv : ∀ pts, HullOk (env.convexHull pts) pts) {a : Bool}
    {other : Strategy K} {z : MixSizes} (hz : MixBoundsOk z) {p : ℕ} (hp : p.Prime) (h5 : 5 ≤ p)
    (hpl : z.polygon.minSize + z.polygon.minHoleSize * z.polygon.minHoleCount ≤ p)
    {coords : List K} (hn : coords.Nodup)
    (hc : z.minPoints + 2 * z.minSegments + z.minPolygons * p ≤ coords.length)
    (ho : Rich other coords.length) {G : Point K → Prop} (hG : SlabIn a coords other G) {e : Exc}
    (h : (coordsToMix env a other z p coords).err e) :
    ContourFails env G e ∨ PolygonFails env G z.polygon.maxHoleCount e := by
  simp only [coordsToMix, err_bind, err_permutations, val_permutations, err_pure, and_false,
    exists_false, or_false, false_or] at h
  rcases h with h | ⟨c, hcnt, ds, hds, h⟩
  · exact absurd h (pointCounts_err hp h5 hz.points hz.segments hz.polygons hz.pointsLe
      hz.segmentsLe hz.polygonsLe hc e)
  · obtain ⟨⟨-, -, h1⟩, ⟨sp, h4, h5', -⟩, -, h9, hsum⟩ :=
      pointCounts_sizes hz.polygons hz.pointsLe hcnt
    have hall : ∀ d ∈ ds, 1 ≤ d.2 ∧ (d.1 = .segments → 2 ≤ d.2 ∧ d.2 % 2 = 0) ∧
        (d.1 = .polygon → p ≤ d.2) := by
      intro d hd'
      have := (hds.mem_iff).1 hd'
      simp only [List.mem_append, List.mem_map] at this
      rcases this with (⟨a, ha, rfl⟩ | ⟨a, ha, rfl⟩) | ⟨a, ha, rfl⟩
      · exact ⟨h1 a ha, by simp, by simp⟩
      · rw [h4] at ha
        obtain ⟨b, hb, rfl⟩ := List.mem_map.1 ha
        have := h5' b hb
        dsimp only
        exact ⟨by omega, fun _ => ⟨by omega, by omega⟩, by simp⟩
      · have := h9 a ha
        exact ⟨by dsimp only; omega, by simp, fun _ => this⟩
    have hs : (ds.map Prod.snd).sum ≤ coords.length := by
      rw [(hds.map Prod.snd).sum_eq]
      simp only [List.map_append, List.map_map, List.sum_append]
      have e : ∀ (d : Drawer) (l : List Int), List.map (Prod.snd ∘ fun c => (d, c)) l = l := by
        intro d l; exact List.map_id l
      rw [e, e, e]
      omega
    have hle : ∀ d ∈ ds, d.2 ≤ coords.length := by
      intro d hd
      refine le_trans (List.single_le_sum ?_ _ (List.mem_map_of_mem hd)) hs
      intro b hb
      obtain ⟨d, hd, rfl⟩ := List.mem_map.1 hb
      have := (hall d hd).1
      omega
    refine mixLoop_err henv hz.polygon hp h5 hpl ds
      (fun d hd => ⟨(hall d hd).1, hle d hd, (hall d hd).2⟩) (fun _ => ho) _
      ((sortCoords_perm coords).nodup_iff.2 hn)
      (hG.mono fun u hu => (sortCoords_perm coords).mem_iff.1 hu) ?_ _ h
    rw [(sortCoords_perm coords).length_eq]
    exact hs

theorem mixStrategy_err {env : Env K} (henv : ∀ pts, HullOk (env.convexHull pts) pts)
    {x : Strategy K} {y : Option (Strategy K)} {z : MixSizes} (hz : MixBoundsOk z) {p : ℕ}
    (hp : p.Prime) (h5 : 5 ≤ p)
    (hpl : z.polygon.minSize + z.polygon.minHoleSize * z.polygon.minHoleCount ≤ p)
    (hx : Rich x (z.minPoints + 2 * z.minSegments + z.minPolygons * p))
    (hxy : ∀ n, Rich x n ↔ Rich (y.getD x) n)
    {s : Strategy (Mix K)} (hs : toMixStrategy env x y z = .ok s) {e : Exc} (h : s.err e) :
    ContourFails env (Drawn x y) e ∨ PolygonFails env (Drawn x y) z.polygon.maxHoleCount e := by
  have z1 := hz.polygon.size; have z3 := hz.polygon.count; have z5 := hz.polygon.hole
  have hmul : 0 ≤ z.polygon.minHoleSize * z.polygon.minHoleCount := by positivity
  obtain ⟨q, hq, hqp, hq1, hq5, -, hqmin⟩ :=
    toNextPrime_spec (z.polygon.minSize + z.polygon.minHoleCount * z.polygon.minHoleSize) (by
      rw [mul_comm z.polygon.minHoleCount]; omega)
  have hqp' := hqmin p hp (by rw [mul_comm z.polygon.minHoleCount]; exact hpl) h5
  have hql : z.polygon.minSize + z.polygon.minHoleSize * z.polygon.minHoleCount ≤ q := by
    rw [mul_comm z.polygon.minHoleSize]; exact hq1
  simp only [toMixStrategy, exc_bind_ok, exc_pure_ok, hq] at hs
  obtain ⟨_, h', hs⟩ := hs
  cases h'
  subst hs
  have hle : z.minPoints + 2 * z.minSegments + z.minPolygons * q ≤
      z.minPoints + 2 * z.minSegments + z.minPolygons * p := by
    have := hz.polygons
    have : z.minPolygons * (q : Int) ≤ z.minPolygons * p := by nlinarith
    omega
  have rich_of : ∀ {t : Strategy K} (l : List K), (∀ e, ¬ t.err e) → (∀ a ∈ l, t.val a) →
      l.Nodup → Rich t l.length := fun l h0 h1 h2 => ⟨h0, l, h1, h2, le_refl _⟩
  rcases h with h | h
  · rw [err_bind'] at h
    rcases h with h | ⟨l, hl, h⟩
    · exact absurd h (uniqueLists_err (hx.mono hle) (by simp) e)
    · exact coordsToMix_err henv hz hqp hq5 hql hl.2.1 hl.2.2.1
        ((hxy _).1 (rich_of l hx.ok hl.1 hl.2.1)) (fun u hu v hv =>
          (drawn_iff (x := x) (y := y) (p := ⟨u, v⟩)).2 ⟨hl.1 u hu, hv⟩) h
  · rw [err_bind'] at h
    rcases h with h | ⟨l, hl, h⟩
    · exact absurd h (uniqueLists_err (((hxy _).1 hx).mono hle) (by simp) e)
    · exact coordsToMix_err henv hz hqp hq5 hql hl.2.1 hl.2.2.1
        ((hxy _).2 (rich_of l ((hxy _).1 hx).ok hl.1 hl.2.1))
        (fun u hu v hv =>
          (drawn_iff (x := x) (y := y) (p := ⟨v, u⟩)).2 ⟨hv, hl.1 u hu⟩) h

theorem unionMixes_err {env : Env K} {x : Strategy K} {y : Option (Strategy K)}
    (l : List MixSizes) {s : Strategy (Mix K)} (hs : unionMixes env x y l = .ok s) {e : Exc}
    (h : s.err e) : ∃ z ∈ l, ∃ t, toMixStrategy env x y z = .ok t ∧ t.err e := by
  induction l generalizing s with
  | nil =>
    simp only [unionMixes, exc_pure_ok] at hs
    subst hs
    exact h.elim
  | cons z l ih =>
    cases l with
    | nil => exact ⟨z, by simp, s, hs, h⟩
    | cons z' l =>
      simp only [unionMixes, exc_bind_ok, exc_pure_ok] at hs
      obtain ⟨t, ht, r, hr, rfl⟩ := hs
      rcases h with h | h
      · exact ⟨z, by simp, t, ht, h⟩
      · obtain ⟨w, hw, h⟩ := ih hr h
        exact ⟨w, by simp [hw], h⟩

theorem polyBoundsOk_of {lo nlo hlo : Int} {hi nhi hhi : Option Int} (h1 : ¬ BadBounds lo hi 3)
    (h2 : ¬ BadBounds nlo nhi 0) : PolyBoundsOk ⟨max lo 3, hi, max nlo 0, nhi, max hlo 3, hhi⟩ :=
  ⟨le_max_right _ _, (okBounds_of h1).2, le_max_right _ _, (okBounds_of h2).2, le_max_right _ _⟩

/-- What the minima of a branch of `mixes` are, knowing that two kinds may be non-empty. -/
theorem branches_minima (a : MixArgs) (z : MixSizes) (hz : z ∈ a.branches)
    (hcount : ¬ b2i (mayBeNonEmpty a.maxPointsSize) + b2i (mayBeNonEmpty a.maxSegmentsSize) +
      b2i (mayBeNonEmpty a.maxPolygonsSize) < 2) :
    z.maxPoints = a.maxPointsSize ∧ z.maxSegments = a.maxSegmentsSize ∧
    z.maxPolygons = a.maxPolygonsSize ∧
    (z.minPoints = max a.minPointsSize 0 ∨
      (z.minPoints = max (max a.minPointsSize 0) 1 ∧ a.maxPointsSize ≠ some 0)) ∧
    (z.minSegments = max a.minSegmentsSize 0 ∨
      (z.minSegments = max (max a.minSegmentsSize 0) 1 ∧ a.maxSegmentsSize ≠ some 0)) ∧
    (z.minPolygons = max a.minPolygonsSize 0 ∨
      (z.minPolygons = max (max a.minPolygonsSize 0) 1 ∧ a.maxPolygonsSize ≠ some 0)) := by
  have m1 := mayBeNonEmpty_iff a.maxPointsSize
  have m2 := mayBeNonEmpty_iff a.maxSegmentsSize
  have m3 := mayBeNonEmpty_iff a.maxPolygonsSize
  unfold MixArgs.branches at hz
  simp only at hz
  generalize mayBeNonEmpty a.maxPointsSize = c1 at *
  generalize mayBeNonEmpty a.maxSegmentsSize = c2 at *
  generalize mayBeNonEmpty a.maxPolygonsSize = c3 at *
  cases c1 <;> cases c2 <;> cases c3 <;>
    simp only [b2i, Bool.false_eq_true, if_true, if_false, List.mem_cons, List.not_mem_nil,
      or_false, true_iff, false_iff] at hcount hz m1 m2 m3 <;>
    first
    | omega
    | (rcases hz with rfl | rfl | rfl <;>
        exact ⟨rfl, rfl, rfl, by first | exact Or.inl rfl | exact Or.inr ⟨rfl, m1⟩,
          by first | exact Or.inl rfl | exact Or.inr ⟨rfl, m2⟩,
          by first | exact Or.inl rfl | exact Or.inr ⟨rfl, m3⟩⟩)

/-! ## The properties -/

/-- C36 for `contours`: drawing fails only when the construction of a contour fails. -/
theorem C36_contours (env : Env K) (x : Strategy K) (y : Option (Strategy K)) (lo : Int)
    (hi : Option Int) (p : ℕ) (hp : p.Prime) (hp1 : 5 ≤ p ∧ max lo 3 ≤ p) (hx : Rich x p)
    (hy : Rich (y.getD x) p) (s : Made (Contour K)) (hs : contours env x y lo hi = .ok s)
    (e : Exc) (h : s.2.err e) : ContourFails env (Drawn x y) e := by
  simp only [contours, exc_bind_ok, exc_pure_ok, validate_ok] at hs
  obtain ⟨w, ⟨hb, -⟩, rfl⟩ := hs
  rw [err_map] at h
  exact vertexSequence_err (le_max_right _ _) (okBounds_of hb).2 hp hp1.1 hp1.2 hx hy h

/-- C36 for `concave_contours`. -/
theorem C36_concave_contours (env : Env K) (x : Strategy K) (y : Option (Strategy K)) (lo : Int)
    (hi : Option Int) (p : ℕ) (hp : p.Prime) (hp1 : 5 ≤ p ∧ max lo 4 ≤ p) (hx : Rich x p)
    (hy : Rich (y.getD x) p) (s : Made (Contour K)) (hs : concaveContours env x y lo hi = .ok s)
    (e : Exc) (h : s.2.err e) : ContourFails env (Drawn x y) e := by
  simp only [concaveContours, exc_bind_ok, exc_pure_ok, validate_ok] at hs
  obtain ⟨w, ⟨hb, -⟩, rfl⟩ := hs
  have h4 : 4 ≤ max lo 4 := le_max_right _ _
  simp only [toConcaveStrategy, err_map, err_filterE] at h
  rcases h with h | ⟨vs, hv, h⟩
  · exact vertexSequences_err (by omega) (okBounds_of hb).2 hp hp1.1 hp1.2 hx hy h
  · exfalso
    have hl : max lo 4 ≤ (vs.length : Int) := by
      rcases hv with ⟨-, h⟩ | ⟨-, h⟩ <;> exact ((hasValidSize_iff _ _ _).1 h).1
    unfold areVerticesNonConvexE areVerticesNonConvex at h
    cases ho : contourOrientations vs with
    | nil =>
      have := congrArg List.length ho
      simp only [contourOrientations, List.length_map, List.length_range, List.length_nil] at this
      omega
    | cons o os => rw [ho] at h; simp [exc_pure_error] at h

/-- C36 for `multisegments`. -/
theorem C36_multisegments (env : Env K) (x : Strategy K) (y : Option (Strategy K)) (lo : Int)
    (hi : Option Int) (p : ℕ) (hp : p.Prime) (hp1 : 5 ≤ p ∧ max lo 2 < p) (hx : Rich x p)
    (hy : Rich (y.getD x) p) (s : Made (List (Segment K)))
    (hs : multisegments env x y lo hi = .ok s) (e : Exc) (h : s.2.err e) :
    ContourFails env (Drawn x y) e := by
  simp only [multisegments, exc_bind_ok, exc_pure_ok, validate_ok] at hs
  obtain ⟨w, ⟨hb, -⟩, rfl⟩ := hs
  have h2 : 2 ≤ max lo 2 := le_max_right _ _
  have h' : (toSegmentSequenceStrategy env x (some (y.getD x)) (max lo 2) hi).err e := h
  exact (segmentSequence_err (by omega) (okBounds_of hb).2 (hx.mono (by omega))
    (hy.mono (by omega)) (fun _ => ⟨p, hp, hp1.1, by omega, hx, hy⟩) h').mono
    fun q hq => drawn_iff.2 hq

/-- C36 for `multicontours`. -/
theorem C36_multicontours (env : Env K) (x : Strategy K) (y : Option (Strategy K)) (lo : Int)
    (hi : Option Int) (clo : Int) (chi : Option Int) (p : ℕ) (hp : p.Prime)
    (hp1 : 5 ≤ p ∧ max lo 2 * max clo 3 ≤ p) (hx : Rich x p) (hy : Rich (y.getD x) p)
    (s : Made (List (Contour K))) (hs : multicontours env x y lo hi clo chi = .ok s) (e : Exc)
    (h : s.2.err e) : ContourFails env (Drawn x y) e := by
  simp only [multicontours, exc_bind_ok, exc_pure_ok, validate_ok] at hs
  obtain ⟨w, ⟨hb, -⟩, w', ⟨hb', -⟩, rfl⟩ := hs
  have h2 : 2 ≤ max lo 2 := le_max_right _ _
  exact multicontour_err (by omega) (okBounds_of hb).2 (le_max_right _ _) hp hp1.1 hp1.2 hx hy h

/-- C36 for `polygons`. -/
theorem C36_polygons (env : Env K) (henv : ∀ pts, HullOk (env.convexHull pts) pts)
    (x : Strategy K) (y : Option (Strategy K)) (lo : Int) (hi : Option Int) (nlo : Int)
    (nhi : Option Int) (hlo : Int) (hhi : Option Int) (p : ℕ) (hp : p.Prime)
    (hp1 : 5 ≤ p ∧ max lo 3 + max hlo 3 * max nlo 0 ≤ p) (hx : Rich x p)
    (hy : Rich (y.getD x) p) (s : Made (Polygon K))
    (hs : polygons env x y lo hi nlo nhi hlo hhi = .ok s) (e : Exc) (h : s.2.err e) :
    PolygonFails env (Drawn x y) nhi e := by
  simp only [polygons, exc_bind_ok, exc_pure_ok, validate_ok] at hs
  obtain ⟨w, ⟨hb, -⟩, w', ⟨hb', -⟩, w'', -, rfl⟩ := hs
  exact polygonStrategy_err henv (polyBoundsOk_of hb hb') hp hp1.1 hp1.2 hx hy h

/-- C37: drawing a multipolygon fails only when the construction of a contour or polygon fails. -/
theorem C37_multipolygons (env : Env K) (henv : ∀ pts, HullOk (env.convexHull pts) pts)
    (x : Strategy K) (y : Option (Strategy K)) (lo : Int) (hi : Option Int) (blo : Int)
    (bhi : Option Int) (nlo : Int) (nhi : Option Int) (hlo : Int) (hhi : Option Int)
    (hnlo : 0 ≤ nlo) (p n : ℕ) (hp : p.Prime) (hp1 : 5 ≤ p ∧ max blo 3 + max hlo 3 * nlo ≤ p)
    (hn : n.Prime) (hn1 : max lo 2 * p ≤ n) (hx : Rich x n) (hy : Rich (y.getD x) n)
    (s : Made (List (Polygon K)))
    (hs : multipolygons env x y lo hi blo bhi nlo nhi hlo hhi = .ok s) (e : Exc)
    (h : s.2.err e) : ContourFails env (Drawn x y) e ∨ PolygonFails env (Drawn x y) nhi e := by
  simp only [multipolygons, exc_bind_ok, exc_pure_ok, validate_ok] at hs
  obtain ⟨w, ⟨hb, -⟩, w', ⟨hb', -⟩, w'', ⟨hb'', -⟩, w''', -, t, ht, rfl⟩ := hs
  have h2 : 2 ≤ max lo 2 := le_max_right _ _
  have hz : PolyBoundsOk ⟨max blo 3, bhi, nlo, nhi, max hlo 3, hhi⟩ := by
    have := polyBoundsOk_of (hlo := hlo) (hhi := hhi) hb' hb''
    rwa [max_eq_left hnlo] at this
  exact multipolygon_err henv hz hp hp1.1 hp1.2 (by omega) (okBounds_of hb).2 hn hn1 hx hy ht h

/-- C38: drawing a mix fails only when the construction of a contour or polygon fails. -/
theorem C38_mixes (env : Env K) (henv : ∀ pts, HullOk (env.convexHull pts) pts)
    (x : Strategy K) (y : Option (Strategy K)) (a : MixArgs) (p : ℕ) (hp : p.Prime)
    (hp1 : 5 ≤ p ∧ max a.minPolygonBorderSize 3 +
      max a.minPolygonHoleSize 3 * max a.minPolygonHolesSize 0 ≤ p)
    (hx : Rich x (max a.minPointsSize 1 + 2 * max a.minSegmentsSize 1 +
      max a.minPolygonsSize 1 * p))
    (hxy : ∀ n, Rich x n ↔ Rich (y.getD x) n) (s : Made (Mix K))
    (hs : mixes env x y a = .ok s) (e : Exc) (h : s.2.err e) :
    ContourFails env (Drawn x y) e ∨ PolygonFails env (Drawn x y) a.maxPolygonHolesSize e := by
  simp only [mixes, exc_bind_ok, validate_ok] at hs
  obtain ⟨w1, ⟨b1, -⟩, w2, ⟨b2, -⟩, w3, ⟨b3, -⟩, w4, ⟨b4, -⟩, w5, ⟨b5, -⟩, w6, -, hs⟩ := hs
  split at hs
  · simp only [exc_throw_ok] at hs
  · rename_i hcount
    simp only [exc_bind_ok, exc_pure_ok] at hs
    obtain ⟨t, ht, rfl⟩ := hs
    obtain ⟨z, hz, u, hu, h⟩ := unionMixes_err _ ht h
    obtain ⟨m1, m2, m3, k1, k2, k3⟩ := branches_minima a z hz hcount
    have hpoly : z.polygon = (a.sizes 0 0 0).polygon := a.branches_polygon z hz
    have bound : ∀ {lo v : Int} {hi : Option Int}, ¬ BadBounds lo hi 0 →
        (v = max lo 0 ∨ (v = max (max lo 0) 1 ∧ hi ≠ some 0)) →
        0 ≤ v ∧ v ≤ max lo 1 ∧ ∀ m, hi = some m → v ≤ m := by
      intro lo v hi hb hv
      have hb' := (okBounds_of hb).2
      refine ⟨by omega, by omega, fun m e => ?_⟩
      have hm := hb' m e
      rcases hv with h | ⟨h, h'⟩
      · omega
      · have : m ≠ 0 := fun hc => h' (by rw [e, hc])
        omega
    obtain ⟨p0, p1, p2⟩ := bound b1 k1
    obtain ⟨s0, s1, s2⟩ := bound b2 k2
    obtain ⟨g0, g1, g2⟩ := bound b3 k3
    have hzb : MixBoundsOk z := ⟨p0, s0, g0, by rw [m1]; exact p2, by rw [m2]; exact s2,
      by rw [m3]; exact g2, by rw [hpoly]; exact polyBoundsOk_of b4 b5⟩
    have hmost : z.polygon.maxHoleCount = a.maxPolygonHolesSize := by rw [hpoly]; rfl
    rw [← hmost]
    refine mixStrategy_err henv hzb hp hp1.1 (by rw [hpoly]; exact hp1.2) (hx.mono ?_) hxy hu h
    have : z.minPolygons * (p : Int) ≤ max a.minPolygonsSize 1 * p :=
      mul_le_mul_of_nonneg_right g1 (by positivity)
    omega

/-! ## Non-vacuity -/

theorem sample_rich (n : ℕ) (hn : 1 ≤ n) : Rich (sampledFrom (Sample.coords n)) n := by
  have hl : (Sample.coords n).length = n := by simp [Sample.coords]
  have := rich_sampledFrom (l := Sample.coords n) (by
    refine List.Nodup.map (fun a b h => ?_) List.nodup_range
    simpa using h) (by
    intro h
    rw [h] at hl
    simp at hl
    omega)
  rwa [hl] at this

/-- Non-vacuity for C36: seven values are enough for two triangles, and for a triangle with one
triangular hole. -/
example : (7 : ℕ).Prime ∧ (5 ≤ 7 ∧ max (2 : Int) 2 * max 3 3 ≤ (7 : ℕ)) ∧
    (5 ≤ 7 ∧ max (3 : Int) 3 + max 3 3 * max 1 0 ≤ (7 : ℕ)) ∧
    Rich (sampledFrom (Sample.coords 7)) (7 : ℕ) ∧
    (∃ s, multicontours Sample.env (sampledFrom (Sample.coords 7)) none = .ok s) ∧
    ∃ s, polygons Sample.env (sampledFrom (Sample.coords 7)) none 3 none 1 = .ok s :=
  ⟨by norm_num, by norm_num, by norm_num, sample_rich 7 (by norm_num), ⟨_, rfl⟩, ⟨_, rfl⟩⟩

/-- Non-vacuity for C37: eleven values are enough for two polygons without holes. -/
example : (11 : ℕ).Prime ∧ (5 ≤ 5 ∧ max (3 : Int) 3 + max 3 3 * 0 ≤ (5 : ℕ)) ∧
    max (2 : Int) 2 * (5 : ℕ) ≤ (11 : ℕ) ∧ Rich (sampledFrom (Sample.coords 11)) (11 : ℕ) ∧
    ∃ s, multipolygons Sample.env (sampledFrom (Sample.coords 11)) none = .ok s :=
  ⟨by norm_num, by norm_num, by norm_num, sample_rich 11 (by norm_num), ⟨_, rfl⟩⟩

/-- Non-vacuity for C38: eight values are enough for a mix. -/
example : Rich (sampledFrom (Sample.coords 8)) (max 0 1 + 2 * max 0 1 + max 0 1 * (5 : ℕ)) ∧
    ∃ s, mixes Sample.env (sampledFrom (Sample.coords 8)) none = .ok s :=
  ⟨sample_rich 8 (by norm_num), ⟨_, rfl⟩⟩

/-- The hypotheses on the number of values are needed: six values are not enough for two
triangles. -/
example : ∃ s, multicontours Sample.env (sampledFrom (Sample.coords 6)) none = .ok s ∧
    s.2.err .unsatisfiable := by
  refine ⟨_, rfl, ?_⟩
  show (toMulticontourStrategy Sample.env (sampledFrom (Sample.coords 6)) none 2 none 3
    none).err .unsatisfiable
  simp only [toMulticontourStrategy, err_filter, err_bind']
  refine Or.inl (Or.inr ⟨7, rfl, ?_⟩)
  refine Or.inl (Or.inl ?_)
  rw [err_uniqueLists]
  refine Or.inr (Or.inr ⟨?_, rfl⟩)
  rintro ⟨l, h1, h2, h3⟩
  have := (h2.subperm (l₂ := Sample.coords 6) fun a ha => h1 a ha).length_le
  have h6 : (Sample.coords 6).length = 6 := by simp [Sample.coords]
  omega

end
end HG
