import Verif.Props.HoleCounts
import Verif.Props.MixCounts

/-!
# C62 for mixes: every admissible combination of counts and numbers of holes occurs

The coordinates are split into one slab for the points, one slab for the segments and slabs of `p`
coordinates for the polygons, in this order.
-/

set_option linter.unusedSectionVars false

namespace HG

open Strategy Spec

variable {K : Type} [CommRing K] [LinearOrder K] [IsStrictOrderedRing K]

theorem partition_whole (n : ℕ) :
    (partitionStrategy (n : Int)).val (if n = 0 then [] else [(n : Int)]) := by
  unfold partitionStrategy
  rw [if_pos (Int.natCast_nonneg n), Int.toNat_natCast]
  cases n with
  | zero => rfl
  | succ n =>
    rw [partitionLoop, if_neg (by omega), if_neg (by omega)]
    refine ⟨((n + 1 : ℕ) : Int), ⟨by omega, le_rfl⟩, [], ?_, rfl⟩
    rw [sub_self]
    cases n with
    | zero => rfl
    | succ n => rw [partitionLoop, if_pos rfl]; rfl

theorem replicateDraw_const {α : Type} {s : Strategy α} {a : α} (h : s.val a) (n : ℕ) :
    (replicateDraw s n).val (List.replicate n a) := by
  induction n with
  | zero => rfl
  | succ n ih => exact ⟨a, h, _, ih, rfl⟩

/-- The counts of a mix with one group of points, one group of segments and equal slabs for the
polygons. -/
theorem pointCounts_whole {z : MixSizes} {np ns ng p q : ℕ} (hp : p.Prime) (h5 : 5 ≤ p)
    (hq : 0 < q) (hqp : ng ≠ 0 → q ≤ p)
    (h1 : z.minPoints ≤ np) (h2 : ∀ k, z.maxPoints = some k → np ≤ k)
    (h3 : z.minSegments ≤ ns) (h4 : ∀ k, z.maxSegments = some k → ns ≤ k)
    (h6 : z.minPolygons ≤ ng) (h7 : ∀ k, z.maxPolygons = some k → ng ≤ k) :
    (toPointCounts z q (np + 2 * ns + ng * p)).val
      (if np = 0 then [] else [(np : Int)], if ns = 0 then [] else [2 * (ns : Int)],
        List.replicate ng (p : Int)) := by
  simp only [toPointCounts, val_bind, val_integers, val_sampledFrom, val_pure]
  have hp0 : (0 : Int) < q := by omega
  have hm : (ng : Int) * q ≤ ng * p := by
    rcases Nat.eq_zero_or_pos ng with h | h
    · simp [h]
    · have := hqp (by omega)
      exact mul_le_mul_of_nonneg_left (by exact_mod_cast this) (by omega)
  refine ⟨ng, ⟨h6, minOpt_ge ?_ h7⟩, ?_⟩
  · rw [Int.le_ediv_iff_mul_le hp0]
    omega
  have draw : ∃ mpp', (if (ng : Int) ≠ 0 then ofExcept (toPriorPrime
      (((np + 2 * ns + ng * p : Int) - z.minPoints - 2 * z.minSegments) / ng)) else just 0).val mpp' ∧
      (if (ng : Int) ≠ 0 then replicateDraw (integers (q : Int) mpp') ((ng : Int)).toNat
        else just []).val (List.replicate ng (p : Int)) := by
    by_cases hne : (ng : Int) ≠ 0
    · have hpos : (0 : Int) < ng := by omega
      have hle : (p : Int) ≤ ((np + 2 * ns + ng * p : Int) - z.minPoints - 2 * z.minSegments) / ng := by
        rw [Int.le_ediv_iff_mul_le hpos]
        nlinarith
      obtain ⟨r, hr, -, -, -, hr3⟩ := toPriorPrime_spec
        (((np + 2 * ns + ng * p : Int) - z.minPoints - 2 * z.minSegments) / ng) (by omega)
      refine ⟨r, by rw [if_pos hne, val_ofExcept, hr], ?_⟩
      rw [if_pos hne, Int.toNat_natCast]
      have := hqp (by omega)
      have := hr3 p hp hle
      exact replicateDraw_const (s := integers (q : Int) r) ⟨by omega, by omega⟩ ng
    · have h0 : ng = 0 := by omega
      subst h0
      exact ⟨0, rfl, rfl⟩
  obtain ⟨mpp', d1, d2⟩ := draw
  have hsum : (List.replicate ng (p : Int)).sum = ng * p := by
    rw [List.sum_replicate, nsmul_eq_mul]
  have e2 : (np + 2 * ns + ng * p : Int) - 2 * ns - ng * p = np := by ring
  refine ⟨mpp', d1, _, d2, 2 * ns, ?_, if np = 0 then [] else [(np : Int)], ?_,
    if ns = 0 then [] else [(ns : Int)], ?_, ?_⟩
  · rw [mem_rangeStep2_iff, hsum]
    refine ⟨by omega, ?_, ⟨ns - z.minSegments, by ring⟩⟩
    refine Int.lt_add_one_iff.2 (minOpt_ge (by omega) ?_)
    intro k hk
    obtain ⟨m, hm, rfl⟩ := Option.map_eq_some_iff.1 hk
    have := h4 m hm
    omega
  · rw [hsum, e2, minOpt_eq h2]
    exact partition_whole np
  · rw [Int.mul_ediv_cancel_left _ (by norm_num : (2 : Int) ≠ 0)]
    exact partition_whole ns
  · congr 2
    split <;> rfl

/-- The polygons of a mix, with the given numbers of holes. -/
theorem mixLoop_polygons {env : Env K} (hcoin : Coins env.coinChange)
    (hset : ∀ l, (env.setOrder l).Perm l) (hcheck : SoundCheck env.segmentsCrossOrOverlap)
    (henv : ∀ pts, HullOk (env.convexHull pts) pts)
    {other : Strategy K} {z : PolygonSizes} {p : ℕ} (hp : p.Prime) (hp5 : 5 ≤ p)
    (hf : (p + 2) * (p + 2) ≤ env.fuel) (ks : List ℕ) (hks : ∀ j ∈ ks, HoleRoom z p j)
    (hy : ks ≠ [] → Rich other p)
    (R : List K) (hn : R.Nodup) (hgen : GenericSlab true R other) (hl : ks.length * p ≤ R.length)
    (s : MixState K) :
    ∃ t, (mixLoop env true other z (List.replicate ks.length (Drawer.polygon, (p : Int))) R s).val t ∧
      t.points = s.points ∧ t.segments = s.segments ∧
      t.polygons.map (fun g => g.holes.length) = s.polygons.map (fun g => g.holes.length) ++ ks := by
  induction ks generalizing R s with
  | nil => exact ⟨s, rfl, rfl, rfl, by simp⟩
  | cons k ks ih =>
    simp only [List.length_cons, List.replicate_succ] at hl ⊢
    have hl' : p ≤ R.length := by nlinarith
    have ho := hy (by simp)
    obtain ⟨r, hr, hrp, hr1, -, hr3⟩ := toPriorPrime_spec (p : Int) (by omega)
    have hrq : r = p := le_antisymm (by omega) (hr3 p hp le_rfl)
    subst hrq
    obtain ⟨g, g1, g2⟩ := slabPolygon_holes hcoin hset hcheck henv
      (hgen.mono (cs := R.take r) fun c hc => List.mem_of_mem_take hc)
      (hks k (by simp)) hp hp5 hf (hn.sublist (List.take_sublist _ _))
      (by rw [List.length_take]; omega) ho
    have hb3 := slabPolygon_border3 (by rw [(hks k (by simp)).least]) g1
    have htouch : ∃ b, canTouchNext true Drawer.polygon
        ((List.replicate ks.length (Drawer.polygon, (r : Int))).head?.map Prod.fst)
        { s with polygons := s.polygons ++ [g] } = .ok b := by
      cases hext : hasExtremeSegment true (contourEdges g.border.vertices) with
      | error e => exact absurd hext (touchPredicate_no_error hb3 e)
      | ok b =>
        cases ks with
        | nil => exact ⟨false, rfl⟩
        | cons j ks =>
          refine ⟨!b, ?_⟩
          simp only [List.length_cons, List.replicate_succ, List.head?_cons, Option.map_some,
            canTouchNext, List.getLast?_concat]
          rw [hext]
          rfl
    obtain ⟨b, hb⟩ := htouch
    have hb' := b2i_cases b
    obtain ⟨t, t1, t2, t3, t4⟩ := ih (fun j hj => hks j (by simp [hj])) (fun _ => ho)
      (R.drop ((r : Int) - b2i b).toNat) (hn.sublist (List.drop_sublist _ _))
      (hgen.mono fun c hc => List.mem_of_mem_drop hc) (by
        rw [List.length_drop]
        have : (ks.length + 1) * r = ks.length * r + r := by ring
        omega) { s with polygons := s.polygons ++ [g] }
    refine ⟨t, ⟨_, ⟨r, ?_, g, ?_, rfl⟩, b, by rw [val_ofExcept]; exact hb, t1⟩, t2, t3, ?_⟩
    · simp only [if_true, val_ofExcept]
      exact hr
    · simpa using g1
    · rw [t4]
      simp [g2]

theorem points_slab {C : List K} (hn : C.Nodup) {other : Strategy K} {c : K} (hc : other.val c) :
    ∃ ps, (toUniquePointSequenceStrategy (sampledFrom C) (some other) (C.length : Int)
      (some (C.length : Int))).val ps ∧ ps.length = C.length := by
  refine ⟨C.map fun a => ⟨a, c⟩, ⟨?_, ?_, ?_, ?_⟩, by simp⟩
  · intro q hq
    obtain ⟨a, ha, rfl⟩ := List.mem_map.1 hq
    exact ⟨(a, c), ⟨ha, hc⟩, rfl⟩
  · exact hn.map fun a b h => by simpa using congrArg Point.x h
  · simp
  · show ((List.map _ C).length : Int) ≤ _
    simp

theorem segments_slab {env : Env K} {C : List K} (hn : C.Nodup) {other : Strategy K} {k : ℕ}
    (hk : 1 ≤ k) (hC : C.length = 2 * k) (ho : Rich other (k + 1)) :
    ∃ ss, (toSegmentSequenceStrategy env (sampledFrom C) (some other) (k : Int)
      (some (k : Int))).val ss ∧ ss.length = k := by
  have hx : Rich (sampledFrom C) (k + 1) :=
    (rich_sampledFrom hn (by rintro rfl; simp at hC; omega)).mono (by omega)
  have hv : ∃ ss, (toSegmentSequenceStrategy env (sampledFrom C) (some other) (k : Int)
      (some (k : Int))).val ss := by
    rcases Nat.lt_or_ge k 2 with h | h
    · have h1 : k = 1 := by omega
      subst h1
      obtain ⟨s, hs⟩ := segment_value (hx.mono (by norm_num)) (ho.mono (by norm_num))
      refine ⟨[s], ?_⟩
      unfold toSegmentSequenceStrategy
      dsimp only
      rw [if_pos (by norm_num), if_pos (by norm_num)]
      exact ⟨s, hs, rfl⟩
    · exact segmentSequence_value (by omega) (by simp) (hx.mono (by omega)) ho
  obtain ⟨ss, hs⟩ := hv
  obtain ⟨h1, h2⟩ := segmentSequence_size ⟨by omega, fun m e => by cases e; exact le_rfl⟩ hs
  exact ⟨ss, hs, by have := h2 _ rfl; omega⟩

theorem canTouchNext_segments {next : Option Drawer} {s : MixState K} (h : s.segments ≠ []) :
    ∃ b, canTouchNext true Drawer.segments next s = .ok b := by
  cases hs : s.segments with
  | nil => exact absurd hs h
  | cons a l =>
    unfold canTouchNext
    split
    · exact ⟨_, rfl⟩
    · exact ⟨_, rfl⟩
    · dsimp only [hasExtremeSegment, touchPredicate]
      rw [hs]
      exact ⟨_, rfl⟩

theorem canTouchNext_points (a : Bool) (next : Option Drawer) (s : MixState K) :
    canTouchNext a Drawer.points next s = .ok false := by
  unfold canTouchNext
  split <;> rfl

/-- The segments and the polygons of a mix. -/
theorem mixLoop_segments {env : Env K} (hcoin : Coins env.coinChange)
    (hset : ∀ l, (env.setOrder l).Perm l) (hcheck : SoundCheck env.segmentsCrossOrOverlap)
    (henv : ∀ pts, HullOk (env.convexHull pts) pts)
    {other : Strategy K} {z : PolygonSizes} {p : ℕ} (hp : p.Prime) (hp5 : 5 ≤ p)
    (hf : (p + 2) * (p + 2) ≤ env.fuel) (ns : ℕ) (ks : List ℕ) (hks : ∀ j ∈ ks, HoleRoom z p j)
    (hy : ks ≠ [] → Rich other p) (hys : Rich other (ns + 1))
    (R : List K) (hn : R.Nodup) (hgen : GenericSlab true R other)
    (hl : 2 * ns + ks.length * p ≤ R.length) (s : MixState K) (hs : s.segments = []) :
    ∃ t, (mixLoop env true other z ((if ns = 0 then [] else [(Drawer.segments, 2 * (ns : Int))]) ++
        List.replicate ks.length (Drawer.polygon, (p : Int))) R s).val t ∧
      t.points = s.points ∧ t.segments.length = ns ∧
      t.polygons.map (fun g => g.holes.length) = s.polygons.map (fun g => g.holes.length) ++ ks := by
  by_cases h0 : ns = 0
  · subst h0
    obtain ⟨t, t1, t2, t3, t4⟩ := mixLoop_polygons hcoin hset hcheck henv hp hp5 hf ks hks hy R hn
      hgen (by omega) s
    exact ⟨t, by simpa using t1, t2, by rw [t3, hs]; rfl, t4⟩
  · rw [if_neg h0, List.singleton_append]
    obtain ⟨ss, ss1, ss2⟩ := segments_slab (env := env) (C := R.take (2 * ns))
      (hn.sublist (List.take_sublist _ _)) (k := ns) (by omega)
      (by rw [List.length_take]; omega) hys
    obtain ⟨b, hb⟩ := canTouchNext_segments
      (next := (List.replicate ks.length (Drawer.polygon, (p : Int))).head?.map Prod.fst)
      (s := { s with segments := s.segments ++ ss }) (by
        intro h
        dsimp only at h
        rw [hs, List.nil_append] at h
        rw [h] at ss2
        simp at ss2
        omega)
    have hb' := b2i_cases b
    obtain ⟨t, t1, t2, t3, t4⟩ := mixLoop_polygons hcoin hset hcheck henv hp hp5 hf ks hks hy
      (R.drop (2 * (ns : Int) - b2i b).toNat) (hn.sublist (List.drop_sublist _ _))
      (hgen.mono fun c hc => List.mem_of_mem_drop hc) (by rw [List.length_drop]; omega)
      { s with segments := s.segments ++ ss }
    refine ⟨t, ⟨_, ⟨ss, ?_, rfl⟩, b, by rw [val_ofExcept]; exact hb, t1⟩, t2, ?_, t4⟩
    · simp only [if_true]
      rw [Int.mul_ediv_cancel_left _ (by norm_num : (2 : Int) ≠ 0),
        show (2 * (ns : Int)).toNat = 2 * ns by omega]
      exact ss1
    · rw [t3, hs]
      simpa using ss2

/-- The points, the segments and the polygons of a mix. -/
theorem mixLoop_whole {env : Env K} (hcoin : Coins env.coinChange)
    (hset : ∀ l, (env.setOrder l).Perm l) (hcheck : SoundCheck env.segmentsCrossOrOverlap)
    (henv : ∀ pts, HullOk (env.convexHull pts) pts)
    {other : Strategy K} {z : PolygonSizes} {p : ℕ} (hp : p.Prime) (hp5 : 5 ≤ p)
    (hf : (p + 2) * (p + 2) ≤ env.fuel) (np ns : ℕ) (ks : List ℕ) (hks : ∀ j ∈ ks, HoleRoom z p j)
    (hy : ks ≠ [] → Rich other p) (hys : Rich other (ns + 1))
    (R : List K) (hn : R.Nodup) (hgen : GenericSlab true R other)
    (hl : np + 2 * ns + ks.length * p ≤ R.length) :
    ∃ t, (mixLoop env true other z ((if np = 0 then [] else [(Drawer.points, (np : Int))]) ++
        ((if ns = 0 then [] else [(Drawer.segments, 2 * (ns : Int))]) ++
        List.replicate ks.length (Drawer.polygon, (p : Int)))) R ⟨[], [], []⟩).val t ∧
      t.points.length = np ∧ t.segments.length = ns ∧
      t.polygons.map (fun g => g.holes.length) = ks := by
  by_cases h0 : np = 0
  · subst h0
    obtain ⟨t, t1, t2, t3, t4⟩ := mixLoop_segments hcoin hset hcheck henv hp hp5 hf ns ks hks hy hys
      R hn hgen (by omega) ⟨[], [], []⟩ rfl
    exact ⟨t, by simpa using t1, by rw [t2]; rfl, t3, by simpa using t4⟩
  · rw [if_neg h0, List.singleton_append]
    obtain ⟨c, hc⟩ := hys.nonempty (by omega)
    have hC : (R.take np).length = np := by rw [List.length_take]; omega
    obtain ⟨ps, ps1, ps2⟩ := points_slab (C := R.take np) (hn.sublist (List.take_sublist _ _)) hc
    rw [hC] at ps1 ps2
    obtain ⟨t, t1, t2, t3, t4⟩ := mixLoop_segments hcoin hset hcheck henv hp hp5 hf ns ks hks hy hys
      (R.drop ((np : Int) - b2i false).toNat) (hn.sublist (List.drop_sublist _ _))
      (hgen.mono fun c hc => List.mem_of_mem_drop hc)
      (by rw [List.length_drop]; have := b2i_cases false; omega) ⟨[] ++ ps, [], []⟩ rfl
    refine ⟨t, ⟨_, ⟨ps, ?_, rfl⟩, false, ?_, t1⟩, by rw [t2]; simpa using ps2, t3, by simpa using t4⟩
    · simp only [if_true]
      exact ps1
    · rw [val_ofExcept]
      exact canTouchNext_points _ _ _

/-- A branch of `mixes` yields every admissible combination of counts and numbers of holes. -/
theorem mixStrategy_holes {env : Env K} (hcoin : Coins env.coinChange)
    (hset : ∀ l, (env.setOrder l).Perm l) (hcheck : SoundCheck env.segmentsCrossOrOverlap)
    (henv : ∀ pts, HullOk (env.convexHull pts) pts)
    {x : Strategy K} {y : Option (Strategy K)} (hgen : GenericCoords x y) {z : MixSizes}
    (hz : 3 ≤ z.polygon.minSize + z.polygon.minHoleCount * z.polygon.minHoleSize)
    {np ns : ℕ} {ks : List ℕ} {p : ℕ} (hp : p.Prime) (hp5 : 5 ≤ p)
    (hf : (p + 2) * (p + 2) ≤ env.fuel) (hks : ∀ j ∈ ks, HoleRoom z.polygon p j)
    (hx : Rich x (np + 2 * ns + ks.length * p : ℕ)) (hy : ks ≠ [] → Rich (y.getD x) p)
    (hys : Rich (y.getD x) (ns + 1))
    (h1 : z.minPoints ≤ np) (h2 : ∀ k, z.maxPoints = some k → np ≤ k)
    (h3 : z.minSegments ≤ ns) (h4 : ∀ k, z.maxSegments = some k → ns ≤ k)
    (h6 : 0 ≤ z.minPolygons) (h6' : z.minPolygons ≤ ks.length)
    (h7 : ∀ k, z.maxPolygons = some k → ks.length ≤ k)
    {s : Strategy (Mix K)} (hs : toMixStrategy env x y z = .ok s) :
    ∃ v, s.val v ∧ (mixPoints v).length = np ∧ (mixSegments v).length = ns ∧
      (mixPolygons v).map (fun g => g.holes.length) = ks := by
  obtain ⟨q, hq, hqp, -, hq5, -, hqmin⟩ :=
    toNextPrime_spec (z.polygon.minSize + z.polygon.minHoleCount * z.polygon.minHoleSize) hz
  have hqp' : ks.length ≠ 0 → q ≤ p := by
    intro h
    obtain ⟨k, hk⟩ := List.exists_mem_of_length_pos (Nat.pos_of_ne_zero h)
    have h := hks k hk
    refine hqmin p hp ?_ hp5
    rw [h.least, h.hole]; have := h.low; have := h.room; omega
  simp only [toMixStrategy, exc_bind_ok, exc_pure_ok, hq] at hs
  obtain ⟨_, h', hs⟩ := hs
  cases h'
  subst hs
  obtain ⟨xs, x1, x2, x3⟩ := hx.exactly
  have hyo : ∀ n, Rich (y.getD x) n → Rich (yOr x y) n := by
    intro n h
    cases y <;> exact h
  obtain ⟨t, t1, t2, t3, t4⟩ := mixLoop_whole hcoin hset hcheck henv hp hp5 hf np ns ks hks
    (fun h => hyo _ (hy h)) (hyo _ hys) (sortCoords xs) ((sortCoords_perm xs).nodup_iff.2 x2)
    (genericSlab_x hgen fun c hc => x1 c ((sortCoords_perm xs).mem_iff.1 hc))
    (by rw [(sortCoords_perm xs).length_eq, x3])
  refine ⟨⟨unpackPoints t.points, unpackSegments t.segments, unpackPolygons t.polygons⟩,
    .inl ⟨xs, ⟨x1, x2, ?_, trivial⟩, (if np = 0 then [] else [(np : Int)],
      if ns = 0 then [] else [2 * (ns : Int)], List.replicate ks.length (p : Int)), ?_, _, ?_, t, t1,
      rfl⟩, ?_⟩
  · rw [x3]
    push_cast
    have : z.minPolygons * q ≤ ks.length * p := by
      by_cases h : ks.length = 0
      · have : z.minPolygons = 0 := by omega
        rw [this, h]; simp
      · exact mul_le_mul h6' (by exact_mod_cast hqp' h) (by omega) (by omega)
    omega
  · have := pointCounts_whole (z := z) (np := np) (ns := ns) (ng := ks.length) hp hp5
      (q := q) (by omega) hqp' h1 h2 h3 h4 h6' h7
    rw [x3]
    push_cast
    exact this
  · rw [val_permutations]
    refine List.Perm.of_eq ?_
    rw [List.append_assoc]
    congr 1
    · split <;> rfl
    · congr 1
      · split <;> rfl
      · simp
  · rw [unpackPoints_spec, unpackSegments_spec, unpackPolygons_spec]
    exact ⟨t2, t3, t4⟩

/-- C62 for `mixes`: if triangular borders and holes are allowed, any admissible numbers of points,
segments and polygons, at least two of them positive, occur together with any admissible numbers of
holes of the polygons. -/
theorem C62_mixes (env : Env K) (hcoin : Coins env.coinChange)
    (hset : ∀ l, (env.setOrder l).Perm l) (hcheck : SoundCheck env.segmentsCrossOrOverlap)
    (henv : ∀ pts, HullOk (env.convexHull pts) pts)
    (x : Strategy K) (y : Option (Strategy K)) (hgen : GenericCoords x y) (a : MixArgs)
    (h1 : a.minPolygonBorderSize ≤ 3) (h2 : a.minPolygonHoleSize ≤ 3)
    (np ns : ℕ) (ks : List ℕ) (hp : SizeIn a.minPointsSize a.maxPointsSize np)
    (hseg : SizeIn a.minSegmentsSize a.maxSegmentsSize ns)
    (hpol : SizeIn a.minPolygonsSize a.maxPolygonsSize ks.length)
    (hk : ∀ k ∈ ks, SizeIn a.minPolygonHolesSize a.maxPolygonHolesSize k)
    (htwo : (0 < np ∧ 0 < ns) ∨ (0 < np ∧ ks ≠ []) ∨ (0 < ns ∧ ks ≠ []))
    (p : ℕ) (hpp : p.Prime) (hp5 : 5 ≤ p) (hpk : ∀ k ∈ ks, 6 * k + 3 ≤ p)
    (hb : ∀ m, a.maxPolygonBorderSize = some m → p + 3 ≤ 2 * m)
    (hm : ∀ b n h, a.maxPolygonBorderSize = some b → a.maxPolygonHolesSize = some n →
      a.maxPolygonHoleSize = some h → p ≤ b + h * n)
    (hf : (p + 2) * (p + 2) ≤ env.fuel)
    (hx : Rich x (np + 2 * ns + ks.length * p : ℕ)) (hy : ks ≠ [] → Rich (y.getD x) p)
    (hys : Rich (y.getD x) (ns + 1))
    (s : Made (Mix K)) (hs : mixes env x y a = .ok s) :
    ∃ v, s.2.val v ∧ (mixPoints v).length = np ∧ (mixSegments v).length = ns ∧
      (mixPolygons v).map (fun g => g.holes.length) = ks := by
  simp only [mixes, exc_bind_ok, validate_ok] at hs
  obtain ⟨w1, ⟨b1, -⟩, w2, ⟨b2, -⟩, w3, ⟨b3, -⟩, w4, ⟨b4, -⟩, w5, ⟨b5, -⟩, w6, ⟨b6, -⟩, hs⟩ := hs
  split at hs
  · simp only [exc_throw_ok] at hs
  · simp only [exc_bind_ok, exc_pure_ok] at hs
    obtain ⟨t, ht, rfl⟩ := hs
    have key : ∀ {p' q g : Int}, a.sizes p' q g ∈ a.branches → 0 ≤ g → p' ≤ np →
        q ≤ ns → g ≤ ks.length → ∃ v, t.val v ∧ (mixPoints v).length = np ∧
          (mixSegments v).length = ns ∧ (mixPolygons v).map (fun g => g.holes.length) = ks := by
      intro p' q g hmem g0 p1 q1 g1
      obtain ⟨u, hu, hsub⟩ := unionMixes_mem ht hmem
      obtain ⟨v, hv, rest⟩ := mixStrategy_holes hcoin hset hcheck henv hgen
        (z := a.sizes p' q g) (np := np) (ns := ns) (ks := ks) (by
          have e1 : (3 : Int) ≤ max a.minPolygonBorderSize 3 := le_max_right _ _
          have e2 : (0 : Int) ≤ max a.minPolygonHolesSize 0 := le_max_right _ _
          have e3 : (0 : Int) ≤ max a.minPolygonHoleSize 3 := le_trans (by norm_num) (le_max_right _ _)
          have := mul_nonneg e2 e3
          show 3 ≤ max a.minPolygonBorderSize 3 + max a.minPolygonHolesSize 0 *
            max a.minPolygonHoleSize 3
          omega) hpp hp5 hf (fun k hk' => by
            refine ⟨max_eq_right h1, max_eq_right h2, le_max_right _ _,
              max_le (hk k hk').1 (by omega), (hk k hk').2, fun m hm => ?_, hpk k hk', hb,
              fun m hm' => ?_⟩
            · have := (okBounds_of b6).2 m hm; omega
            · unfold PolygonSizes.maxPointCount at hm'
              split at hm'
              · rename_i b n h e1 e2 e3
                rw [Option.some.injEq] at hm'
                rw [← hm']
                exact hm b n h e1 e2 e3
              · cases hm') hx hy hys p1 hp.2 q1 hseg.2 g0 g1 hpol.2 hu
      exact ⟨v, hsub v hv, rest⟩
    have ne : ∀ {m : Option Int} {n : ℕ}, 0 < n → (∀ k, m = some k → (n : Int) ≤ k) →
        mayBeNonEmpty m = true := by
      intro m n hn h
      cases m with
      | none => rfl
      | some k =>
        have := h k rfl
        simp only [mayBeNonEmpty, decide_eq_true_eq]
        omega
    have l1 := hp.1
    have l2 := hseg.1
    have l3 := hpol.1
    rcases htwo with ⟨p1, s1⟩ | ⟨p1, g1⟩ | ⟨s1, g1⟩
    · refine key (p' := max (max a.minPointsSize 0) 1) (q := max (max a.minSegmentsSize 0) 1)
        (g := max a.minPolygonsSize 0) ?_ (by omega) (by omega) (by omega) (by omega)
      unfold MixArgs.branches
      simp only [ne p1 hp.2, ne s1 hseg.2, if_true]
      split <;> simp
    · have g1 := List.length_pos_of_ne_nil g1
      refine key (p' := max (max a.minPointsSize 0) 1) (q := max a.minSegmentsSize 0)
        (g := max (max a.minPolygonsSize 0) 1) ?_ (by omega) (by omega) (by omega) (by omega)
      unfold MixArgs.branches
      simp only [ne p1 hp.2, ne g1 hpol.2, if_true]
      split <;> simp
    · have g1 := List.length_pos_of_ne_nil g1
      refine key (p' := max a.minPointsSize 0) (q := max (max a.minSegmentsSize 0) 1)
        (g := max (max a.minPolygonsSize 0) 1) ?_ (by omega) (by omega) (by omega) (by omega)
      unfold MixArgs.branches
      simp only [ne s1 hseg.2, ne g1 hpol.2, if_true]
      split <;> simp

end HG
