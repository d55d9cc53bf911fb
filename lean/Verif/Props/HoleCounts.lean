import Verif.Lemmas.HoleCount
import Verif.Props.EdgeOrder

/-!
# C62: every number of holes occurs
-/

set_option linter.unusedSectionVars false

namespace HG

open Strategy Spec

section
variable {K : Type} [CommRing K] [LinearOrder K] [IsStrictOrderedRing K]

theorem sequence_ranges_least {m : Int} {l : List Int} (h : ∀ a ∈ l, m ≤ a) :
    (Strategy.sequence (l.map fun a => sampledFrom (rangeIncl m a))).val
      (List.replicate l.length m) := by
  induction l with
  | nil => simp
  | cons a l ih =>
    simp only [List.map_cons, Strategy.sequence, List.length_cons, List.replicate_succ]
    refine ⟨m, ?_, _, ih fun b hb => h b (by simp [hb]), rfl⟩
    have := h a (by simp)
    show m ∈ rangeIncl m a
    unfold rangeIncl
    exact List.mem_map.2 ⟨0, by rw [List.mem_range]; omega, by simp⟩

/-- The least numbers of vertices are offered for any number of holes the inner points suffice for. -/
theorem holeSizes_least {z : PolygonSizes} {pts : List (Point K)} {k : ℕ} (h3 : 3 ≤ z.minHoleSize)
    (h0 : z.minHoleCount ≤ k) (hb : ∀ m, z.maxHoleCount = some m → k ≤ m)
    (hin : z.minHoleSize * k ≤ pts.length - (toMaxConvexHull pts).length) :
    (toHoleSizes z pts).val (List.replicate k z.minHoleSize) := by
  unfold toHoleSizes
  dsimp only
  generalize (pts.length : Int) - ((toMaxConvexHull pts).length : Int) = I at hin
  split
  · refine ⟨k, ⟨h0, ?_⟩, ?_⟩
    · have : (k : Int) ≤ I / z.minHoleSize :=
        (Int.le_ediv_iff_mul_le (by omega)).2 (by rw [mul_comm]; exact hin)
      cases hm : z.maxHoleCount with
      | none => exact this
      | some m => exact le_min this (hb m hm)
    · unfold toHoleSizesAux
      split
      · rename_i hk
        have : k = 0 := by omega
        subst this
        simp
      · rename_i hk
        obtain ⟨r, hr, r1, r2, r3⟩ := distribute_spec (I - k * z.minHoleSize).toNat 0
          (List.replicate (k : Int).toNat z.minHoleSize) (by simp; omega) z.minHoleSize
          (fun a ha => by rw [(List.mem_replicate.1 ha).2])
        simp only [val_bind, val_ofExcept, hr, val_permutations]
        refine ⟨r, rfl, _, List.Perm.refl _, ?_⟩
        rw [List.map_map]
        have := sequence_ranges_least r3
        rw [r1, List.length_replicate, Int.toNat_natCast] at this
        exact this
  · rename_i hlt
    have : k = 0 := by
      by_contra hne
      have : (1 : Int) ≤ k := by omega
      nlinarith
    subst this
    simp

/-- A polygon with the given number of triangular holes can be drawn. -/
theorem polygonStrategy_holes {env : Env K} (hcoin : Coins env.coinChange)
    (hset : ∀ l, (env.setOrder l).Perm l) (hcheck : SoundCheck env.segmentsCrossOrOverlap)
    (henv : ∀ pts, HullOk (env.convexHull pts) pts)
    {x : Strategy K} {y : Option (Strategy K)} (hgen : GenericCoords x y) {z : PolygonSizes} {k p : ℕ}
    (h1 : z.minSize = 3) (h2 : z.minHoleSize = 3) (hk1 : z.minHoleCount ≤ k)
    (hk0 : 0 ≤ z.minHoleCount)
    (hk2 : ∀ m, z.maxHoleCount = some m → k ≤ m) (hhi : ∀ m, z.maxHoleSize = some m → 3 ≤ m)
    (hp : p.Prime) (hp5 : 5 ≤ p) (hpk : 6 * k + 3 ≤ p)
    (hb : ∀ m, z.maxSize = some m → p + 3 ≤ 2 * m) (hm : ∀ m, z.maxPointCount = some m → p ≤ m)
    (hf : (p + 2) * (p + 2) ≤ env.fuel) (hx : Rich x p) (hy : Rich (y.getD x) p) :
    ∃ v, (toPolygonStrategy env x y z).val v ∧ v.holes.length = k := by
  have h3 : 3 ≤ z.minSize + z.minHoleSize * z.minHoleCount := by rw [h1, h2]; omega
  obtain ⟨pts, hpts, hlen, hhull⟩ := generalPosition_inner (x := x) (y := y)
    (hi := z.maxPointCount) h3 hp hp5 (by rw [h1, h2]; omega) hm hx hy
  have sc := generalPosition_scattered h3 hpts
  have no := generalPosition_noThree hgen h3 hpts
  have nc := spread_notAllCol h3 hpts
  have hull1 := hull_length_le (henv pts) sc.nodup (by omega)
  have hsum : (List.replicate k (3 : Int)).sum ≤ pts.length - (toMaxConvexHull pts).length := by
    rw [List.sum_replicate, nsmul_eq_mul]; omega
  have h33 : ∀ h ∈ List.replicate k (3 : Int), 3 ≤ h := fun h hh => by
    rw [(List.mem_replicate.1 hh).2]
  obtain ⟨v, hv⟩ : ∃ v, toPolygon env pts (max 3 (env.convexHull pts).length) (List.replicate k 3)
      (fun _ => true) = .ok v := by
    rw [toPolygon_check (env := env) hcoin.sums hset hcheck sc.nodup no]
    exact toPolygon_total (env := { env with segmentsCrossOrOverlap := fun _ => false })
      hcoin hset (fun _ => rfl) sc.nodup nc no (by rw [hlen]; exact hf) _ _ _ h33 hsum
  obtain ⟨b1, b2, b3⟩ := toPolygon_counts hcoin hset sc.nodup no (by omega) h33 hsum hv
  have hcount : v.holes.length = k := by rw [b3.length_eq, List.length_replicate]
  refine ⟨v, ⟨⟨pts, ⟨hpts, ?_⟩, ?_⟩, ?_⟩, hcount⟩
  · unfold hasValidInnerPointCount
    rw [Bool.and_eq_true, decide_eq_true_eq, h2]
    refine ⟨?_, by omega⟩
    cases hm : z.maxSize with
    | none => rfl
    | some m =>
      have := hb m hm
      simp only [decide_eq_true_eq]
      omega
  · unfold pointsToPolygonStrategy
    rw [val_mapE]
    refine ⟨(max z.minSize (env.convexHull pts).length, List.replicate k z.minHoleSize, fun _ => true),
      ⟨⟨le_refl _, ?_⟩, holeSizes_least (by omega) hk1 hk2 (by rw [h2]; omega), trivial⟩, ?_⟩
    · rw [h1, h2]
      cases hm : z.maxSize with
      | none => simp only [minOpt]; omega
      | some m =>
        have := hb m hm
        simp only [minOpt]
        omega
    · rw [h1, h2]; exact hv
  · unfold polygonHasValidSizes multicontourHasValidSizes
    rw [Bool.and_eq_true, Bool.and_eq_true, hasValidSize_iff, hasValidSize_iff, hcount, h1, h2]
    refine ⟨⟨by omega, fun m hm => ?_⟩, ⟨hk1, hk2⟩, ?_⟩
    · have := hb m hm; omega
    · rw [List.all_eq_true]
      intro c hc
      rw [hasValidSize_iff]
      obtain ⟨i, hi, rfl⟩ := List.getElem_of_mem hc
      have := b3.get hi (by rw [List.length_replicate]; omega)
      simp only [List.get_eq_getElem, List.getElem_replicate] at this
      exact ⟨by omega, fun m hm => by have := hhi m hm; omega⟩

/-- C62: if triangular borders and holes are allowed, polygons with any admissible number of holes
occur. -/
theorem C62_polygons (env : Env K) (hcoin : Coins env.coinChange)
    (hset : ∀ l, (env.setOrder l).Perm l) (hcheck : SoundCheck env.segmentsCrossOrOverlap)
    (henv : ∀ pts, HullOk (env.convexHull pts) pts)
    (x : Strategy K) (y : Option (Strategy K)) (hgen : GenericCoords x y) (lo : Int)
    (hi : Option Int) (nlo : Int) (nhi : Option Int) (hlo : Int) (hhi : Option Int)
    (h1 : lo ≤ 3) (h2 : hlo ≤ 3) (k : ℕ) (hk1 : nlo ≤ k) (hk2 : ∀ m, nhi = some m → k ≤ m)
    (p : ℕ) (hp : p.Prime) (hp5 : 5 ≤ p) (hpk : 6 * k + 3 ≤ p)
    (hb : ∀ m, hi = some m → p + 3 ≤ 2 * m)
    (hm : ∀ a b c, hi = some a → nhi = some b → hhi = some c → p ≤ a + c * b)
    (hf : (p + 2) * (p + 2) ≤ env.fuel) (hx : Rich x p) (hy : Rich (y.getD x) p)
    (s : Made (Polygon K)) (hs : polygons env x y lo hi nlo nhi hlo hhi = .ok s) :
    ∃ v, s.2.val v ∧ v.holes.length = k := by
  simp only [polygons, exc_bind_ok, exc_pure_ok, validate_ok] at hs
  obtain ⟨w, ⟨b1, -⟩, w', ⟨b2, -⟩, w'', ⟨b3, -⟩, rfl⟩ := hs
  refine polygonStrategy_holes hcoin hset hcheck henv hgen (by dsimp only; omega)
    (by dsimp only; omega) (by dsimp only; omega) (by dsimp only; omega) hk2 (fun m hm => ?_) hp hp5
    hpk hb (fun m hm' => ?_) hf hx hy
  · have := (okBounds_of b3).2 m hm; omega
  · unfold PolygonSizes.maxPointCount at hm'
    split at hm'
    · rename_i a b c e1 e2 e3
      rw [Option.some.injEq] at hm'
      rw [← hm']
      exact hm a b c e1 e2 e3
    · cases hm'

/-! ## Multipolygons -/

/-- The bounds on polygons under which the given number of holes occurs for `p` coordinates. -/
structure Spec.HoleRoom (z : PolygonSizes) (p k : ℕ) : Prop where
  least : z.minSize = 3
  hole : z.minHoleSize = 3
  nonneg : 0 ≤ z.minHoleCount
  low : z.minHoleCount ≤ k
  high : ∀ m, z.maxHoleCount = some m → k ≤ m
  holeHigh : ∀ m, z.maxHoleSize = some m → 3 ≤ m
  room : 6 * k + 3 ≤ p
  most : ∀ m, z.maxSize = some m → p + 3 ≤ 2 * m
  points : ∀ m, z.maxPointCount = some m → p ≤ m

theorem slabPolygon_holes {env : Env K} (hcoin : Coins env.coinChange)
    (hset : ∀ l, (env.setOrder l).Perm l) (hcheck : SoundCheck env.segmentsCrossOrOverlap)
    (henv : ∀ pts, HullOk (env.convexHull pts) pts) {a : Bool}
    {coords : List K} {other : Strategy K} (hgen : GenericSlab a coords other) {z : PolygonSizes}
    {k p : ℕ} (hz : HoleRoom z p k) (hp : p.Prime) (hp5 : 5 ≤ p)
    (hf : (p + 2) * (p + 2) ≤ env.fuel) (hn : coords.Nodup) (hc : p ≤ coords.length)
    (hy : Rich other p) : ∃ v, (slabPolygon env a coords other z).val v ∧ v.holes.length = k := by
  have hx : Rich (sampledFrom coords) p :=
    (rich_sampledFrom hn (by rintro rfl; simp at hc; omega)).mono (by exact_mod_cast hc)
  cases a
  · simp only [slabPolygon, Bool.false_eq_true, if_false]
    exact polygonStrategy_holes hcoin hset hcheck henv hgen hz.least hz.hole hz.low hz.nonneg hz.high
      hz.holeHigh hp hp5 hz.room hz.most hz.points hf hy hx
  · simp only [slabPolygon, if_true]
    exact polygonStrategy_holes hcoin hset hcheck henv hgen hz.least hz.hole hz.low hz.nonneg hz.high
      hz.holeHigh hp hp5 hz.room hz.most hz.points hf hx hy

theorem slabLoop_holes {env : Env K} (hcoin : Coins env.coinChange)
    (hset : ∀ l, (env.setOrder l).Perm l) (hcheck : SoundCheck env.segmentsCrossOrOverlap)
    (henv : ∀ pts, HullOk (env.convexHull pts) pts) {a : Bool}
    {coords : List K} {other : Strategy K} (hgen : GenericSlab a coords other) {z : PolygonSizes}
    {p : ℕ} (hp : p.Prime) (hp5 : 5 ≤ p) (hf : (p + 2) * (p + 2) ≤ env.fuel) (hn : coords.Nodup)
    (hy : Rich other p) {q : Int} (hq : q ≤ p) (k : ℕ) (ks : List ℕ)
    (hks : ∀ j ∈ k :: ks, HoleRoom z p j) (start : Int) (h0 : 0 ≤ start)
    (hroom : ((ks.length : Int) + 1) * p ≤ coords.length - start) :
    ∃ v, (slabLoop env a coords other z q ks.length start).val v ∧
      v.map (fun g => g.holes.length) = k :: ks := by
  induction ks generalizing k start with
  | nil =>
    obtain ⟨v, h1, h2⟩ := slabPolygon_holes hcoin hset hcheck henv
      (hgen.mono (cs := coords.drop start.toNat) fun c hc => List.mem_of_mem_drop hc)
      (hks k (by simp)) hp hp5 hf (hn.sublist (List.drop_sublist _ _)) (by
        rw [List.length_drop]
        simp only [List.length_nil, Nat.cast_zero, zero_add, one_mul] at hroom
        omega) hy
    exact ⟨[v], ⟨v, h1, rfl⟩, by simp [h2]⟩
  | cons j ks ih =>
    simp only [List.length_cons] at hroom ⊢
    push_cast at hroom
    have hl : (p : Int) ≤ (coords.length - start) / ((ks.length : Int) + 2) :=
      (Int.le_ediv_iff_mul_le (by omega)).2 (by nlinarith)
    obtain ⟨r, hr, hrp, hr1, -, hr3⟩ := toPriorPrime_spec (p : Int) (by omega)
    have hrq : r = p := le_antisymm (by omega) (hr3 p hp le_rfl)
    subst hrq
    have hlen : (slice coords start (start + r)).length = r := by
      unfold slice
      rw [List.length_take, List.length_drop]
      have : 0 ≤ ((ks.length : Int) + 1) * r := by positivity
      have : ((ks.length : Int) + 1 + 1) * r = ((ks.length : Int) + 1) * r + r := by ring
      omega
    obtain ⟨g, g1, g2⟩ := slabPolygon_holes hcoin hset hcheck henv
      (hgen.mono (cs := slice coords start (start + r)) fun c hc =>
        List.mem_of_mem_drop (List.mem_of_mem_take hc))
      (hks k (by simp)) hp hp5 hf
      ((hn.sublist (List.drop_sublist _ _)).sublist (List.take_sublist _ _)) hlen.ge hy
    have hb3 := slabPolygon_border3 (by rw [(hks k (by simp)).least]) g1
    cases hext : hasExtremeSegment a (contourEdges g.border.vertices) with
    | error e => exact absurd hext (touchPredicate_no_error hb3 e)
    | ok b =>
      have hb := b2i_cases (!b)
      obtain ⟨v, v1, v2⟩ := ih j (fun i hi => hks i (by
          rw [List.mem_cons] at hi ⊢; exact .inr (by simpa using hi))) (start + r - b2i (!b)) (by omega) (by
        have : ((ks.length : Int) + 1 + 1) * r = ((ks.length : Int) + 1) * r + r := by ring
        omega)
      refine ⟨g :: v, ?_, by simp [g2, v2]⟩
      rw [slabLoop]
      simp only [val_bind, val_integers, val_ofExcept, val_pure]
      exact ⟨r, ⟨hq, hl⟩, r, hr, g, g1, b, hext, v, v1, rfl⟩

/-- C62 for `multipolygons`: if triangular borders and holes are allowed, any admissible number of
polygons with any admissible numbers of holes occurs. -/
theorem C62_multipolygons (env : Env K) (hcoin : Coins env.coinChange)
    (hset : ∀ l, (env.setOrder l).Perm l) (hcheck : SoundCheck env.segmentsCrossOrOverlap)
    (henv : ∀ pts, HullOk (env.convexHull pts) pts)
    (x : Strategy K) (y : Option (Strategy K)) (hgen : GenericCoords x y) (lo : Int)
    (hi : Option Int) (blo : Int)
    (bhi : Option Int) (nlo : Int) (nhi : Option Int) (hlo : Int) (hhi : Option Int)
    (h1 : blo ≤ 3) (h2 : hlo ≤ 3) (h0 : 0 ≤ nlo) (ks : List ℕ)
    (hks : SizeIn (max lo 2) hi ks.length) (hk : ∀ k ∈ ks, SizeIn nlo nhi k)
    (p : ℕ) (hp : p.Prime) (hp5 : 5 ≤ p) (hpk : ∀ k ∈ ks, 6 * k + 3 ≤ p)
    (hb : ∀ m, bhi = some m → p + 3 ≤ 2 * m)
    (hm : ∀ a b c, bhi = some a → nhi = some b → hhi = some c → p ≤ a + c * b)
    (hf : (p + 2) * (p + 2) ≤ env.fuel) (hx : Rich x (ks.length * p : ℕ)) (hy : Rich (y.getD x) p)
    (s : Made (List (Polygon K)))
    (hs : multipolygons env x y lo hi blo bhi nlo nhi hlo hhi = .ok s) :
    ∃ v, s.2.val v ∧ v.map (fun g => g.holes.length) = ks := by
  simp only [multipolygons, exc_bind_ok, exc_pure_ok, validate_ok] at hs
  obtain ⟨w, ⟨b1, -⟩, w', ⟨b2, -⟩, w'', ⟨b3, -⟩, w3, ⟨b4, -⟩, t, ht, rfl⟩ := hs
  set z : PolygonSizes := ⟨max blo 3, bhi, nlo, nhi, max hlo 3, hhi⟩ with hz
  have hroom : ∀ k ∈ ks, HoleRoom z p k := fun k hk' => by
    refine ⟨max_eq_right h1, max_eq_right h2, h0, (hk k hk').1, (hk k hk').2, fun m hm => ?_,
      hpk k hk', hb, fun m hm' => ?_⟩
    · have := (okBounds_of b4).2 m hm; omega
    · unfold PolygonSizes.maxPointCount at hm'
      split at hm'
      · rename_i a b c e1 e2 e3
        rw [Option.some.injEq] at hm'
        rw [← hm']
        exact hm a b c e1 e2 e3
      · cases hm'
  have n2 : (2 : Int) ≤ ks.length := (le_max_right _ _).trans hks.1
  obtain ⟨k, ks, rfl⟩ : ∃ k l, ks = k :: l := by
    cases ks with
    | nil => simp at n2
    | cons k l => exact ⟨k, l, rfl⟩
  have hk0 := hroom k (by simp)
  obtain ⟨q, hq, hqp, hq1, hq5, -, hq2⟩ := toNextPrime_spec (z.minSize + z.minHoleCount * z.minHoleSize)
    (by rw [hk0.least, hk0.hole]; have := hk0.nonneg; omega)
  have hqp' : q ≤ p := hq2 p hp (by
    rw [hk0.least, hk0.hole]; have := hk0.low; have := hk0.room; omega) hp5
  obtain ⟨xs, x1, x2, x3⟩ := hx.exactly
  have hval : ∃ v, ((uniqueLists x (max lo 2 * q) (multipolygonMaxTotal hi z (max lo 2 * q))).bind
      (coordsToPolygons env true (yOr x y) z q (max lo 2) hi)).val v ∧
      v.map (fun g => g.holes.length) = k :: ks := by
    have e1 : (sortCoords xs).length = (k :: ks).length * p := by
      rw [(sortCoords_perm xs).length_eq, x3]
    obtain ⟨v, v1, v2⟩ := slabLoop_holes hcoin hset hcheck henv (a := true)
      (coords := sortCoords xs) (other := yOr x y)
      (genericSlab_x hgen fun c hc => x1 c ((sortCoords_perm xs).mem_iff.1 hc)) hp hp5 hf
      ((sortCoords_perm xs).nodup_iff.2 x2) hy (q := q) (by exact_mod_cast hqp') k ks hroom 0 le_rfl (by
        rw [e1, List.length_cons]; push_cast; linarith)
    refine ⟨v, ⟨xs, ⟨x1, x2, ?_, ?_⟩, ((k :: ks).length : ℕ), ⟨hks.1, ?_⟩, ?_⟩, v2⟩
    · rw [x3]
      push_cast
      exact mul_le_mul hks.1 (by exact_mod_cast hqp') (by omega) (by omega)
    · rw [x3]
      unfold multipolygonMaxTotal
      split
      · rename_i _ _ m c e3
        have k1 := hks.2 m rfl
        have k2 := hk0.points c e3
        refine le_max_of_le_left ?_
        push_cast
        exact mul_le_mul (by exact_mod_cast k1) k2 (by omega) (by omega)
      · trivial
    · have : (((k :: ks).length : ℕ) : Int) ≤ (xs.length : Int) / (q : Int) := by
        refine (Int.le_ediv_iff_mul_le (by omega)).2 ?_
        rw [x3]
        push_cast
        exact mul_le_mul_of_nonneg_left (by exact_mod_cast hqp') (by omega)
      cases hh : hi with
      | none => exact this
      | some m => exact le_min this (hks.2 m hh)
    · have : ((((k :: ks).length : ℕ) : Int) - 1).toNat = ks.length := by
        rw [List.length_cons]; omega
      dsimp only
      rw [this]
      exact v1
  obtain ⟨v, v1, v2⟩ := hval
  simp only [toMultipolygonStrategy, exc_bind_ok] at ht
  obtain ⟨q', hq', ht⟩ := ht
  rw [hq] at hq'
  cases hq'
  split at ht
  · simp only [exc_pure_ok] at ht
    subst ht
    exact ⟨v, .inr (.inl v1), v2⟩
  · simp only [exc_pure_ok] at ht
    subst ht
    exact ⟨v, .inl v1, v2⟩

end

end HG
