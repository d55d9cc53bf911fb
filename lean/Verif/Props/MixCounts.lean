import Verif.Props.NonEmpty
import Verif.Props.Lower
import Verif.Props.Loosen

/-!
# C61: every admissible number of elements occurs
-/

set_option linter.unusedSectionVars false

namespace HG

open Strategy Spec

section
variable {K : Type} [CommRing K] [LinearOrder K] [IsStrictOrderedRing K]

theorem minOpt_eq {n : Int} {m : Option Int} (h : ∀ k, m = some k → n ≤ k) : minOpt n m = n := by
  cases m with
  | none => rfl
  | some k => exact min_eq_left (h k rfl)

theorem minOpt_ge {n b : Int} {m : Option Int} (hb : n ≤ b) (h : ∀ k, m = some k → n ≤ k) :
    n ≤ minOpt b m := by
  cases m with
  | none => exact hb
  | some k => exact le_min hb (h k rfl)

/-- The same bounds on polygons, and exact counts. -/
def exactSizes (z : MixSizes) (np ns ng : ℕ) : MixSizes :=
  { minPoints := np, maxPoints := some np, minSegments := ns, maxSegments := some ns
    minPolygons := ng, maxPolygons := some ng, polygon := z.polygon }

theorem pointCounts_exact {z : MixSizes} {np ns ng p : ℕ} (hp : p.Prime) (h5 : 5 ≤ p)
    (h1 : z.minPoints ≤ np) (h2 : ∀ k, z.maxPoints = some k → np ≤ k)
    (h3 : z.minSegments ≤ ns) (h4 : ∀ k, z.maxSegments = some k → ns ≤ k)
    (h6 : z.minPolygons ≤ ng) (h7 : ∀ k, z.maxPolygons = some k → ng ≤ k)
    {c : List Int × List Int × List Int}
    (h : (toPointCounts (exactSizes z np ns ng) p (np + 2 * ns + ng * p)).val c) :
    (toPointCounts z p (np + 2 * ns + ng * p)).val c := by
  simp only [toPointCounts, val_bind, val_integers, val_sampledFrom, val_pure, exactSizes] at h ⊢
  obtain ⟨pc, ⟨hpc1, hpc2⟩, mpp, hmpp, pcs, hpcs, sp, hsp, pp, hpp, sparts, hsparts, rfl⟩ := h
  have hpc : pc = ng := le_antisymm (hpc2.trans (min_le_right _ _)) hpc1
  subst hpc
  have e1 : (np + 2 * ns + ng * p : Int) - np - 2 * ns = ng * p := by ring
  rw [e1] at hmpp
  have hall : pcs.length = ng ∧ ∀ a ∈ pcs, a = p := by
    split at hpcs
    · rename_i hne
      rw [if_pos hne, Int.mul_ediv_cancel_left _ hne] at hmpp
      obtain ⟨q, hq, -, hq1, -, hq3⟩ := toPriorPrime_spec p (by omega)
      rw [val_ofExcept, hq] at hmpp
      cases hmpp
      obtain ⟨l1, l2⟩ := replicateDraw_val _ _ hpcs
      refine ⟨by simpa using l1, fun a ha => ?_⟩
      obtain ⟨a1, a2⟩ := l2 a ha
      exact le_antisymm (a2.trans hq1) a1
    · rename_i hne
      simp only [val_just] at hpcs
      subst hpcs
      have : ng = 0 := by simpa using hne
      exact ⟨this.symm, by simp⟩
  have hrep : pcs = List.replicate ng (p : Int) :=
    List.eq_replicate_iff.2 hall
  have hsum : pcs.sum = ng * p := by rw [hrep, List.sum_replicate, nsmul_eq_mul]
  rw [hsum] at hsp hpp
  rw [mem_rangeStep2_iff] at hsp
  have hsp' : sp = 2 * ns := by
    have := hsp.2.1
    have h8 : minOpt ((np + 2 * ns + ng * p : Int) - ng * p - np) (some (2 * (ns : Int))) ≤ 2 * ns :=
      min_le_right _ _
    simp only [Option.map_some] at this
    omega
  subst hsp'
  have e2 : (np + 2 * ns + ng * p : Int) - 2 * ns - ng * p = np := by ring
  rw [e2] at hpp
  have e3 : minOpt (np : Int) (some (np : Int)) = np := min_self _
  rw [e3] at hpp
  have hp0 : (0 : Int) < p := by omega
  refine ⟨ng, ⟨h6, minOpt_ge ?_ h7⟩, ?_⟩
  · rw [Int.le_ediv_iff_mul_le hp0]
    omega
  have draw : ∃ mpp', (if (ng : Int) ≠ 0 then ofExcept (toPriorPrime
      (((np + 2 * ns + ng * p : Int) - z.minPoints - 2 * z.minSegments) / ng)) else just 0).val mpp' ∧
      (if (ng : Int) ≠ 0 then replicateDraw (integers (p : Int) mpp') ((ng : Int)).toNat
        else just []).val pcs := by
    by_cases hne : (ng : Int) ≠ 0
    · have hpos : (0 : Int) < ng := by omega
      have hle : (p : Int) ≤ ((np + 2 * ns + ng * p : Int) - z.minPoints - 2 * z.minSegments) / ng := by
        rw [Int.le_ediv_iff_mul_le hpos]
        nlinarith
      obtain ⟨q, hq, -, -, -, hq3⟩ := toPriorPrime_spec
        (((np + 2 * ns + ng * p : Int) - z.minPoints - 2 * z.minSegments) / ng) (by omega)
      refine ⟨q, by rw [if_pos hne, val_ofExcept, hq], ?_⟩
      rw [if_pos hne, hrep]
      have hqp : p ≤ q := hq3 p hp hle
      simp only [Int.toNat_natCast]
      clear hrep hsum hall hpcs
      generalize hn : ng = n
      clear hn
      induction n with
      | zero => rfl
      | succ n ih => exact ⟨p, ⟨le_rfl, by exact_mod_cast hqp⟩, _, ih, rfl⟩
    · refine ⟨0, by rw [if_neg hne]; rfl, ?_⟩
      rw [if_neg hne] at hpcs ⊢
      exact hpcs
  obtain ⟨mpp', d1, d2⟩ := draw
  refine ⟨mpp', d1, pcs, d2, 2 * ns, ?_, pp, ?_, sparts, hsparts, rfl⟩
  · rw [mem_rangeStep2_iff, hsum]
    refine ⟨by omega, ?_, ⟨ns - z.minSegments, by ring⟩⟩
    refine Int.lt_add_one_iff.2 (minOpt_ge (by omega) ?_)
    intro k hk
    obtain ⟨m, hm, rfl⟩ := Option.map_eq_some_iff.1 hk
    have := h4 m hm
    omega
  · rw [hsum, e2, minOpt_eq h2]
    exact hpp

/-- A branch of `mixes` yields every admissible combination of counts. -/
theorem mixStrategy_counts {env : Env K} (hcoin : Coins env.coinChange)
    (hset : ∀ l, (env.setOrder l).Perm l) (hcheck : SoundCheck env.segmentsCrossOrOverlap)
    (henv : ∀ pts, HullOk (env.convexHull pts) pts) (hf : 49 ≤ env.fuel)
    {x : Strategy K} {y : Option (Strategy K)} (hgen : GenericCoords x y)
    (hsteps : EnoughSteps env (Drawn x y)) {z : MixSizes} (hz : MixBoundsOk z)
    (hm : Modest z.polygon) {np ns ng : ℕ} (hx : Rich x (np + 2 * ns + ng * 5))
    (hy : Rich (y.getD x) (np + 2 * ns + ng * 5))
    (h1 : z.minPoints ≤ np) (h2 : ∀ k, z.maxPoints = some k → np ≤ k)
    (h3 : z.minSegments ≤ ns) (h4 : ∀ k, z.maxSegments = some k → ns ≤ k)
    (h6 : z.minPolygons ≤ ng) (h7 : ∀ k, z.maxPolygons = some k → ng ≤ k)
    {s : Strategy (Mix K)} (hs : toMixStrategy env x y z = .ok s) :
    ∃ v, s.val v ∧ (mixPoints v).length = np ∧ (mixSegments v).length = ns ∧
      (mixPolygons v).length = ng := by
  have hsum3 : z.polygon.minSize + z.polygon.minHoleCount * z.polygon.minHoleSize = 3 := by
    rw [hm.least, hm.holes]; norm_num
  obtain ⟨q, hq, hqp, -, hq5, -, hqmin⟩ :=
    toNextPrime_spec (z.polygon.minSize + z.polygon.minHoleCount * z.polygon.minHoleSize)
      (by rw [hsum3])
  have hq' : q = 5 := by
    have := hqmin 5 (by norm_num) (by rw [hsum3]; norm_num) (by norm_num)
    omega
  subst hq'
  simp only [toMixStrategy, exc_bind_ok, exc_pure_ok, hq] at hs
  obtain ⟨_, h', hs⟩ := hs
  cases h'
  subst hs
  obtain ⟨hok, l, hl1, hl2, hl3⟩ := hx
  have hN : (0 : Int) ≤ np + 2 * ns + ng * 5 := by positivity
  have hlen : ((l.take (np + 2 * ns + ng * 5)).length : Int) = np + 2 * ns + ng * 5 := by
    rw [List.length_take]
    omega
  have hnd : (l.take (np + 2 * ns + ng * 5)).Nodup := hl2.sublist (List.take_sublist _ _)
  have hmem : ∀ a ∈ l.take (np + 2 * ns + ng * 5), x.val a := fun a ha =>
    hl1 a (List.mem_of_mem_take ha)
  generalize l.take (np + 2 * ns + ng * 5) = coords at hlen hnd hmem
  have ez : MixBoundsOk (exactSizes z np ns ng) :=
    ⟨Int.natCast_nonneg _, Int.natCast_nonneg _, Int.natCast_nonneg _,
      fun m e => by cases e; exact le_rfl, fun m e => by cases e; exact le_rfl,
      fun m e => by cases e; exact le_rfl, hz.polygon⟩
  have hrich : Rich (yOr x y) coords.length := by
    rw [hlen]
    cases y <;> exact hy
  obtain ⟨v, hv⟩ := (coordsToMix_live hcoin henv hf (a := true) (other := yOr x y) ez hm hqp hq5 hnd
    hrich).value (by
      intro e he
      have hfail := coordsToMix_err (a := true) henv ez hqp hq5 (by
        change z.polygon.minSize + z.polygon.minHoleSize * z.polygon.minHoleCount ≤ _
        rw [hm.least, hm.holes]; norm_num) hnd (by rw [hlen]; exact le_rfl) hrich
        (G := Drawn x y) (fun u hu v hv =>
          (drawn_iff (x := x) (y := y) (p := ⟨u, v⟩)).2 ⟨hmem u hu, hv⟩) he
      rcases hfail with h | h
      · exact (contourFails_stopped hcoin hgen h).not hsteps
      · exact (polygonFails_stopped hcoin hset hcheck hgen h).not hsteps)
  obtain ⟨c1, c2, c3, -⟩ := coordsToMix_sizes (by norm_num) ez.polygons ez.pointsLe hv
  refine ⟨v, .inl ⟨coords, ⟨hmem, hnd, ?_, trivial⟩, ?_⟩, ?_, ?_, ?_⟩
  · rw [hlen]
    push_cast
    omega
  · obtain ⟨c, hc, rest⟩ := hv
    refine ⟨c, ?_, rest⟩
    rw [hlen] at hc ⊢
    exact pointCounts_exact hqp hq5 h1 h2 h3 h4 h6 h7 hc
  · exact_mod_cast le_antisymm (c1.2 _ rfl) c1.1
  · exact_mod_cast le_antisymm (c2.2 _ rfl) c2.1
  · exact_mod_cast le_antisymm (c3.2 _ rfl) c3.1

/-- C61: for every numbers of points, segments and polygons within the bounds, at least two of them
positive, a mix with exactly these numbers is generated, given enough coordinates. -/
theorem C61_mix_counts (env : Env K) (hcoin : Coins env.coinChange)
    (hset : ∀ l, (env.setOrder l).Perm l) (hcheck : SoundCheck env.segmentsCrossOrOverlap)
    (henv : ∀ pts, HullOk (env.convexHull pts) pts) (hf : 49 ≤ env.fuel)
    (x : Strategy K) (y : Option (Strategy K)) (hgen : GenericCoords x y)
    (hsteps : EnoughSteps env (Drawn x y)) (a : MixArgs) (h1 : a.minPolygonBorderSize ≤ 3)
    (h2 : ∀ m, a.maxPolygonBorderSize = some m → 5 ≤ m) (h3 : a.minPolygonHolesSize ≤ 0)
    (np ns ng : ℕ) (hp : SizeIn a.minPointsSize a.maxPointsSize np)
    (hseg : SizeIn a.minSegmentsSize a.maxSegmentsSize ns)
    (hpol : SizeIn a.minPolygonsSize a.maxPolygonsSize ng)
    (htwo : (0 < np ∧ 0 < ns) ∨ (0 < np ∧ 0 < ng) ∨ (0 < ns ∧ 0 < ng))
    (hx : Rich x (np + 2 * ns + ng * 5)) (hy : Rich (y.getD x) (np + 2 * ns + ng * 5))
    (s : Made (Mix K)) (hs : mixes env x y a = .ok s) :
    ∃ v, s.2.val v ∧ (mixPoints v).length = np ∧ (mixSegments v).length = ns ∧
      (mixPolygons v).length = ng := by
  simp only [mixes, exc_bind_ok, validate_ok] at hs
  obtain ⟨w1, ⟨b1, -⟩, w2, ⟨b2, -⟩, w3, ⟨b3, -⟩, w4, ⟨b4, -⟩, w5, ⟨b5, -⟩, w6, -, hs⟩ := hs
  split at hs
  · simp only [exc_throw_ok] at hs
  · simp only [exc_bind_ok, exc_pure_ok] at hs
    obtain ⟨t, ht, rfl⟩ := hs
    have key : ∀ {p q g : Int}, a.sizes p q g ∈ a.branches → 0 ≤ p → 0 ≤ q → 0 ≤ g → p ≤ np →
        q ≤ ns → g ≤ ng → ∃ v, t.val v ∧ (mixPoints v).length = np ∧
          (mixSegments v).length = ns ∧ (mixPolygons v).length = ng := by
      intro p q g hmem p0 q0 g0 p1 q1 g1
      obtain ⟨u, hu, hsub⟩ := unionMixes_mem ht hmem
      obtain ⟨v, hv, rest⟩ := mixStrategy_counts hcoin hset hcheck henv hf hgen hsteps
        (z := a.sizes p q g) (np := np) (ns := ns) (ng := ng)
        ⟨p0, q0, g0, fun m e => p1.trans (hp.2 m e), fun m e => q1.trans (hseg.2 m e),
          fun m e => g1.trans (hpol.2 m e), polyBoundsOk_of b4 b5⟩
        ⟨max_eq_right h1, h2, max_eq_right h3, fun m hm => by
          have := (okBounds_of b5).2 m hm
          omega, le_max_right _ _⟩ hx hy p1 hp.2 q1 hseg.2 g1 hpol.2 hu
      exact ⟨v, hsub v hv, rest⟩
    have ne : ∀ {m : Option Int} {n : ℕ}, 0 < n → (∀ k, m = some k → (n : Int) ≤ k) →
        mayBeNonEmpty m = true := by
      intro m n hn h
      cases m with
      | none => rfl
      | some k =>
        have := h k rfl
        simp only [mayBeNonEmpty, decide_eq_true_eq]
        omega
    have l1 := hp.1
    have l2 := hseg.1
    have l3 := hpol.1
    rcases htwo with ⟨p1, s1⟩ | ⟨p1, g1⟩ | ⟨s1, g1⟩
    · refine key (p := max (max a.minPointsSize 0) 1) (q := max (max a.minSegmentsSize 0) 1)
        (g := max a.minPolygonsSize 0) ?_ (by omega) (by omega) (by omega) (by omega) (by omega)
        (by omega)
      unfold MixArgs.branches
      simp only [ne p1 hp.2, ne s1 hseg.2, if_true]
      split <;> simp
    · refine key (p := max (max a.minPointsSize 0) 1) (q := max a.minSegmentsSize 0)
        (g := max (max a.minPolygonsSize 0) 1) ?_ (by omega) (by omega) (by omega) (by omega)
        (by omega) (by omega)
      unfold MixArgs.branches
      simp only [ne p1 hp.2, ne g1 hpol.2, if_true]
      split <;> simp
    · refine key (p := max a.minPointsSize 0) (q := max (max a.minSegmentsSize 0) 1)
        (g := max (max a.minPolygonsSize 0) 1) ?_ (by omega) (by omega) (by omega) (by omega)
        (by omega) (by omega)
      unfold MixArgs.branches
      simp only [ne s1 hseg.2, ne g1 hpol.2, if_true]
      split <;> simp

theorem exactBounds_ok {lo least : Int} {hi : Option Int} {n : ℕ} (hn : SizeIn (max lo least) hi n) :
    ¬ BadBounds (n : Int) (some (n : Int)) least ∧
    ¬ BadBounds (n : Int) hi least := by
  obtain ⟨h1, h2⟩ := hn
  constructor
  · rintro ⟨m, e, h⟩
    cases e
    omega
  · rintro ⟨m, e, h⟩
    have := h2 m e
    omega

theorem exactBounds_looser {lo least : Int} {hi : Option Int} {n : ℕ}
    (hn : SizeIn (max lo least) hi n) : Looser (some (n : Int)) hi := fun m e => ⟨n, rfl, hn.2 m e⟩

/-- C61 for `multisegments`: every number of segments within the bounds. -/
theorem C61_multisegment_counts (env : Env K) (x : Strategy K) (y : Option (Strategy K)) (lo : Int)
    (hi : Option Int) (n : ℕ) (hn : SizeIn (max lo 2) hi n) (hr : PrimeRoom n hi ∨ n ≤ 5)
    (hx : Rich x 1) (hy : Rich (y.getD x) (n + 1)) (s : Made (List (Segment K)))
    (hs : multisegments env x y lo hi = .ok s) : ∃ v, s.2.val v ∧ v.length = n := by
  obtain ⟨b1, b2⟩ := exactBounds_ok hn
  obtain ⟨s1, h1⟩ : ∃ s1, multisegments env x y n (some n) = .ok s1 := by
    simp [multisegments, validate_good b1]
  obtain ⟨s2, h2⟩ : ∃ s2, multisegments env x y n hi = .ok s2 := by
    simp [multisegments, validate_good b2]
  have n2 : (2 : Int) ≤ n := (le_max_right _ _).trans hn.1
  obtain ⟨v, hv⟩ := C54_multisegments env x y n (some n) hx (by rwa [max_eq_left n2]) s1 h1
  have hl := C17_multisegment_sizes env x y n (some n) s1 h1 v hv
  rw [max_eq_left n2] at hl
  refine ⟨v, ?_, by exact_mod_cast le_antisymm (hl.2 _ rfl) hl.1⟩
  refine C59_multisegments env ((le_max_left _ _).trans hn.1) hi (hr.imp_right fun h => by omega)
    s2 s h2 hs v ?_
  exact C55_multisegments env ⟨fun _ h => h, fun _ h => h⟩ n (exactBounds_looser hn) s1 s2 h1 h2 v hv

/-- C61 for `multicontours`: every number of contours within the bounds. -/
theorem C61_multicontour_counts (env : Env K) (hcoin : Coins env.coinChange) (x : Strategy K)
    (y : Option (Strategy K)) (hgen : GenericCoords x y) (hsteps : EnoughSteps env (Drawn x y))
    (lo : Int) (hi : Option Int) (clo : Int) (chi : Option Int) (hclo : clo ≤ 3) (n : ℕ)
    (hn : SizeIn (max lo 2) hi n)
    (hr : ∀ m c, hi = some m → chi = some c → PrimeRoom (n * 3) (some (m * c))) (p : ℕ)
    (hp : p.Prime) (hp1 : 5 ≤ p ∧ n * 3 ≤ p) (hx : Rich x p) (hy : Rich (y.getD x) p)
    (s : Made (List (Contour K))) (hs : multicontours env x y lo hi clo chi = .ok s) :
    ∃ v, s.2.val v ∧ v.length = n := by
  obtain ⟨b1, b2⟩ := exactBounds_ok hn
  have hb' : ¬ BadBounds clo chi 3 := by
    have hs' := hs
    simp only [multicontours, exc_bind_ok, exc_pure_ok, validate_ok] at hs'
    obtain ⟨_, _, _, ⟨hb', -⟩, -⟩ := hs'
    exact hb'
  obtain ⟨s1, h1⟩ : ∃ s1, multicontours env x y n (some n) clo chi = .ok s1 := by
    simp only [multicontours, exc_bind_ok, exc_pure_ok, validate_ok]
    exact ⟨_, _, ⟨b1, rfl⟩, _, ⟨hb', rfl⟩, rfl⟩
  obtain ⟨s2, h2⟩ : ∃ s2, multicontours env x y n hi clo chi = .ok s2 := by
    simp only [multicontours, exc_bind_ok, exc_pure_ok, validate_ok]
    exact ⟨_, _, ⟨b2, rfl⟩, _, ⟨hb', rfl⟩, rfl⟩
  have n2 : (2 : Int) ≤ n := (le_max_right _ _).trans hn.1
  obtain ⟨v, hv⟩ := C54_multicontours env hcoin x y hgen hsteps n (some n) clo chi hclo p hp
    ⟨hp1.1, by rw [max_eq_left n2]; exact_mod_cast hp1.2⟩ hx hy s1 h1
  have hl := (C19_multicontour_sizes env x y n (some n) clo chi s1 h1 v hv).1
  rw [max_eq_left n2] at hl
  refine ⟨v, ?_, by exact_mod_cast le_antisymm (hl.2 _ rfl) hl.1⟩
  refine C59_multicontours env ((le_max_left _ _).trans hn.1) le_rfl hi chi
    (by rw [max_eq_left n2, max_eq_right hclo]; exact hr) s2 s h2 hs v ?_
  exact C55_multicontours env ⟨fun _ h => h, fun _ h => h⟩ n clo (exactBounds_looser hn) .rfl' s1 s2 h1 h2 v hv

/-- C61 for `multipolygons`: every number of polygons within the bounds. -/
theorem C61_multipolygon_counts (env : Env K) (hcoin : Coins env.coinChange)
    (hset : ∀ l, (env.setOrder l).Perm l) (hcheck : SoundCheck env.segmentsCrossOrOverlap)
    (henv : ∀ pts, HullOk (env.convexHull pts) pts)
    (x : Strategy K) (y : Option (Strategy K)) (hgen : GenericCoords x y)
    (hsteps : EnoughSteps env (Drawn x y)) (lo : Int) (hi : Option Int) (blo : Int)
    (bhi : Option Int) (nhi : Option Int) (hlo : Int) (hhi : Option Int) (hblo : blo ≤ 3)
    (hbhi : ∀ m, bhi = some m → 5 ≤ m) (n : ℕ) (hn : SizeIn (max lo 2) hi n)
    (hr : ∀ m c, hi = some m → bhi = some c → PrimeRoom (n * 3) (some (m * c))) (p : ℕ)
    (hp : p.Prime) (hp1 : n * 5 ≤ p) (hx : Rich x p) (hy : Rich (y.getD x) p)
    (s : Made (List (Polygon K)))
    (hs : multipolygons env x y lo hi blo bhi 0 nhi hlo hhi = .ok s) :
    ∃ v, s.2.val v ∧ v.length = n := by
  obtain ⟨b1, b2⟩ := exactBounds_ok hn
  obtain ⟨c1, c2, c3, q, hq⟩ : ¬ BadBounds blo bhi 3 ∧ ¬ BadBounds 0 nhi 0 ∧
      ¬ BadBounds hlo hhi 3 ∧ ∃ q, toNextPrime (max blo 3 + 0 * max hlo 3) = .ok q := by
    have hs' := hs
    simp only [multipolygons, exc_bind_ok, exc_pure_ok, validate_ok, toMultipolygonStrategy] at hs'
    obtain ⟨_, _, _, ⟨c1, -⟩, _, ⟨c2, -⟩, _, ⟨c3, -⟩, _, ⟨q, hq, -⟩, -⟩ := hs'
    exact ⟨c1, c2, c3, q, hq⟩
  obtain ⟨s1, h1⟩ : ∃ s1, multipolygons env x y n (some n) blo bhi 0 nhi hlo hhi = .ok s1 := by
    simp only [multipolygons, exc_bind_ok, exc_pure_ok, validate_ok, toMultipolygonStrategy, if_true]
    exact ⟨_, _, ⟨b1, rfl⟩, _, ⟨c1, rfl⟩, _, ⟨c2, rfl⟩, _, ⟨c3, rfl⟩, _, ⟨q, hq, rfl⟩, rfl⟩
  obtain ⟨s2, h2⟩ : ∃ s2, multipolygons env x y n hi blo bhi 0 nhi hlo hhi = .ok s2 := by
    simp only [multipolygons, exc_bind_ok, exc_pure_ok, validate_ok, toMultipolygonStrategy, if_true]
    exact ⟨_, _, ⟨b2, rfl⟩, _, ⟨c1, rfl⟩, _, ⟨c2, rfl⟩, _, ⟨c3, rfl⟩, _, ⟨q, hq, rfl⟩, rfl⟩
  have n2 : (2 : Int) ≤ n := (le_max_right _ _).trans hn.1
  obtain ⟨v, hv⟩ := C54_multipolygons env hcoin hset hcheck henv x y hgen hsteps n (some n) blo bhi
    nhi hlo hhi hblo p hp (by rw [max_eq_left n2]; exact_mod_cast hp1) hx hy s1 h1
  have hl := (C25_multipolygon_sizes env x y n (some n) blo bhi 0 nhi hlo hhi s1 h1 v hv).1
  rw [max_eq_left n2] at hl
  refine ⟨v, ?_, by exact_mod_cast le_antisymm (hl.2 _ rfl) hl.1⟩
  refine C59_multipolygons env ((le_max_left _ _).trans hn.1) le_rfl le_rfl le_rfl le_rfl hi bhi nhi
    hhi (fun a b c e1 e2 e3 => ?_)
    (by rw [max_eq_left n2, max_eq_right hblo]; exact fun m c e1 e2 _ => hr m c e1 e2) s2 s h2 hs v ?_
  · intro m hm
    cases hm
    have a5 := hbhi a e1
    have b0 : 0 ≤ b := by
      by_contra hc
      exact c2 ⟨b, e2, by omega⟩
    have c0 : 0 ≤ c := by
      by_contra hc
      exact c3 ⟨c, e3, by omega⟩
    have := mul_nonneg c0 b0
    exact ⟨5, by norm_num, le_rfl, by omega, by push_cast; omega⟩
  · exact C55_multipolygons env ⟨fun _ h => h, fun _ h => h⟩ n blo 0 hlo (exactBounds_looser hn) .rfl' .rfl' .rfl'
      s1 s2 h1 h2 v hv

end
end HG
