import Verif.Props.Total

/-!
# C54: no strategy is empty

A strategy without values makes every test that uses it fail with `Unsatisfiable`.  For bounds that do
not ask for large borders or for holes, and with as many coordinate values as C36-C38 ask for, every
constructor has a value.
-/

set_option linter.unusedSectionVars false

namespace HG

open Strategy Spec

/-! ## Strategies that produce something -/

/-- A draw has a value or ends with an exception. -/
def Live {α : Type} (s : Strategy α) : Prop := (∃ a, s.val a) ∨ ∃ e, s.err e

namespace Live
variable {α β : Type}

theorem just (a : α) : Live (Strategy.just a) := .inl ⟨a, rfl⟩

theorem bind {s : Strategy α} {f : α → Strategy β} (hs : Live s) (hf : ∀ a, s.val a → Live (f a)) :
    Live (s.bind f) := by
  rcases hs with ⟨a, ha⟩ | ⟨e, he⟩
  · rcases hf a ha with ⟨b, hb⟩ | ⟨e, he⟩
    · exact .inl ⟨b, a, ha, hb⟩
    · exact .inr ⟨e, .inr ⟨a, ha, he⟩⟩
  · exact .inr ⟨e, .inl he⟩

theorem bindM {s : Strategy α} {f : α → Strategy β} (hs : Live s) (hf : ∀ a, s.val a → Live (f a)) :
    Live (s >>= f) := hs.bind hf

theorem ofExcept (r : Except Exc α) : Live (Strategy.ofExcept r) := by
  cases r with
  | ok a => exact .inl ⟨a, rfl⟩
  | error e => exact .inr ⟨e, rfl⟩

theorem map {s : Strategy α} (hs : Live s) (f : α → β) : Live (s.map f) := by
  rcases hs with ⟨a, ha⟩ | ⟨e, he⟩
  · exact .inl ⟨f a, a, ha, rfl⟩
  · exact .inr ⟨e, he⟩

theorem left {s : Strategy α} (hs : Live s) (t : Strategy α) : Live (s ||| t) := by
  rcases hs with ⟨a, ha⟩ | ⟨e, he⟩
  · exact .inl ⟨a, .inl ha⟩
  · exact .inr ⟨e, .inl he⟩

theorem prod {s : Strategy α} {t : Strategy β} (hs : Live s) (ht : Live t) :
    Live (Strategy.prod s t) := by
  rcases hs with ⟨a, ha⟩ | ⟨e, he⟩
  · rcases ht with ⟨b, hb⟩ | ⟨e, he⟩
    · exact .inl ⟨(a, b), ha, hb⟩
    · exact .inr ⟨e, .inr ⟨⟨a, ha⟩, he⟩⟩
  · exact .inr ⟨e, .inl he⟩

theorem integers (lo hi : Int) : Live (Strategy.integers lo hi) := by
  by_cases h : lo ≤ hi
  · exact .inl ⟨lo, le_refl _, h⟩
  · exact .inr ⟨_, by omega, rfl⟩

theorem sampledFrom (l : List α) : Live (Strategy.sampledFrom l) := by
  cases l with
  | nil => exact .inr ⟨_, rfl, rfl⟩
  | cons a l => exact .inl ⟨a, by simp⟩

theorem permutations (l : List α) : Live (Strategy.permutations l) := .inl ⟨l, List.Perm.refl l⟩

theorem uniqueLists (s : Strategy α) {lo : Int} (h0 : 0 ≤ lo) (hi : Option Int) :
    Live (Strategy.uniqueLists s lo hi) := by
  by_cases h : leOpt lo hi
  · by_cases h' : ∃ l : List α, (∀ a ∈ l, s.val a) ∧ l.Nodup ∧ lo ≤ l.length
    · obtain ⟨l, h1, h2, h3⟩ := h'
      have hl : (l.take lo.toNat).length = lo.toNat := by rw [List.length_take]; omega
      refine .inl ⟨l.take lo.toNat, fun a ha => h1 a (List.mem_of_mem_take ha),
        h2.sublist (List.take_sublist _ _), by omega, ?_⟩
      rw [hl, show ((lo.toNat : Nat) : Int) = lo by omega]
      exact h
    · exact .inr ⟨_, .inr (.inr ⟨h', rfl⟩)⟩
  · exact .inr ⟨_, .inr (.inl ⟨h, rfl⟩)⟩

theorem replicateDraw {s : Strategy α} (hs : Live s) (n : Nat) : Live (replicateDraw s n) := by
  induction n with
  | zero => exact .just _
  | succ n ih => exact hs.bindM fun _ _ => ih.bindM fun _ _ => .just _

theorem value {s : Strategy α} (hs : Live s) (h : ∀ e, ¬ s.err e) : ∃ a, s.val a := by
  rcases hs with h' | ⟨e, he⟩
  · exact h'
  · exact absurd he (h e)

end Live

section
variable {K : Type} [CommRing K] [LinearOrder K] [IsStrictOrderedRing K]

theorem Spec.Rich.live {x : Strategy K} {n : Int} (h : Rich x n) (hn : 1 ≤ n) : Live x :=
  .inl (h.nonempty hn)

/-! ## Point sets -/

theorem Spec.Rich.exactly {x : Strategy K} {n : ℕ} (h : Rich x n) :
    ∃ l : List K, (∀ a ∈ l, x.val a) ∧ l.Nodup ∧ l.length = n := by
  obtain ⟨-, l, h1, h2, h3⟩ := h
  refine ⟨l.take n, fun a ha => h1 a (List.mem_of_mem_take ha),
    h2.sublist (List.take_sublist _ _), ?_⟩
  rw [List.length_take]
  omega

/-- Points in general position can be drawn, as few of them as allowed. -/
theorem generalPosition_exists {x : Strategy K} {y : Option (Strategy K)} {lo : Int}
    {hi : Option Int} (hlo : 3 ≤ lo) {p : ℕ} (hp : p.Prime) (h5 : 5 ≤ p) (hpl : lo ≤ p)
    (hx : Rich x p) (hy : Rich (y.getD x) p) : ∃ (q : ℕ) (pts : List (Point K)),
      toNextPrime lo = .ok (q : Int) ∧ q ≤ p ∧ lo ≤ q ∧ 5 ≤ q ∧
      (toGeneralPositionStrategy x y lo hi).val pts ∧ pts.length = q := by
  obtain ⟨q, hq, hqp, hq1, hq5, -, hq2⟩ := toNextPrime_spec lo hlo
  have hqp' := hq2 p hp hpl h5
  obtain ⟨xs, x1, x2, x3⟩ := (hx.mono (show (q : Int) ≤ p by omega)).exactly
  obtain ⟨ys, y1, y2, y3⟩ := (hy.mono (show (q : Int) ≤ p by omega)).exactly
  have hup : leOpt (q : Int) (maxOpt q hi) := by
    cases hi with
    | none => trivial
    | some m => exact le_max_right _ _
  have lx : (sortCoords xs).length = q := by rw [(sortCoords_perm xs).length_eq, x3]
  have ly : (sortCoords ys).length = q := by rw [(sortCoords_perm ys).length_eq, y3]
  obtain ⟨r, hr, hrp, hr1, -, hr3⟩ := toPriorPrime_spec (q : Int) (by omega)
  have hrq : r = q := le_antisymm (by omega) (hr3 q hqp le_rfl)
  subst hrq
  refine ⟨r, ((intRange r).map (indexPair false r 1)).map (pointAt (sortCoords xs) (sortCoords ys)),
    hq, hqp', hq1, hq5, ⟨r, by rw [val_ofExcept]; exact hq, (xs, ys),
      ⟨⟨x1, x2, by rw [x3], by rw [x3]; exact hup⟩, ⟨y1, y2, by rw [y3], by rw [y3]; exact hup⟩⟩, ?_⟩, ?_⟩
  · refine ⟨r, by rw [val_ofExcept, lx, ly, min_self]; exact hr, .inl ?_⟩
    rw [val_mapE]
    refine ⟨1, ⟨0, le_refl _, by omega, by omega⟩, ?_⟩
    refine indicesToPoints_ok false r hrp 1 ?_ _ _ (le_of_eq lx.symm) (le_of_eq ly.symm)
    intro hd
    have := Int.le_of_dvd one_pos hd
    omega
  · simp [intRange_length]

theorem spread_notAllCol {x : Strategy K} {y : Option (Strategy K)} {lo : Int}
    {hi : Option Int} (hlo : 3 ≤ lo) {pts : List (Point K)}
    (h : (toGeneralPositionStrategy x y lo hi).val pts) : ¬ AllCol pts :=
  not_allCol (generalPosition_spread hlo h)

/-! ## Polygons -/

/-- The bounds on polygons that are met by any five points. -/
structure Spec.Modest (z : PolygonSizes) : Prop where
  least : z.minSize = 3
  most : ∀ m, z.maxSize = some m → 5 ≤ m
  holes : z.minHoleCount = 0
  holesLe : ∀ m, z.maxHoleCount = some m → 0 ≤ m
  hole : 3 ≤ z.minHoleSize

theorem exists_turn {pts : List (Point K)} (h : ¬ AllCol pts) :
    ∃ a ∈ pts, ∃ b ∈ pts, ∃ c ∈ pts, area2 a b c ≠ 0 := by
  by_contra hc
  apply h
  intro a ha b hb c hc'
  by_contra hcr
  refine hc ⟨a, ha, b, hb, c, hc', fun h0 => hcr ?_⟩
  rw [cross_eq_area2]
  exact h0

/-- A polygon can be drawn from five values of either coordinate. -/
theorem polygonStrategy_value {env : Env K} (hcoin : Coins env.coinChange)
    (henv : ∀ pts, HullOk (env.convexHull pts) pts) (hf : 49 ≤ env.fuel)
    {x : Strategy K} {y : Option (Strategy K)} {z : PolygonSizes} (hz : Modest z)
    (hx : Rich x 5) (hy : Rich (y.getD x) 5) : ∃ p, (toPolygonStrategy env x y z).val p := by
  have h3 : 3 ≤ z.minSize + z.minHoleSize * z.minHoleCount := by
    rw [hz.least, hz.holes]; norm_num
  obtain ⟨q, pts, hq, hq5, -, hq5', hpts, hlen⟩ := generalPosition_exists (x := x) (y := y)
    (hi := z.maxPointCount) h3 (p := 5) (by norm_num) le_rfl
    (by rw [hz.least, hz.holes]; norm_num) hx hy
  have sc := generalPosition_scattered h3 hpts
  have hl5 : pts.length = 5 := by omega
  have nc := spread_notAllCol h3 hpts
  have hull1 := hull_length_le (henv pts) sc.nodup (by omega)
  obtain ⟨-, g2, -⟩ := C43_max_hull pts sc.nodup (by omega)
  have hull2 : (toMaxConvexHull pts).length ≤ pts.length :=
    ((C43_max_hull_nodup pts sc.nodup (by omega) (exists_turn nc)).subperm g2).length_le
  have hmax : ∀ m, z.maxSize = some m → 5 ≤ m := hz.most
  obtain ⟨p, hp⟩ := toPolygon_total_nil (env := env) hcoin sc.nodup nc (by rw [hl5]; exact hf)
    (max z.minSize (env.convexHull pts).length) (fun _ => true)
  obtain ⟨-, m, t, es, hst, D, m', D', B', -, -, -, hh, hholes, -, hB, hbv, hb3⟩ :=
    toPolygon_run sc.nodup (hcoin.sums _ (by omega)) hp
  have hb5 : p.border.vertices.length ≤ 5 := by
    rw [hbv, ← hl5]
    refine (compressContour_sublist _).length_le.trans (hB.nodup.subperm fun v hv => ?_).length_le
    obtain ⟨e, he, rfl⟩ := List.mem_map.1 hv
    exact hB.mem (hB.bd e he)
  have hh0 : p.holes = [] := by
    simp only [List.length_nil, List.range_zero, List.map_nil, List.zip_nil_right, holeLoop,
      exc_pure_ok] at hh
    rw [hholes, ← hh]
  refine ⟨p, ⟨pts, ⟨hpts, ?_⟩, ?_⟩, ?_⟩
  · unfold hasValidInnerPointCount
    rw [hz.holes, Bool.and_eq_true, decide_eq_true_eq]
    refine ⟨?_, by omega⟩
    cases hm : z.maxSize with
    | none => rfl
    | some m =>
      have := hmax m hm
      simp only [decide_eq_true_eq]
      omega
  · unfold pointsToPolygonStrategy
    rw [val_mapE]
    refine ⟨(max z.minSize (env.convexHull pts).length, [], fun _ => true),
      ⟨⟨le_refl _, ?_⟩, ?_, trivial⟩, hp⟩
    · rw [hz.holes, hz.least]
      cases hm : z.maxSize with
      | none => simp only [minOpt]; omega
      | some m =>
        have := hmax m hm
        simp only [minOpt]
        omega
    · show (toHoleSizes z pts).val []
      unfold toHoleSizes
      dsimp only
      split
      · refine ⟨0, ⟨by rw [hz.holes], ?_⟩, by simp [toHoleSizesAux]⟩
        have h0 : 0 ≤ ((pts.length : Int) - (toMaxConvexHull pts).length) / z.minHoleSize :=
          Int.ediv_nonneg (by omega) (by have := hz.hole; omega)
        cases hm : z.maxHoleCount with
        | none => exact h0
        | some m => exact le_min h0 (hz.holesLe m hm)
      · rfl
  · unfold polygonHasValidSizes multicontourHasValidSizes
    rw [hh0, Bool.and_eq_true, hasValidSize_iff, hz.least, hz.holes]
    refine ⟨⟨by omega, fun m hm => ?_⟩, ?_⟩
    · have := hmax m hm; omega
    · simp only [List.length_nil, List.all_nil, Bool.and_true, hasValidSize_iff]
      exact ⟨by simp, fun m hm => by simpa using hz.holesLe m hm⟩

/-! ## Simple strategies -/

/-- Two values of either coordinate make a triangle. -/
theorem triangular_value {x : Strategy K} {y : Option (Strategy K)} (hx : Rich x 2)
    (hy : Rich (y.getD x) 2) : ∃ vs, (toTriangularStrategy x y).val vs := by
  obtain ⟨xs, x1, x2, x3⟩ := hx.exactly (n := 2)
  obtain ⟨ys, y1, y2, y3⟩ := hy.exactly (n := 2)
  match xs, ys, x1, x2, x3, y1, y2, y3 with
  | [a, b], [c, d], x1, x2, _, y1, y2, _ =>
    have hab : a ≠ b := by simpa using x2
    have hcd : c ≠ d := by simpa using y2
    refine ⟨_, (⟨a, c⟩, ⟨b, c⟩, ⟨a, d⟩), ⟨⟨⟨(a, c), ⟨x1 a (by simp), y1 c (by simp)⟩, rfl⟩,
      ⟨(b, c), ⟨x1 b (by simp), y1 c (by simp)⟩, rfl⟩,
      ⟨(a, d), ⟨x1 a (by simp), y1 d (by simp)⟩, rfl⟩⟩, ?_⟩, rfl⟩
    have h1 : (b - a) * (d - c) ≠ 0 := mul_ne_zero (sub_ne_zero.2 hab.symm) (sub_ne_zero.2 hcd.symm)
    dsimp only
    rw [strict_triple]
    intro h0
    apply h1
    unfold cross at h0
    linear_combination h0

/-- Two values of either coordinate make a box. -/
theorem box_value {x : Strategy K} {y : Option (Strategy K)} (hx : Rich x 2)
    (hy : Rich (y.getD x) 2) : ∃ b, (toBoxStrategy x y).val b := by
  obtain ⟨xs, x1, x2, x3⟩ := hx.exactly (n := 2)
  obtain ⟨ys, y1, y2, y3⟩ := hy.exactly (n := 2)
  match xs, ys, x1, x2, x3, y1, y2, y3 with
  | [a, b], [c, d], x1, x2, _, y1, y2, _ =>
    refine ⟨_, (sortPair a b, sortPair c d), ⟨?_, ?_⟩, rfl⟩
    · rw [val_mapE]
      exact ⟨[a, b], ⟨x1, x2, by simp, by simp⟩, rfl⟩
    · rw [val_mapE]
      exact ⟨[c, d], ⟨y1, y2, by simp, by simp⟩, rfl⟩

/-- Two values of one coordinate make a segment. -/
theorem segment_value {x y : Strategy K} (hx : Rich x 2) (hy : Rich y 1) :
    ∃ s, (toSegmentStrategy x (some y)).val s := by
  obtain ⟨xs, x1, x2, x3⟩ := hx.exactly (n := 2)
  obtain ⟨c, hc⟩ := hy.nonempty le_rfl
  match xs, x1, x2, x3 with
  | [a, b], x1, x2, _ =>
    have hab : a ≠ b := by simpa using x2
    refine ⟨_, (⟨a, c⟩, ⟨b, c⟩), ⟨⟨⟨(a, c), ⟨x1 a (by simp), hc⟩, rfl⟩,
      ⟨(b, c), ⟨x1 b (by simp), hc⟩, rfl⟩⟩, ?_⟩, rfl⟩
    simpa using hab

/-- Multisegments with any number of segments exist. -/
theorem segmentSequence_value {env : Env K} {x : Strategy K} {y : Option (Strategy K)} {lo : Int}
    {hi : Option Int} (h2 : 2 ≤ lo) (hh : ∀ m, hi = some m → lo ≤ m) (hx : Rich x 1)
    (hy : Rich (y.getD x) (lo + 1)) : ∃ ss, (toSegmentSequenceStrategy env x y lo hi).val ss := by
  obtain ⟨a, ha⟩ := hx.nonempty le_rfl
  obtain ⟨n, rfl⟩ : ∃ n : ℕ, lo = n := ⟨lo.toNat, by omega⟩
  obtain ⟨ys, y1, y2, y3⟩ := Rich.exactly (n := n + 1) (by exact_mod_cast hy)
  have hv : (prod x (uniqueLists (y.getD x) ((n : Int) + 1) (hi.map (· + 1)))).val (a, ys) := by
    refine ⟨ha, y1, y2, by rw [y3]; push_cast; omega, ?_⟩
    cases hi with
    | none => trivial
    | some m =>
      have := hh m rfl
      show ((ys.length : Nat) : Int) ≤ m + 1
      rw [y3]; push_cast; omega
  refine ⟨verticalMultisegment a ys, ?_⟩
  unfold toSegmentSequenceStrategy
  cases hi with
  | none => exact .inl (.inl (.inl ⟨_, hv, rfl⟩))
  | some m =>
    have := hh m rfl
    dsimp only
    rw [if_neg (by omega)]
    split
    · exact .inl (.inl (.inl ⟨_, hv, rfl⟩))
    · exact .inl (.inl ⟨_, hv, rfl⟩)

/-! ## Multicontours -/

theorem multicontourLoop_triangles {env : Env K} (hcoin : Coins env.coinChange)
    (l : List (Int × Bool)) (h3 : ∀ d ∈ l, d.1 = 3) {pts : List (Point K)} {prior : Option Bool}
    (hn : pts.Nodup) (hN : NoThree pts) (hl : 3 * l.length ≤ pts.length) {cs : List (Contour K)}
    (h : multicontourLoop env pts prior l = .ok cs) :
    cs.length = l.length ∧ ∀ c ∈ cs, c.vertices.length = 3 := by
  induction l generalizing pts prior cs with
  | nil =>
    simp only [multicontourLoop, exc_pure_ok] at h
    subst h; simp
  | cons a l ih =>
    obtain ⟨size, key⟩ := a
    have hs : size = 3 := h3 (size, key) (by simp)
    subst hs
    simp only [multicontourLoop, exc_bind_ok] at h
    obtain ⟨vs, hvs, h⟩ := h
    have hperm : (if prior ≠ some key then sortByKey key pts else pts).Perm pts := by
      split
      · exact sortByKey_perm _ _
      · exact List.Perm.refl _
    generalize (if prior ≠ some key then sortByKey key pts else pts) = ps at hperm h hvs
    have hps : ps.Nodup := hperm.nodup_iff.2 hn
    have hpl := hperm.length_eq
    have hpN : NoThree ps := noThree_mono hN fun p hp => hperm.mem_iff.1 hp
    simp only [List.length_cons] at hl
    have ht : (ps.take (3 : Int).toNat).length = 3 := by
      rw [List.length_take]; simp; omega
    obtain ⟨v1, v2⟩ := toVertexSequence_length (hps.sublist (List.take_sublist _ _))
      (hcoin.sums _ (by omega)) (noThree_mono hpN fun p hp => List.mem_of_mem_take hp) (by omega) hvs
    rw [if_pos v1] at h
    simp only [exc_bind_ok, exc_pure_ok] at h
    obtain ⟨b, -, r, hr, rfl⟩ := h
    have hb := b2i_cases b
    obtain ⟨i1, i2⟩ := ih (fun d hd => h3 d (by simp [hd])) (hps.sublist (List.drop_sublist _ _))
      (noThree_mono hpN fun p hp => List.mem_of_mem_drop hp) (by
        rw [List.length_drop]; omega) hr
    refine ⟨by simp [i1], fun c hc => ?_⟩
    rcases List.mem_cons.1 hc with rfl | hc
    · dsimp only; omega
    · exact i2 c hc

theorem toSizes_least {lo limit : Int} {k : ℕ} (h1 : 1 ≤ k) :
    (toSizes lo limit k).val (List.replicate k lo) := by
  obtain ⟨r, hr, r1, r2, r3⟩ := distribute_spec (limit - k * lo).toNat 0
    (List.replicate k lo) (by simp; omega) lo (fun a ha => by rw [(List.mem_replicate.1 ha).2])
  refine ⟨r, by rw [val_ofExcept]; simpa using hr, List.replicate k lo, ?_, List.Perm.refl _⟩
  rw [val_sequence]
  rw [List.length_replicate] at r1
  clear r2 hr h1
  induction r generalizing k with
  | nil => simp at r1; subst r1; simp
  | cons a r ih =>
    cases k with
    | zero => simp at r1
    | succ k =>
      rw [List.map_cons, List.replicate_succ, List.forall₂_cons]
      exact ⟨mem_rangeIncl.2 ⟨le_refl _, r3 a (by simp)⟩, 
        ih (by simpa using r1) fun a ha => r3 a (by simp [ha])⟩

/-- Multicontours of triangles exist if the construction does not fail. -/
theorem multicontourStrategy_value {env : Env K} (hcoin : Coins env.coinChange) {x : Strategy K}
    {y : Option (Strategy K)} (hgen : GenericCoords x y) {lo : Int} {hi : Option Int}
    {chi : Option Int} (h2 : 2 ≤ lo) (hh : ∀ m, hi = some m → lo ≤ m)
    (hc : ∀ m, chi = some m → 3 ≤ m) {p : ℕ} (hp : p.Prime) (h5 : 5 ≤ p) (hpl : lo * 3 ≤ p)
    (hx : Rich x p) (hy : Rich (y.getD x) p)
    (hno : ∀ e, ¬ (toMulticontourStrategy env x y lo hi 3 chi).err e) :
    ∃ cs, (toMulticontourStrategy env x y lo hi 3 chi).val cs := by
  have h3 : 3 ≤ lo * 3 := by omega
  obtain ⟨q, pts, hq, hqp, hlq, hq5, hpts, hlen⟩ := generalPosition_exists (x := x) (y := y)
    (hi := optMul hi chi) h3 hp h5 hpl hx hy
  obtain ⟨n, rfl⟩ : ∃ n : ℕ, lo = n := ⟨lo.toNat, by omega⟩
  have hsz : (toSizeStrategy n hi 3 pts.length).val (List.replicate n 3) := by
    refine ⟨n, ⟨le_refl _, ?_⟩, toSizes_least (by omega)⟩
    have : (n : Int) ≤ (pts.length : Int) / 3 := by omega
    cases hi with
    | none => exact this
    | some m => exact le_min this (hh m rfl)
  cases hr : toMulticontour env pts (List.replicate n 3) (fun _ => true) with
  | error e =>
    exfalso
    refine hno e ?_
    refine .inr ⟨pts, hpts, .inr ⟨(List.replicate n 3, fun _ => true), ⟨hsz, trivial⟩, ?_⟩⟩
    dsimp only
    rw [hr]
    exact rfl
  | ok cs =>
    refine ⟨cs, ⟨pts, hpts, (List.replicate n 3, fun _ => true), ⟨hsz, trivial⟩, ?_⟩, ?_⟩
    · dsimp only
      rw [hr]
      exact rfl
    · obtain ⟨c1, c2⟩ := multicontourLoop_triangles hcoin _ (fun d hd => by
        have := (List.of_mem_zip hd).1
        exact (List.mem_replicate.1 this).2) (C35_distinct x y _ _ h3 pts hpts).1
        (generalPosition_noThree hgen h3 hpts) (by simp; omega) hr
      simp only [List.length_zip, List.length_replicate, List.length_map, List.length_range,
        min_self] at c1
      unfold multicontourHasValidSizes
      rw [Bool.and_eq_true, List.all_eq_true, hasValidSize_iff]
      refine ⟨⟨by omega, fun m hm => by have := hh m hm; omega⟩, fun c hc' => ?_⟩
      rw [hasValidSize_iff]
      have := c2 c hc'
      exact ⟨by omega, fun m hm => by have := hc m hm; omega⟩

/-! ## Mixes -/

theorem partitionLoop_live (fuel : Nat) (v : Int) : Live (partitionLoop fuel v) := by
  induction fuel generalizing v with
  | zero => exact .just _
  | succ fuel ih =>
    rw [partitionLoop]
    split
    · exact .just _
    · exact (Live.integers _ _).bindM fun _ _ => (ih _).bindM fun _ _ => .just _

theorem partition_live (v : Int) : Live (partitionStrategy v) := by
  unfold partitionStrategy
  split
  · exact partitionLoop_live _ _
  · exact .inr ⟨_, rfl⟩

theorem pointCounts_live (z : MixSizes) (mp total : Int) : Live (toPointCounts z mp total) := by
  unfold toPointCounts
  refine (Live.integers _ _).bindM fun pc _ => Live.bindM ?_ fun mpp _ => Live.bindM ?_ fun pcs _ =>
    (Live.sampledFrom _).bindM fun sp _ => (partition_live _).bindM fun pp _ =>
      (partition_live _).bindM fun ss _ => .just _
  · split
    · exact .ofExcept _
    · exact .just _
  · split
    · exact (Live.integers _ _).replicateDraw _
    · exact .just _

theorem pieceSegments_live {env : Env K} {x y : Strategy K} {k : Int} (h1 : 1 ≤ k)
    (hx : Rich x (k + 1)) (hy : Rich y (k + 1)) :
    Live (toSegmentSequenceStrategy env x (some y) k (some k)) := by
  rcases Int.lt_or_le k 2 with h | h
  · have hk : k = 1 := by omega
    subst hk
    obtain ⟨s, hs⟩ := segment_value (hx.mono (by norm_num)) (hy.mono (by norm_num))
    refine .inl ⟨[s], ?_⟩
    unfold toSegmentSequenceStrategy
    dsimp only
    rw [if_pos (by norm_num), if_pos (by norm_num)]
    exact ⟨s, hs, rfl⟩
  · exact .inl (segmentSequence_value h (by simp) (hx.mono (by omega)) hy)

theorem mixLoop_live {env : Env K} (hcoin : Coins env.coinChange)
    (henv : ∀ pts, HullOk (env.convexHull pts) pts) (hf : 49 ≤ env.fuel) {a : Bool}
    {other : Strategy K} {z : PolygonSizes} (hz : Modest z) {p : ℕ} (hp : p.Prime) (h5 : 5 ≤ p)
    {N : Int} (ds : List (Drawer × Int)) (hd : ∀ d ∈ ds, PieceOk p N d)
    (ho : 1 ≤ N → Rich other N) (R : List K) (hR : R.Nodup)
    (hsum : (ds.map Prod.snd).sum ≤ R.length) (s : MixState K) :
    Live (mixLoop env a other z ds R s) := by
  induction ds generalizing R s with
  | nil => exact .just _
  | cons d ds ih =>
    obtain ⟨dr, n⟩ := d
    obtain ⟨d1, d2, d3, d4⟩ := hd (dr, n) (by simp)
    dsimp only at d1 d2 d3 d4
    have ho' := ho (by omega)
    have hd' : ∀ d ∈ ds, PieceOk p N d := fun d hd' => hd d (by simp [hd'])
    have hrest : 0 ≤ (ds.map Prod.snd).sum := List.sum_nonneg (by
      intro a ha
      obtain ⟨b, hb, rfl⟩ := List.mem_map.1 ha
      have := (hd' b hb).1
      omega)
    simp only [List.map_cons, List.sum_cons] at hsum
    have hslab : Rich (sampledFrom (R.take n.toNat)) n := rich_slab hR d1 (by omega)
    refine Live.bindM ?_ fun s1 _ => (Live.ofExcept _).bindM fun touch _ => ?_
    · cases dr with
      | points =>
        refine Live.bindM ?_ fun _ _ => .just _
        split <;> exact Live.uniqueLists _ (by omega) _
      | segments =>
        obtain ⟨d5, d6⟩ := d3 rfl
        refine Live.bindM ?_ fun _ _ => .just _
        split
        · exact pieceSegments_live (by omega) (hslab.mono (by omega)) (ho'.mono (by omega))
        · exact pieceSegments_live (by omega) (ho'.mono (by omega)) (hslab.mono (by omega))
      | polygon =>
        have d5 := d4 rfl
        obtain ⟨q, hq, -, hq1, hq2, hq3⟩ := toPriorPrime_spec n (by omega)
        have hpq := hq3 p hp d5
        have key : ∀ m : Int, p ≤ m → m ≤ n → Live (slabPolygon env a (R.take m.toNat) other z) := by
          intro m h1 h2
          have hm : Rich (sampledFrom (R.take m.toNat)) m := rich_slab hR (by omega) (by omega)
          unfold slabPolygon
          split
          · exact .inl (polygonStrategy_value hcoin henv hf hz (hm.mono (by omega))
              (ho'.mono (by omega)))
          · exact .inl (polygonStrategy_value hcoin henv hf hz (ho'.mono (by omega))
              (hm.mono (by omega)))
        refine Live.bindM ?_ fun m hm => Live.bindM (key m ?_ ?_) fun _ _ => .just _
        · split
          · exact .ofExcept _
          · exact .just _
        · split at hm
          · rw [val_ofExcept, hq] at hm
            cases hm
            exact_mod_cast hpq
          · rw [show m = n from hm]
            exact d5
        · split at hm
          · rw [val_ofExcept, hq] at hm
            cases hm
            exact hq1
          · rw [show m = n from hm]
    · have hb := b2i_cases touch
      refine ih hd' _ (hR.sublist (List.drop_sublist _ _)) ?_ s1
      rw [List.length_drop]
      omega

theorem coordsToMix_live {env : Env K} (hcoin : Coins env.coinChange)
    (henv : ∀ pts, HullOk (env.convexHull pts) pts) (hf : 49 ≤ env.fuel) {a : Bool}
    {other : Strategy K} {z : MixSizes} (hz : MixBoundsOk z) (hm : Modest z.polygon) {p : ℕ}
    (hp : p.Prime) (h5 : 5 ≤ p) {coords : List K} (hn : coords.Nodup)
    (ho : Rich other coords.length) : Live (coordsToMix env a other z p coords) := by
  refine (pointCounts_live _ _ _).bindM fun c hcnt => (Live.permutations _).bindM fun ds hds =>
    Live.bindM ?_ fun _ _ => .just _
  obtain ⟨⟨-, -, h1⟩, ⟨sp, h4, h5', -⟩, -, h9, hsum⟩ :=
    pointCounts_sizes hz.polygons hz.pointsLe hcnt
  have hall : ∀ d ∈ ds, 1 ≤ d.2 ∧ (d.1 = .segments → 2 ≤ d.2 ∧ d.2 % 2 = 0) ∧
      (d.1 = .polygon → p ≤ d.2) := by
    intro d hd'
    have := (List.Perm.mem_iff hds).1 hd'
    simp only [List.mem_append, List.mem_map] at this
    rcases this with (⟨a, ha, rfl⟩ | ⟨a, ha, rfl⟩) | ⟨a, ha, rfl⟩
    · exact ⟨h1 a ha, by simp, by simp⟩
    · rw [h4] at ha
      obtain ⟨b, hb, rfl⟩ := List.mem_map.1 ha
      have := h5' b hb
      dsimp only
      exact ⟨by omega, fun _ => ⟨by omega, by omega⟩, by simp⟩
    · have := h9 a ha
      exact ⟨by dsimp only; omega, by simp, fun _ => this⟩
  have hs : (ds.map Prod.snd).sum ≤ coords.length := by
    rw [(List.Perm.map Prod.snd hds).sum_eq]
    simp only [List.map_append, List.map_map, List.sum_append]
    have e : ∀ (d : Drawer) (l : List Int), List.map (Prod.snd ∘ fun c => (d, c)) l = l := by
      intro d l; exact List.map_id l
    rw [e, e, e]
    omega
  have hle : ∀ d ∈ ds, d.2 ≤ coords.length := by
    intro d hd
    refine le_trans (List.single_le_sum ?_ _ (List.mem_map_of_mem hd)) hs
    intro b hb
    obtain ⟨d, hd, rfl⟩ := List.mem_map.1 hb
    have := (hall d hd).1
    omega
  refine mixLoop_live hcoin henv hf hm hp h5 ds
    (fun d hd => ⟨(hall d hd).1, hle d hd, (hall d hd).2⟩) (fun _ => ho) _
    ((sortCoords_perm coords).nodup_iff.2 hn) ?_ _
  rw [(sortCoords_perm coords).length_eq]
  exact hs

theorem mixStrategy_live {env : Env K} (hcoin : Coins env.coinChange)
    (henv : ∀ pts, HullOk (env.convexHull pts) pts) (hf : 49 ≤ env.fuel)
    {x : Strategy K} {y : Option (Strategy K)} {z : MixSizes} (hz : MixBoundsOk z)
    (hm : Modest z.polygon) (hx : ∀ e, ¬ x.err e) (hxy : ∀ n, Rich x n ↔ Rich (y.getD x) n)
    {s : Strategy (Mix K)} (hs : toMixStrategy env x y z = .ok s) : Live s := by
  obtain ⟨q, hq, hqp, -, hq5, -⟩ :=
    toNextPrime_spec (z.polygon.minSize + z.polygon.minHoleCount * z.polygon.minHoleSize) (by
      rw [hm.least, hm.holes]; norm_num)
  simp only [toMixStrategy, exc_bind_ok, exc_pure_ok, hq] at hs
  obtain ⟨_, h', hs⟩ := hs
  cases h'
  subst hs
  refine Live.left (Live.bind (Live.uniqueLists _ ?_ _) fun l hl => ?_) _
  · have := hz.points; have := hz.segments; have := hz.polygons
    positivity
  · exact coordsToMix_live hcoin henv hf hz hm hqp hq5 hl.2.1
      ((hxy _).1 ⟨hx, l, hl.1, hl.2.1, le_refl _⟩)

theorem unionMixes_live {env : Env K} {x : Strategy K} {y : Option (Strategy K)}
    (l : List MixSizes) (hl : l ≠ [])
    (h : ∀ z ∈ l, ∀ t, toMixStrategy env x y z = .ok t → Live t) {s : Strategy (Mix K)}
    (hs : unionMixes env x y l = .ok s) : Live s := by
  match l, hl with
  | [z], _ => exact h z (by simp) s hs
  | z :: z' :: l, _ =>
    simp only [unionMixes, exc_bind_ok, exc_pure_ok] at hs
    obtain ⟨t, ht, r, -, rfl⟩ := hs
    exact (h z (by simp) t ht).left r

/-! ## The properties -/

/-- C54 for `points`, `segments`, `triangular_contours`, `boxes`, `rectangular_contours`: two values
of either coordinate suffice. -/
theorem C54_simple (x : Strategy K) (y : Option (Strategy K)) (hx : Rich x 2)
    (hy : Rich (y.getD x) 2) :
    (∀ s, points x y = .ok s → ∃ v, s.2.val v) ∧ (∀ s, segments x y = .ok s → ∃ v, s.2.val v) ∧
    (∀ s, triangularContours x y = .ok s → ∃ v, s.2.val v) ∧
    (∀ s, boxes x y = .ok s → ∃ v, s.2.val v) ∧
    ∀ s, rectangularContours x y = .ok s → ∃ v, s.2.val v := by
  refine ⟨fun s hs => ?_, fun s hs => ?_, fun s hs => ?_, fun s hs => ?_, fun s hs => ?_⟩
  · simp only [points, exc_pure_ok] at hs
    subst hs
    obtain ⟨a, ha⟩ := hx.nonempty (by norm_num)
    obtain ⟨b, hb⟩ := hy.nonempty (by norm_num)
    exact ⟨⟨a, b⟩, (a, b), ⟨ha, hb⟩, rfl⟩
  · simp only [segments, exc_pure_ok] at hs
    subst hs
    exact segment_value hx (hy.mono (by norm_num))
  · simp only [triangularContours, exc_pure_ok] at hs
    subst hs
    obtain ⟨v, hv⟩ := triangular_value hx hy
    exact ⟨_, v, hv, rfl⟩
  · simp only [boxes, exc_pure_ok] at hs
    subst hs
    exact box_value hx hy
  · simp only [rectangularContours, exc_pure_ok] at hs
    subst hs
    obtain ⟨v, hv⟩ := box_value hx hy
    exact ⟨_, _, ⟨v, hv, rfl⟩, rfl⟩

/-- C54 for `multipoints`: it is enough that sufficiently many different points can be drawn. -/
theorem C54_multipoints (x : Strategy K) (y : Option (Strategy K)) (lo : Int) (hi : Option Int)
    (l : List (Point K)) (hl : l.Nodup) (hd : ∀ q ∈ l, Drawn x y q) (hlo : max lo 1 ≤ l.length)
    (s : Made (List (Point K))) (hs : multipoints x y lo hi = .ok s) : ∃ v, s.2.val v := by
  simp only [multipoints, exc_bind_ok, exc_pure_ok, validate_ok] at hs
  obtain ⟨w, ⟨hb, -⟩, rfl⟩ := hs
  obtain ⟨b1, b2⟩ := okBounds_of hb
  have ht : (l.take (max lo 1).toNat).length = (max lo 1).toNat := by
    rw [List.length_take]; omega
  refine ⟨l.take (max lo 1).toNat, fun q hq => ⟨(q.x, q.y),
    drawn_iff.1 (hd q (List.mem_of_mem_take hq)), rfl⟩, hl.sublist (List.take_sublist _ _),
    by omega, ?_⟩
  rw [ht, show (((max lo 1).toNat : Nat) : Int) = max lo 1 by omega]
  cases hi with
  | none => trivial
  | some m => exact b2 m rfl

/-- C54 for `contours` and `convex_contours` with a lower bound of at most four: two values of
either coordinate suffice. -/
theorem C54_contours (env : Env K) (x : Strategy K) (y : Option (Strategy K)) (lo : Int)
    (hi : Option Int) (hlo : lo ≤ 4) (hx : Rich x 2) (hy : Rich (y.getD x) 2) :
    (∀ s, convexContours env x y lo hi = .ok s → ∃ v, s.2.val v) ∧
    ∀ s, contours env x y lo hi = .ok s → ∃ v, s.2.val v := by
  have key : ¬ BadBounds lo hi 3 → ∃ vs, (toConvexStrategy env x y (max lo 3) hi).val vs := by
    intro hb
    obtain ⟨b1, b2⟩ := okBounds_of hb
    obtain ⟨t, ht⟩ := triangular_value hx hy
    obtain ⟨b, hb⟩ := box_value hx hy
    have hr : (toRectangularStrategy x y).val (boxVertices b) := ⟨b, hb, rfl⟩
    unfold toConvexStrategy
    dsimp only
    rw [if_pos (show max lo 3 ≤ 4 by omega)]
    by_cases h3 : max lo 3 = 3
    · rw [if_pos h3]
      cases hi with
      | none => exact ⟨t, .inl ht⟩
      | some m =>
        dsimp only
        split
        · exact ⟨t, ht⟩
        · exact ⟨t, .inl ht⟩
    · rw [if_neg h3]
      cases hi with
      | none => exact ⟨_, .inl hr⟩
      | some m =>
        have := b2 m rfl
        dsimp only
        rw [if_neg (by omega)]
        exact ⟨_, .inl hr⟩
  refine ⟨fun s hs => ?_, fun s hs => ?_⟩
  · simp only [convexContours, exc_bind_ok, exc_pure_ok, validate_ok] at hs
    obtain ⟨w, ⟨hb, -⟩, rfl⟩ := hs
    obtain ⟨v, hv⟩ := key hb
    exact ⟨_, v, hv, rfl⟩
  · simp only [contours, exc_bind_ok, exc_pure_ok, validate_ok] at hs
    obtain ⟨w, ⟨hb, -⟩, rfl⟩ := hs
    obtain ⟨v, hv⟩ := key hb
    exact ⟨_, v, .inl hv, rfl⟩

/-- C54 for `multisegments` with any bounds. -/
theorem C54_multisegments (env : Env K) (x : Strategy K) (y : Option (Strategy K)) (lo : Int)
    (hi : Option Int) (hx : Rich x 1) (hy : Rich (y.getD x) (max lo 2 + 1))
    (s : Made (List (Segment K))) (hs : multisegments env x y lo hi = .ok s) : ∃ v, s.2.val v := by
  simp only [multisegments, exc_bind_ok, exc_pure_ok, validate_ok] at hs
  obtain ⟨w, ⟨hb, -⟩, rfl⟩ := hs
  exact segmentSequence_value (le_max_right _ _) (okBounds_of hb).2 hx hy

/-- C54 for `multicontours` with any number of contours. -/
theorem C54_multicontours (env : Env K) (hcoin : Coins env.coinChange) (x : Strategy K)
    (y : Option (Strategy K)) (hgen : GenericCoords x y) (hsteps : EnoughSteps env (Drawn x y))
    (lo : Int) (hi : Option Int) (clo : Int) (chi : Option Int) (hclo : clo ≤ 3) (p : ℕ)
    (hp : p.Prime) (hp1 : 5 ≤ p ∧ max lo 2 * 3 ≤ p) (hx : Rich x p) (hy : Rich (y.getD x) p)
    (s : Made (List (Contour K))) (hs : multicontours env x y lo hi clo chi = .ok s) :
    ∃ v, s.2.val v := by
  have h3 : max clo 3 = 3 := max_eq_right hclo
  have hno : ∀ e, ¬ s.2.err e := fun e h =>
    (C48_multicontours env hcoin x y hgen lo hi clo chi p hp ⟨hp1.1, by rw [h3]; exact hp1.2⟩ hx hy
      s hs e h).not hsteps
  simp only [multicontours, exc_bind_ok, exc_pure_ok, validate_ok] at hs
  obtain ⟨w, ⟨hb, -⟩, w', ⟨hb', -⟩, rfl⟩ := hs
  have c2 := (okBounds_of hb').2
  rw [h3] at c2 hno ⊢
  exact multicontourStrategy_value hcoin hgen (le_max_right _ _) (okBounds_of hb).2 c2 hp hp1.1
    hp1.2 hx hy hno

/-- C54 for `polygons`: whatever the coordinates are, there is a polygon. -/
theorem C54_polygons (env : Env K) (hcoin : Coins env.coinChange)
    (henv : ∀ pts, HullOk (env.convexHull pts) pts) (hf : 49 ≤ env.fuel) (x : Strategy K)
    (y : Option (Strategy K)) (lo : Int) (hi : Option Int) (nlo : Int) (nhi : Option Int)
    (hlo : Int) (hhi : Option Int) (h1 : lo ≤ 3) (h2 : ∀ m, hi = some m → 5 ≤ m) (h3 : nlo ≤ 0)
    (hx : Rich x 5) (hy : Rich (y.getD x) 5) (s : Made (Polygon K))
    (hs : polygons env x y lo hi nlo nhi hlo hhi = .ok s) : ∃ p, s.2.val p := by
  simp only [polygons, exc_bind_ok, exc_pure_ok, validate_ok] at hs
  obtain ⟨w, ⟨b1, -⟩, w', ⟨b2, -⟩, w'', -, rfl⟩ := hs
  obtain ⟨-, c2⟩ := okBounds_of b2
  refine polygonStrategy_value hcoin henv hf ⟨by dsimp only; omega, h2, by dsimp only; omega, fun m hm => ?_, le_max_right _ _⟩ hx hy
  have := c2 m hm
  omega

/-- C54 for `multipolygons` with any number of polygons. -/
theorem C54_multipolygons (env : Env K) (hcoin : Coins env.coinChange)
    (hset : ∀ l, (env.setOrder l).Perm l) (hcheck : SoundCheck env.segmentsCrossOrOverlap)
    (henv : ∀ pts, HullOk (env.convexHull pts) pts)
    (x : Strategy K) (y : Option (Strategy K)) (hgen : GenericCoords x y)
    (hsteps : EnoughSteps env (Drawn x y)) (lo : Int) (hi : Option Int) (blo : Int)
    (bhi : Option Int) (nhi : Option Int) (hlo : Int) (hhi : Option Int) (hblo : blo ≤ 3) (n : ℕ)
    (hn : n.Prime) (hn1 : max lo 2 * 5 ≤ n) (hx : Rich x n) (hy : Rich (y.getD x) n)
    (s : Made (List (Polygon K)))
    (hs : multipolygons env x y lo hi blo bhi 0 nhi hlo hhi = .ok s) : ∃ v, s.2.val v := by
  have h3 : max blo 3 = 3 := max_eq_right hblo
  have h2 : 2 ≤ max lo 2 := le_max_right _ _
  have hno : ∀ e, ¬ s.2.err e := C50_multipolygons env hcoin hset hcheck henv x y hgen hsteps lo hi
    blo bhi 0 nhi hlo hhi le_rfl 5 n (by norm_num) ⟨le_rfl, by rw [h3]; norm_num⟩ hn hn1 hx hy s hs
  simp only [multipolygons, exc_bind_ok, exc_pure_ok, validate_ok] at hs
  obtain ⟨w, ⟨hb, -⟩, w', ⟨hb', -⟩, w2, -, w3, -, t, ht, rfl⟩ := hs
  have c2 := (okBounds_of hb').2
  simp only [toMultipolygonStrategy, if_true, exc_bind_ok, exc_pure_ok] at ht
  obtain ⟨mp, -, rfl⟩ := ht
  rw [h3] at c2 hno ⊢
  have hg : GenericCoords x (some (y.getD x)) := by cases y <;> exact hgen
  obtain ⟨cs, hcs⟩ := multicontourStrategy_value (y := some (y.getD x)) hcoin hg h2
    (okBounds_of hb).2 c2 hn (by omega) (by omega) hx hy fun e he => hno e (.inl he)
  exact ⟨_, .inl ⟨cs, hcs, rfl⟩⟩

/-- C54 for `mixes`. -/
theorem C54_mixes (env : Env K) (hcoin : Coins env.coinChange)
    (hset : ∀ l, (env.setOrder l).Perm l) (hcheck : SoundCheck env.segmentsCrossOrOverlap)
    (henv : ∀ pts, HullOk (env.convexHull pts) pts) (hf : 49 ≤ env.fuel)
    (x : Strategy K) (y : Option (Strategy K)) (hgen : GenericCoords x y)
    (hsteps : EnoughSteps env (Drawn x y)) (a : MixArgs) (h1 : a.minPolygonBorderSize ≤ 3)
    (h2 : ∀ m, a.maxPolygonBorderSize = some m → 5 ≤ m) (h3 : a.minPolygonHolesSize ≤ 0)
    (hx : Rich x (max a.minPointsSize 1 + 2 * max a.minSegmentsSize 1 +
      max a.minPolygonsSize 1 * 5))
    (hxy : ∀ n, Rich x n ↔ Rich (y.getD x) n) (s : Made (Mix K))
    (hs : mixes env x y a = .ok s) : ∃ v, s.2.val v := by
  have hno : ∀ e, ¬ s.2.err e := C50_mixes env hcoin hset hcheck henv x y hgen hsteps a 5
    (by norm_num) ⟨le_rfl, by rw [max_eq_right h1, max_eq_right h3]; norm_num⟩ hx hxy s hs
  refine Live.value ?_ hno
  simp only [mixes, exc_bind_ok, validate_ok] at hs
  obtain ⟨w1, ⟨b1, -⟩, w2, ⟨b2, -⟩, w3, ⟨b3, -⟩, w4, ⟨b4, -⟩, w5, ⟨b5, -⟩, w6, -, hs⟩ := hs
  split at hs
  · simp only [exc_throw_ok] at hs
  · rename_i hcount
    simp only [exc_bind_ok, exc_pure_ok] at hs
    obtain ⟨t, ht, rfl⟩ := hs
    refine unionMixes_live _ ?_ ?_ ht
    · unfold MixArgs.branches
      dsimp only
      split_ifs <;> simp
    intro z hz u hu
    obtain ⟨m1, m2, m3, k1, k2, k3⟩ := branches_minima a z hz hcount
    have hpoly : z.polygon = (a.sizes 0 0 0).polygon := a.branches_polygon z hz
    have bound : ∀ {lo v : Int} {hi : Option Int}, ¬ BadBounds lo hi 0 →
        (v = max lo 0 ∨ (v = max (max lo 0) 1 ∧ hi ≠ some 0)) →
        0 ≤ v ∧ ∀ m, hi = some m → v ≤ m := by
      intro lo v hi hb hv
      have hb' := (okBounds_of hb).2
      refine ⟨by omega, fun m e => ?_⟩
      have hm := hb' m e
      rcases hv with h | ⟨h, h'⟩
      · omega
      · have : m ≠ 0 := fun hc => h' (by rw [e, hc])
        omega
    obtain ⟨p0, p2⟩ := bound b1 k1
    obtain ⟨s0, s2⟩ := bound b2 k2
    obtain ⟨g0, g2⟩ := bound b3 k3
    refine mixStrategy_live hcoin henv hf ⟨p0, s0, g0, by rw [m1]; exact p2, by rw [m2]; exact s2,
      by rw [m3]; exact g2, by rw [hpoly]; exact polyBoundsOk_of b4 b5⟩ ?_ hx.ok hxy hu
    rw [hpoly]
    refine ⟨max_eq_right h1, h2, max_eq_right h3, fun m hm => ?_, le_max_right _ _⟩
    have := (okBounds_of b5).2 m hm
    omega

end
end HG
