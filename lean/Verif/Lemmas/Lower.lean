import Verif.Lemmas.Loosen
import Verif.Lemmas.Primes
import Verif.Lemmas.Sizes

/-!
# Inclusion of strategies with different lower bounds

Lowering the lower bounds enlarges the set of values of a strategy if the upper bounds leave room
for the numbers of points the package works with (primes from 5 on).
-/

set_option linter.unusedSectionVars false

namespace HG

open Strategy Strategy.Within Spec

/-- An upper bound leaves room for a prime number of points. -/
def Spec.PrimeRoom (lo : Int) (hi : Option Int) : Prop :=
  ∀ m, hi = some m → ∃ p : ℕ, p.Prime ∧ 5 ≤ p ∧ lo ≤ (p : Int) ∧ (p : Int) ≤ m

theorem Spec.PrimeRoom.max_three {lo : Int} {hi : Option Int} (h : PrimeRoom lo hi) {k : Int}
    (hk : k ≤ 5) : PrimeRoom (max lo k) hi := fun m hm => by
  obtain ⟨p, hp, h5, h1, h2⟩ := h m hm
  exact ⟨p, hp, h5, by omega, h2⟩

theorem toNextPrime_mono {a b p q : Int} (h3 : 3 ≤ a) (h : a ≤ b) (ha : toNextPrime a = .ok p)
    (hb : toNextPrime b = .ok q) : p ≤ q := by
  obtain ⟨p', e1, -, -, -, -, l1⟩ := toNextPrime_spec a h3
  obtain ⟨q', e2, k1, k2, k3, -, -⟩ := toNextPrime_spec b (h3.trans h)
  rw [e1] at ha
  rw [e2] at hb
  cases ha
  cases hb
  exact_mod_cast l1 q' k1 (by omega) k3

theorem toPriorPrime_mono {a b p q : Int} (h5 : 5 ≤ a) (h : a ≤ b) (ha : toPriorPrime a = .ok p)
    (hb : toPriorPrime b = .ok q) : p ≤ q := by
  obtain ⟨p', e1, k1, k2, -, -⟩ := toPriorPrime_spec a h5
  obtain ⟨q', e2, -, -, -, l2⟩ := toPriorPrime_spec b (h5.trans h)
  rw [e1] at ha
  rw [e2] at hb
  cases ha
  cases hb
  exact_mod_cast l2 p' k1 (k2.trans h)

theorem Strategy.Within.uniqueLists_lower {α : Type} (s : Strategy α) {lo lo' : Int}
    (hlo : lo' ≤ lo) {hi hi' : Option Int} (hh : Looser hi hi') :
    Within (Strategy.uniqueLists s lo hi) (Strategy.uniqueLists s lo' hi') :=
  fun _ hl => ⟨hl.1, hl.2.1, hlo.trans hl.2.2.1, hh.leOpt hl.2.2.2⟩

theorem Strategy.Within.lists_lower {α : Type} (s : Strategy α) {lo lo' : Int} (hlo : lo' ≤ lo)
    (hi : Option Int) : Within (Strategy.lists s lo hi) (Strategy.lists s lo' hi) :=
  fun _ hl => ⟨hl.1, hlo.trans hl.2.1, hl.2.2⟩

theorem Strategy.Within.integers_both {lo lo' hi hi' : Int} (hlo : lo' ≤ lo) (h : hi ≤ hi') :
    Within (Strategy.integers lo hi) (Strategy.integers lo' hi') :=
  fun _ ha => ⟨hlo.trans ha.1, ha.2.trans h⟩

theorem hasValidSize_lower {lo lo' : Int} (hlo : lo' ≤ lo) {hi : Option Int} {n : ℕ}
    (hv : hasValidSize lo hi n = true) : hasValidSize lo' hi n = true := by
  unfold hasValidSize at hv ⊢
  rw [Bool.and_eq_true] at hv ⊢
  refine ⟨?_, hv.2⟩
  have := hv.1
  simp only [decide_eq_true_eq] at this ⊢
  omega

/-! ### Distribution of points -/

theorem modify_replicate (a : Int) (i j : ℕ) :
    (List.replicate i (a + 1) ++ List.replicate (j + 1) a).modify i (· + 1) =
      List.replicate (i + 1) (a + 1) ++ List.replicate j a := by
  induction i with
  | zero => simp [List.replicate_succ]
  | succ i ih =>
    rw [List.replicate_succ, List.cons_append, List.modify_succ_cons, ih]
    rfl

theorem perm_map_exists {α β : Type} {f : α → β} {r : List β} {l : List α} (h : r.Perm (l.map f)) :
    ∃ l' : List α, l'.Perm l ∧ r = l'.map f := by
  induction l generalizing r with
  | nil => exact ⟨[], .refl _, by simpa using h⟩
  | cons a l ih =>
    obtain ⟨r1, r2, rfl⟩ := List.append_of_mem (h.mem_iff.2 (List.mem_map_of_mem (f := f)
      (List.mem_cons_self (a := a) (l := l))))
    obtain ⟨l', h1, h2⟩ := ih (r := r1 ++ r2)
      ((List.perm_middle.symm.trans h).cons_inv)
    obtain ⟨l1, l2, rfl, rfl, rfl⟩ := List.map_eq_append_iff.1 h2.symm
    exact ⟨l1 ++ a :: l2, List.perm_middle.trans (h1.cons a), by simp⟩

theorem ediv_anti {n a b : Int} (hn : 0 ≤ n) (hb : 1 ≤ b) (h : b ≤ a) : n / a ≤ n / b := by
  rw [Int.le_ediv_iff_mul_le (by omega)]
  exact (mul_le_mul_of_nonneg_left h (Int.ediv_nonneg hn (by omega))).trans
    (Int.ediv_mul_le n (by omega))

theorem distribute_round {a : Int} (k j i : ℕ) :
    distribute (j + k) i (List.replicate i (a + 1) ++ List.replicate j a) =
      distribute k ((i + j) % (i + j)) (List.replicate (i + j) (a + 1)) ∨ j = 0 := by
  induction j generalizing i with
  | zero => exact .inr rfl
  | succ j ih =>
    left
    have hne : List.replicate i (a + 1) ++ List.replicate (j + 1) a ≠ [] := by simp
    rw [show j + 1 + k = (j + k) + 1 by omega, distribute, if_neg hne]
    have hm : (List.replicate i (a + 1) ++ List.replicate (j + 1) a).modify i (· + 1) =
        List.replicate (i + 1) (a + 1) ++ List.replicate j a := by
      exact modify_replicate a i j
    rw [hm]
    have hlen : (List.replicate i (a + 1) ++ List.replicate (j + 1) a).length = i + (j + 1) := by simp
    rw [hlen]
    rcases Nat.eq_zero_or_pos j with rfl | hj
    · simp
    · rw [Nat.mod_eq_of_lt (by omega)]
      rcases ih (i + 1) with h | h
      · rw [h, show i + 1 + j = i + (j + 1) by omega]
      · omega

/-- A full round of the distribution. -/
theorem distribute_full {a : Int} (k n : ℕ) (hn : n ≠ 0) :
    distribute (n + k) 0 (List.replicate n a) = distribute k 0 (List.replicate n (a + 1)) := by
  rcases distribute_round (a := a) k n 0 with h | h
  · simpa using h
  · exact absurd h hn

theorem distribute_rounds {a : Int} (d k n : ℕ) (hn : n ≠ 0) :
    distribute (d * n + k) 0 (List.replicate n a) = distribute k 0 (List.replicate n (a + d)) := by
  induction d generalizing a with
  | zero => simp
  | succ d ih =>
    rw [show (d + 1) * n + k = n + (d * n + k) by ring, distribute_full _ _ hn, ih]
    congr 2
    push_cast
    ring

/-- The largest sizes do not depend on the smallest one. -/
theorem distribute_lower {a b limit size : Int} (hab : b ≤ a) (hs : 1 ≤ size)
    (hl : size * a ≤ limit) :
    distribute (limit - size * b).toNat 0 (List.replicate size.toNat b) =
      distribute (limit - size * a).toNat 0 (List.replicate size.toNat a) := by
  obtain ⟨d, rfl⟩ : ∃ d : ℕ, a = b + d := ⟨(a - b).toNat, by omega⟩
  obtain ⟨n, rfl⟩ : ∃ n : ℕ, size = n := ⟨size.toNat, by omega⟩
  obtain ⟨k, hk⟩ : ∃ k : ℕ, limit = n * (b + d) + k := ⟨(limit - n * (b + d)).toNat, by omega⟩
  subst hk
  have e1 : ((n : Int) * (b + d) + k - n * b).toNat = d * n + k := by
    have : (n : Int) * (b + d) + k - n * b = ((d * n + k : ℕ) : Int) := by push_cast; ring
    rw [this, Int.toNat_natCast]
  have e2 : ((n : Int) * (b + d) + k - n * (b + d)).toNat = k := by
    have : (n : Int) * (b + d) + k - n * (b + d) = (k : Int) := by ring
    rw [this, Int.toNat_natCast]
  rw [e1, e2, Int.toNat_natCast]
  exact distribute_rounds d k n (by omega)

theorem mem_rangeIncl' {lo hi a : Int} : a ∈ rangeIncl lo hi ↔ lo ≤ a ∧ a ≤ hi := by
  unfold rangeIncl
  simp only [List.mem_map, List.mem_range]
  constructor
  · rintro ⟨i, hi', rfl⟩
    omega
  · intro h
    exact ⟨(a - lo).toNat, by omega, by omega⟩

theorem Strategy.Within.sequence {α ι : Type} {f g : ι → Strategy α} (h : ∀ i, Within (f i) (g i))
    (l : List ι) : Within (Strategy.sequence (l.map f)) (Strategy.sequence (l.map g)) := by
  induction l with
  | nil => exact rfl'
  | cons i l ih => exact (h i).bind fun _ _ => ih.map _

theorem rangeIncl_lower {a b : Int} (h : b ≤ a) (m : Int) :
    Within (sampledFrom (rangeIncl a m)) (sampledFrom (rangeIncl b m)) := by
  intro n hn
  simp only [val_sampledFrom, mem_rangeIncl'] at hn ⊢
  omega

theorem toSizes_lower {a b limit size : Int} (hab : b ≤ a) (hs : 1 ≤ size)
    (hl : size * a ≤ limit) : Within (toSizes a limit size) (toSizes b limit size) := by
  unfold toSizes
  rw [distribute_lower hab hs hl]
  exact bindM rfl' fun l _ => (Within.sequence (fun m => rangeIncl_lower hab m) l).bind
    fun _ _ => rfl'

theorem toHoleSizesAux_lower {a b limit size : Int} (hab : b ≤ a) (hs : 0 ≤ size)
    (hl : size * a ≤ limit) :
    Within (toHoleSizesAux a limit size) (toHoleSizesAux b limit size) := by
  unfold toHoleSizesAux
  split
  · exact rfl'
  rename_i h0
  rw [distribute_lower hab (by omega) hl]
  refine bindM rfl' fun l _ => ?_
  rintro v ⟨ranges, hr, hv⟩
  rw [val_permutations] at hr
  obtain ⟨l', hl', rfl⟩ := perm_map_exists hr
  refine ⟨l'.map (rangeIncl b), ?_, ?_⟩
  · rw [val_permutations]
    exact hl'.map _
  · dsimp only at hv ⊢
    rw [List.map_map] at hv ⊢
    exact Within.sequence (fun m => rangeIncl_lower hab m) l' v hv

section

variable {K : Type} [LinearOrder K] [Zero K] [Add K] [_root_.Sub K] [Predicates K]

variable {x : Strategy K} {y : Option (Strategy K)}

theorem generalPosition_lower {lo lo' : Int} (h3 : 3 ≤ lo') (hlo : lo' ≤ lo) {hi : Option Int}
    (hr : PrimeRoom lo hi ∨ lo ≤ 5) :
    Within (toGeneralPositionStrategy x y lo hi) (toGeneralPositionStrategy x y lo' hi) := by
  obtain ⟨p, e1, k1, k2, k3, k4, k5⟩ := toNextPrime_spec lo (h3.trans hlo)
  obtain ⟨p', e1', k1', k2', k3', k4', k5'⟩ := toNextPrime_spec lo' h3
  have hpp : p' ≤ p := k5' p k1 (by omega) k3
  have hloose : Looser (maxOpt p hi) (maxOpt p' hi) := by
    intro m hm
    cases hi with
    | none => cases hm
    | some n =>
      simp only [maxOpt, Option.some.injEq] at hm ⊢
      refine ⟨_, rfl, ?_⟩
      rcases hr with hr | hr
      · obtain ⟨q, hq, h5, h1, h2⟩ := hr n rfl
        have := k5 q hq h1 h5
        omega
      · have := k5 5 (by norm_num) (by exact_mod_cast hr) le_rfl
        omega
  unfold toGeneralPositionStrategy
  rw [e1, e1']
  rintro v ⟨_, rfl, h⟩
  refine ⟨_, rfl, ?_⟩
  exact bindM ((Within.uniqueLists_lower x (by exact_mod_cast hpp) hloose).prod
    (Within.uniqueLists_lower (yOr x y) (by exact_mod_cast hpp) hloose)) (fun _ _ => rfl') v h

theorem convexPick_lower {lo lo' : Int} (h3 : 3 ≤ lo') (hlo : lo' ≤ lo) {hi : Option Int}
    {tri rect big big' : Strategy (List (Point K))} (hb : Within big big') :
    Within (convexPick lo hi tri rect big) (convexPick lo' hi tri rect big') := by
  have r : Within (if lo ≤ 4 then rect ||| big else big)
      (if lo' ≤ 4 then rect ||| big' else big') := by
    by_cases h : lo ≤ 4
    · rw [if_pos h, if_pos (hlo.trans h)]
      exact rfl'.or hb
    · rw [if_neg h]
      split
      · exact hb.inr _
      · exact hb
  have all : Within (if lo = 3 then tri ||| (if lo ≤ 4 then rect ||| big else big)
        else (if lo ≤ 4 then rect ||| big else big))
      (if lo' = 3 then tri ||| (if lo' ≤ 4 then rect ||| big' else big')
        else (if lo' ≤ 4 then rect ||| big' else big')) := by
    by_cases h : lo = 3
    · rw [if_pos h, if_pos (show lo' = 3 by omega)]
      exact rfl'.or r
    · rw [if_neg h]
      by_cases h' : lo' = 3
      · rw [if_pos h']
        exact r.inr _
      · rw [if_neg h']
        exact r
  unfold convexPick
  dsimp only
  cases hi with
  | none => exact all
  | some m =>
    dsimp only
    split
    · exact rfl'
    · exact all

theorem convex_lower {env : Env K} {lo lo' : Int} (h3 : 3 ≤ lo') (hlo : lo' ≤ lo) {hi : Option Int}
    (hr : PrimeRoom lo hi ∨ lo ≤ 5) :
    Within (toConvexStrategy env x y lo hi) (toConvexStrategy env x y lo' hi) :=
  convexPick_lower h3 hlo ((((generalPosition_lower h3 hlo hr).prod rfl').mapE _).filter
    fun _ h => hasValidSize_lower hlo h)

theorem star_lower {env : Env K} {lo lo' : Int} (h3 : 3 ≤ lo') (hlo : lo' ≤ lo) {hi : Option Int}
    (hr : PrimeRoom lo hi ∨ lo ≤ 5) :
    Within (toStarStrategy env x y lo hi) (toStarStrategy env x y lo' hi) :=
  ((generalPosition_lower h3 hlo hr).map _).filter fun _ h => hasValidSize_lower hlo h

theorem vertexSequences_lower {env : Env K} {lo lo' : Int} (h3 : 3 ≤ lo') (hlo : lo' ≤ lo)
    {hi : Option Int} (hr : PrimeRoom lo hi ∨ lo ≤ 5) :
    Within (toVertexSequences env x y lo hi) (toVertexSequences env x y lo' hi) :=
  (star_lower h3 hlo hr).or ((((generalPosition_lower h3 hlo hr).bind fun _ _ =>
    rfl'.prod (Within.integers_both hlo le_rfl)).mapE _).filter fun _ h => hasValidSize_lower hlo h)

theorem concave_lower {env : Env K} {lo lo' : Int} (h3 : 3 ≤ lo') (hlo : lo' ≤ lo)
    {hi : Option Int} (hr : PrimeRoom lo hi ∨ lo ≤ 5) :
    Within (toConcaveStrategy env x y lo hi) (toConcaveStrategy env x y lo' hi) :=
  (vertexSequences_lower h3 hlo hr).filterE _

theorem vertexSequence_lower {env : Env K} {lo lo' : Int} (h3 : 3 ≤ lo') (hlo : lo' ≤ lo)
    {hi : Option Int} (hr : PrimeRoom lo hi ∨ lo ≤ 5) :
    Within (toVertexSequenceStrategy env x y lo hi) (toVertexSequenceStrategy env x y lo' hi) :=
  (convex_lower h3 hlo hr).or (vertexSequences_lower h3 hlo hr)

theorem segmentSequence_lower {env : Env K} {lo lo' : Int} (hlo : lo' ≤ lo)
    {hi : Option Int} (hr : PrimeRoom lo hi ∨ lo ≤ 5) :
    Within (toSegmentSequenceStrategy env x y lo hi) (toSegmentSequenceStrategy env x y lo' hi) := by
  have hm : max lo' 3 ≤ max lo 3 := max_le_max hlo le_rfl
  have a1 := ((rfl' (s := x)).prod (Within.uniqueLists_lower (yOr x y)
    (show lo' + 1 ≤ lo + 1 by omega) (Looser.rfl' (hi := hi.map (· + 1))))).map
    fun p => verticalMultisegment p.1 p.2
  have a2 := ((Within.uniqueLists_lower x (show lo' + 1 ≤ lo + 1 by omega)
    (Looser.rfl' (hi := hi.map (· + 1)))).prod (rfl' (s := yOr x y))).map
    fun p => horizontalMultisegment p.1 p.2
  have a4 := (Within.lists_lower (toSegmentStrategy x (some (yOr x y))) hlo hi).filter
    (p := fun ss => !env.segmentsCrossOrOverlap ss) fun _ h => h
  have a3 : Within (((toVertexSequenceStrategy env x (some (yOr x y)) (max lo 3) hi).map
        contourEdges).bind (toSubSequenceStrategy lo))
      (((toVertexSequenceStrategy env x (some (yOr x y)) (max lo' 3) hi).map
        contourEdges).bind (toSubSequenceStrategy lo')) := by
    refine ((vertexSequence_lower (le_max_right _ _) hm ?_).map _).bind fun _ _ => ?_
    · rcases hr with hr | hr
      · exact .inl (hr.max_three (by norm_num))
      · exact .inr (by omega)
    · exact (rfl'.prod (Within.integers_both hlo le_rfl)).map _
  unfold toSegmentSequenceStrategy
  dsimp only
  cases hi with
  | none => exact ((a1.or a2).or a3).or a4
  | some m =>
    dsimp only
    split
    · exact rfl'
    · split
      · exact ((a1.or a2).or a3).or a4
      · exact (a1.or a2).or a4

theorem valid_sizes_lower {lo lo' clo clo' : Int} (hlo : lo' ≤ lo) (hc : clo' ≤ clo)
    {hi chi : Option Int} {cs : List (Contour K)}
    (h : multicontourHasValidSizes lo hi clo chi cs = true) :
    multicontourHasValidSizes lo' hi clo' chi cs = true := by
  unfold multicontourHasValidSizes at h ⊢
  rw [Bool.and_eq_true, List.all_eq_true] at h ⊢
  exact ⟨hasValidSize_lower hlo h.1, fun c hcs => hasValidSize_lower hc (h.2 c hcs)⟩

theorem minOpt_mono {a b : Int} (h : a ≤ b) (hi : Option Int) : minOpt a hi ≤ minOpt b hi :=
  Looser.rfl'.minOpt h

theorem minOpt_le {a : Int} (hi : Option Int) : minOpt a hi ≤ a := by
  cases hi
  · exact le_rfl
  · exact min_le_left _ _

theorem toSizeStrategy_lower {lo lo' clo clo' limit : Int} (h1 : 1 ≤ lo') (hlo : lo' ≤ lo)
    (h3 : 1 ≤ clo') (hc : clo' ≤ clo) (hl : 0 ≤ limit) {hi : Option Int} :
    Within (toSizeStrategy lo hi clo limit) (toSizeStrategy lo' hi clo' limit) := by
  refine (Within.integers_both hlo (minOpt_mono (ediv_anti hl h3 hc) hi)).bind
    fun n hn => ?_
  refine toSizes_lower hc (by have := hn.1; omega) ?_
  have h2 : n ≤ limit / clo := hn.2.trans (minOpt_le hi)
  exact (Int.le_ediv_iff_mul_le (by omega)).1 h2

theorem multicontour_lower {env : Env K} {lo lo' clo clo' : Int} (h1 : 1 ≤ lo') (hlo : lo' ≤ lo)
    (h3 : 3 ≤ clo') (hc : clo' ≤ clo) {hi chi : Option Int}
    (hr : PrimeRoom (lo * clo) (optMul hi chi)) :
    Within (toMulticontourStrategy env x y lo hi clo chi)
      (toMulticontourStrategy env x y lo' hi clo' chi) := by
  have hp : lo' * clo' ≤ lo * clo := mul_le_mul hlo hc (by omega) (by omega)
  have hp3 : 3 ≤ lo' * clo' := by nlinarith
  exact ((generalPosition_lower hp3 hp (.inl hr)).bind fun _ _ =>
    ((toSizeStrategy_lower h1 hlo (by omega) hc (Int.natCast_nonneg _)).prod rfl').mapE _).filter
    fun _ h => valid_sizes_lower hlo hc h

/-- Bounds of polygons with lower lower bounds. -/
structure Spec.LowerSizes (z z' : PolygonSizes) : Prop where
  minSize : z'.minSize ≤ z.minSize
  minHoleCount : z'.minHoleCount ≤ z.minHoleCount
  minHoleSize : z'.minHoleSize ≤ z.minHoleSize
  maxSize : z'.maxSize = z.maxSize
  maxHoleCount : z'.maxHoleCount = z.maxHoleCount
  maxHoleSize : z'.maxHoleSize = z.maxHoleSize
  size_three : 3 ≤ z'.minSize
  count_nonneg : 0 ≤ z'.minHoleCount
  hole_three : 3 ≤ z'.minHoleSize
  count_le : ∀ m, z.maxHoleCount = some m → 0 ≤ m
  room : PrimeRoom (z.minSize + z.minHoleSize * z.minHoleCount) z.maxPointCount

theorem Spec.LowerSizes.product {z z' : PolygonSizes} (h : LowerSizes z z') :
    z'.minHoleSize * z'.minHoleCount ≤ z.minHoleSize * z.minHoleCount ∧
      0 ≤ z'.minHoleSize * z'.minHoleCount := by
  obtain ⟨h1, h2, h3, -, -, -, h4, h5, h6, -⟩ := h
  exact ⟨mul_le_mul h3 h2 h5 (by omega), mul_nonneg (by omega) h5⟩

theorem toHoleSizes_lower {z z' : PolygonSizes} (h : LowerSizes z z') {pts : List (Point K)}
    (hin : z.minHoleSize * z.minHoleCount ≤ (pts.length : Int) - (toMaxConvexHull pts).length)
    (hnn : 0 ≤ (pts.length : Int) - (toMaxConvexHull pts).length) :
    Within (toHoleSizes z pts) (toHoleSizes z' pts) := by
  obtain ⟨h1, h2, h3, -, e2, -, h4, h5, h6, h7, -⟩ := h
  unfold toHoleSizes
  dsimp only
  rw [e2]
  split
  · rename_i hge
    rw [if_pos (by omega)]
    refine (Within.integers_both h2 (minOpt_mono (ediv_anti hnn (by omega) h3)
      _)).bind fun n hn => ?_
    refine toHoleSizesAux_lower h3 (by have := hn.1; omega) ?_
    have h2' := hn.2.trans (minOpt_le z.maxHoleCount)
    exact (Int.le_ediv_iff_mul_le (by omega)).1 h2'
  · rename_i hlt
    have hc : z.minHoleCount ≤ 0 := by
      by_contra hc
      have : z.minHoleSize * 1 ≤ z.minHoleSize * z.minHoleCount :=
        mul_le_mul_of_nonneg_left (by omega) (by omega)
      omega
    split
    · intro v hv
      refine ⟨0, ⟨by omega, ?_⟩, ?_⟩
      · have hd : 0 ≤ ((pts.length : Int) - (toMaxConvexHull pts).length) / z'.minHoleSize :=
          Int.ediv_nonneg hnn (by omega)
        cases hm : z.maxHoleCount with
        | none => exact hd
        | some m => exact le_min hd (h7 m hm)
      · unfold toHoleSizesAux
        rw [if_pos rfl]
        exact hv
    · exact rfl'

theorem Spec.LowerSizes.maxPointCount {z z' : PolygonSizes} (h : LowerSizes z z') :
    z'.maxPointCount = z.maxPointCount := by
  unfold PolygonSizes.maxPointCount
  rw [h.maxSize, h.maxHoleCount, h.maxHoleSize]

theorem polygon_lower {env : Env K} {z z' : PolygonSizes} (h : LowerSizes z z') :
    Within (toPolygonStrategy env x y z) (toPolygonStrategy env x y z') := by
  have hp := h.product
  have hcnt := h.maxPointCount
  have h' := h
  obtain ⟨h1, h2, h3, e1, e2, e3, h4, h5, h6, h7, hr⟩ := h'
  unfold toPolygonStrategy
  rw [hcnt]
  refine (((generalPosition_lower (by omega) (by omega) (.inl hr)).filter fun pts hv => ?_).bind
    fun pts hpts => ?_).filter fun p hv => ?_
  · unfold hasValidInnerPointCount at hv ⊢
    rw [Bool.and_eq_true] at hv ⊢
    rw [e1]
    refine ⟨hv.1, ?_⟩
    have := hv.2
    simp only [decide_eq_true_eq] at this ⊢
    omega
  · have hin : z.minHoleSize * z.minHoleCount ≤
        (pts.length : Int) - (toMaxConvexHull pts).length := by
      have := hpts.2
      unfold hasValidInnerPointCount at this
      rw [Bool.and_eq_true] at this
      simpa using this.2
    unfold pointsToPolygonStrategy
    dsimp only
    rw [e1]
    refine ((Within.integers_both (max_le_max h1 le_rfl) (minOpt_mono (by omega) _)).prod
      (Within.prod (toHoleSizes_lower h hin (by omega)) rfl')).mapE _
  · unfold polygonHasValidSizes at hv ⊢
    rw [Bool.and_eq_true] at hv ⊢
    rw [e1, e2, e3]
    exact ⟨hasValidSize_lower h1 hv.1, valid_sizes_lower h2 h3 hv.2⟩

theorem slabPolygon_lower {env : Env K} {a : Bool} {coords : List K} {other : Strategy K}
    {z z' : PolygonSizes} (hz : LowerSizes z z') :
    Within (slabPolygon env a coords other z) (slabPolygon env a coords other z') := by
  unfold slabPolygon
  split
  · exact polygon_lower hz
  · exact polygon_lower hz

theorem slabLoop_lower {env : Env K} {a : Bool} {coords : List K} {other : Strategy K}
    {z z' : PolygonSizes} (hz : LowerSizes z z') {mp mp' : Int} (hm : mp' ≤ mp) (n : ℕ)
    (start : Int) :
    Within (slabLoop env a coords other z mp n start) (slabLoop env a coords other z' mp' n start) := by
  induction n generalizing start with
  | zero => exact (slabPolygon_lower hz).map _
  | succ n ih =>
    exact bindM (Within.integers_both hm le_rfl) fun _ _ => bindM rfl' fun _ _ =>
      bindM (slabPolygon_lower hz) fun _ _ => bindM rfl' fun _ _ => bindM (ih _) fun _ _ => rfl'

theorem multipolygon_lower {env : Env K} {lo lo' : Int} (h1 : 1 ≤ lo') (hlo : lo' ≤ lo)
    {hi : Option Int} (hb : ∀ m, hi = some m → lo ≤ m) {z z' : PolygonSizes} (hz : LowerSizes z z')
    (hr : z.minHoleCount = 0 → PrimeRoom (lo * z.minSize) (optMul hi z.maxSize))
    {s s' : Strategy (List (Polygon K))} (hs : toMultipolygonStrategy env x y lo hi z = .ok s)
    (hs' : toMultipolygonStrategy env x y lo' hi z' = .ok s') : Within s s' := by
  have hcnt := hz.maxPointCount
  have hp := hz.product
  have hz' := hz
  obtain ⟨g1, g2, g3, e1, e2, e3, g4, g5, g6, g7, hroom⟩ := hz'
  simp only [toMultipolygonStrategy, exc_bind_ok] at hs hs'
  rw [mul_comm] at hs hs'
  obtain ⟨mp, hmp, hs⟩ := hs
  obtain ⟨mp', hmp', hs'⟩ := hs'
  have hmm : mp' ≤ mp := toNextPrime_mono (by omega) (by omega) hmp' hmp
  obtain ⟨p, ep, -, -, k3, -, k5⟩ := toNextPrime_spec (z.minSize + z.minHoleSize * z.minHoleCount)
    (by omega)
  obtain ⟨p', ep', -, -, k3', -, -⟩ := toNextPrime_spec
    (z'.minSize + z'.minHoleSize * z'.minHoleCount) (by omega)
  have hpe : mp = p := by rw [ep] at hmp; cases hmp; rfl
  have hpe' : mp' = p' := by rw [ep'] at hmp'; cases hmp'; rfl
  have htl : lo' * mp' ≤ lo * mp := mul_le_mul hlo hmm (by omega) (by omega)
  have htot : multipolygonMaxTotal hi z' (lo' * mp') = multipolygonMaxTotal hi z (lo * mp) := by
    unfold multipolygonMaxTotal
    rw [hcnt]
    cases hi with
    | none => rfl
    | some m =>
      cases hc : z.maxPointCount with
      | none => rfl
      | some c =>
        obtain ⟨q, q1, q2, q3, q4⟩ := hroom c hc
        have hpc : mp ≤ c := by have := k5 q q1 q3 q2; omega
        have : lo * mp ≤ m * c := mul_le_mul (hb m rfl) hpc (by omega)
          (by have := hb m rfl; omega)
        simp only [Option.some.injEq]
        omega
  have slabs : ∀ (a : Bool) (u v : Strategy K),
      Within ((uniqueLists u (lo * mp) (multipolygonMaxTotal hi z (lo * mp))).bind
          (coordsToPolygons env a v z mp lo hi))
        ((uniqueLists u (lo' * mp') (multipolygonMaxTotal hi z' (lo' * mp'))).bind
          (coordsToPolygons env a v z' mp' lo' hi)) := by
    intro a u v
    rw [htot]
    refine (Within.uniqueLists_lower u htl .rfl').bind fun l _ => ?_
    exact bindM (Within.integers_both hlo (minOpt_mono (ediv_anti (Int.natCast_nonneg _) (by omega)
      hmm) _)) fun _ _ => slabLoop_lower hz hmm _ _
  split at hs
  · rename_i h
    rw [if_pos (show z'.minHoleCount = 0 by omega)] at hs'
    simp only [exc_pure_ok] at hs hs'
    subst hs hs'
    rw [e1]
    exact ((multicontour_lower h1 hlo g4 g1 (hr h)).map _).or ((slabs true _ _).or (slabs false _ _))
  · simp only [exc_pure_ok] at hs
    subst hs
    split at hs'
    · simp only [exc_pure_ok] at hs'
      subst hs'
      exact ((slabs true _ _).or (slabs false _ _)).inr _
    · simp only [exc_pure_ok] at hs'
      subst hs'
      exact (slabs true _ _).or (slabs false _ _)

/-! ### Mixes -/

theorem replicateDraw_within {α : Type} {s t : Strategy α} (h : Within s t) (n : ℕ) :
    Within (replicateDraw s n) (replicateDraw t n) := by
  induction n with
  | zero => exact rfl'
  | succ n ih => exact bindM h fun _ _ => bindM ih fun _ _ => rfl'

/-- Bounds of mixes with lower lower bounds. -/
structure Spec.LowerMix (z z' : MixSizes) : Prop where
  minPoints : z'.minPoints ≤ z.minPoints
  minSegments : z'.minSegments ≤ z.minSegments
  minPolygons : z'.minPolygons ≤ z.minPolygons
  maxPoints : z'.maxPoints = z.maxPoints
  maxSegments : z'.maxSegments = z.maxSegments
  maxPolygons : z'.maxPolygons = z.maxPolygons
  polygons_nonneg : 0 ≤ z'.minPolygons
  polygon : LowerSizes z.polygon z'.polygon

theorem mem_rangeStep2_iff {a b n : Int} : n ∈ rangeStep2 a b ↔ a ≤ n ∧ n < b ∧ 2 ∣ n - a := by
  unfold rangeStep2
  simp only [List.mem_map, List.mem_range]
  constructor
  · rintro ⟨i, hi, rfl⟩
    exact ⟨by omega, by omega, ⟨i, by ring⟩⟩
  · rintro ⟨h1, h2, k, hk⟩
    exact ⟨k.toNat, by omega, by omega⟩

theorem toPointCounts_lower {z z' : MixSizes} (hz : LowerMix z z') {mp mp' total : Int}
    (h5 : 5 ≤ mp') (hm : mp' ≤ mp)
    (ht : z.minPoints + 2 * z.minSegments + z.minPolygons * mp ≤ total) :
    Within (toPointCounts z mp total) (toPointCounts z' mp' total) := by
  obtain ⟨h1, h2, h3, e1, e2, e3, h4, -⟩ := hz
  have hnn : 0 ≤ z.minPolygons * mp := mul_nonneg (by omega) (by omega)
  have hdiv : (total - z.minPoints - 2 * z.minSegments) / mp ≤
      (total - z'.minPoints - 2 * z'.minSegments) / mp' :=
    (ediv_anti (by omega) (by omega) hm).trans (Int.ediv_le_ediv (by omega) (by omega))
  unfold toPointCounts
  dsimp only
  rw [e1, e2, e3]
  refine bindM (Within.integers_both h3 (minOpt_mono hdiv _)) fun n hn => ?_
  have hn0 : 0 ≤ n := by have := hn.1; omega
  have rest : ∀ cs : List Int, Within
      (sampledFrom (rangeStep2 (2 * z.minSegments)
        (minOpt (total - cs.sum - z.minPoints) (z.maxSegments.map (2 * ·)) + 1)))
      (sampledFrom (rangeStep2 (2 * z'.minSegments)
        (minOpt (total - cs.sum - z'.minPoints) (z.maxSegments.map (2 * ·)) + 1))) := by
    intro cs k hk
    have hmo := minOpt_mono (show total - cs.sum - z.minPoints ≤ total - cs.sum - z'.minPoints by
      omega) (z.maxSegments.map (2 * ·))
    rw [val_sampledFrom, mem_rangeStep2_iff] at hk ⊢
    omega
  by_cases h0 : n = 0
  · simp only [h0, ne_eq, not_true_eq_false, if_false]
    exact bindM rfl' fun _ _ => bindM rfl' fun cs _ => bindM (rest cs) fun _ _ => rfl'
  · simp only [h0, ne_eq, not_false_eq_true, if_true]
    rintro v ⟨q, hq, hv⟩
    have hle : (total - z.minPoints - 2 * z.minSegments) / n ≤
        (total - z'.minPoints - 2 * z'.minSegments) / n := Int.ediv_le_ediv (by omega) (by omega)
    have h5' : 5 ≤ (total - z.minPoints - 2 * z.minSegments) / n := by
      have hup : n ≤ (total - z.minPoints - 2 * z.minSegments) / mp := hn.2.trans (minOpt_le _)
      rw [Int.le_ediv_iff_mul_le (by omega)] at hup ⊢
      nlinarith
    obtain ⟨q', eq', -⟩ := toPriorPrime_spec _ (h5'.trans hle)
    have hqq : q ≤ q' := toPriorPrime_mono h5' hle ((val_ofExcept _ _).1 hq) eq'
    refine ⟨q', (val_ofExcept _ _).2 eq', ?_⟩
    exact bindM (replicateDraw_within (Within.integers_both hm hqq) _) (fun cs _ => bindM (rest cs) fun _ _ => rfl') v hv

theorem runDrawer_lower {env : Env K} {a : Bool} {coords : List K} {other : Strategy K}
    {z z' : PolygonSizes} (hz : LowerSizes z z') (d : Drawer) (n : Int) (s : MixState K) :
    Within (runDrawer env a coords other z d n s) (runDrawer env a coords other z' d n s) := by
  cases d with
  | points => exact rfl'
  | segments => exact rfl'
  | polygon => exact bindM rfl' fun _ _ => bindM (slabPolygon_lower hz) fun _ _ => rfl'

theorem mixLoop_lower {env : Env K} {a : Bool} {other : Strategy K} {z z' : PolygonSizes}
    (hz : LowerSizes z z') (ds : List (Drawer × Int)) (coords : List K) (s : MixState K) :
    Within (mixLoop env a other z ds coords s) (mixLoop env a other z' ds coords s) := by
  induction ds generalizing coords s with
  | nil => exact rfl'
  | cons d ds ih =>
    exact bindM (runDrawer_lower hz _ _ _) fun _ _ => bindM rfl' fun _ _ => ih _ _

theorem mix_lower {env : Env K} {z z' : MixSizes} (hz : LowerMix z z') {s s' : Strategy (Mix K)}
    (hs : toMixStrategy env x y z = .ok s) (hs' : toMixStrategy env x y z' = .ok s') :
    Within s s' := by
  have hp := hz.polygon.product
  obtain ⟨h1, h2, h3, e1, e2, e3, h4, hpoly⟩ := id hz
  obtain ⟨g1, g2, g3, -, -, -, g4, g5, g6, -, -⟩ := id hpoly
  simp only [toMixStrategy, exc_bind_ok, exc_pure_ok] at hs hs'
  rw [mul_comm] at hs hs'
  obtain ⟨mp, hmp, rfl⟩ := hs
  obtain ⟨mp', hmp', rfl⟩ := hs'
  have hmm : mp' ≤ mp := toNextPrime_mono (by omega) (by omega) hmp' hmp
  obtain ⟨p', ep', -, -, k3', -, -⟩ := toNextPrime_spec
    (z'.polygon.minSize + z'.polygon.minHoleSize * z'.polygon.minHoleCount) (by omega)
  have hpe' : mp' = p' := by rw [ep'] at hmp'; cases hmp'; rfl
  have htl : z'.minPoints + 2 * z'.minSegments + z'.minPolygons * mp' ≤
      z.minPoints + 2 * z.minSegments + z.minPolygons * mp := by
    have := mul_le_mul h3 hmm (by omega) (h4.trans h3)
    omega
  have key : ∀ (a : Bool) (u v : Strategy K),
      Within ((uniqueLists u (z.minPoints + 2 * z.minSegments + z.minPolygons * mp) none).bind
          (coordsToMix env a v z mp))
        ((uniqueLists u (z'.minPoints + 2 * z'.minSegments + z'.minPolygons * mp') none).bind
          (coordsToMix env a v z' mp')) := by
    intro a u v
    refine (Within.uniqueLists_lower u htl .rfl').bind fun l hl => ?_
    exact bindM (toPointCounts_lower hz (by omega) hmm hl.2.2.1) fun _ _ => bindM rfl' fun _ _ =>
      bindM (mixLoop_lower hpoly _ _ _) fun _ _ => rfl'
  exact (key true _ _).or (key false _ _)

theorem unionMixes_lower {env : Env K} {l l' : List MixSizes} (hl : List.Forall₂ LowerMix l l')
    {s s' : Strategy (Mix K)} (hs : unionMixes env x y l = .ok s)
    (hs' : unionMixes env x y l' = .ok s') : Within s s' := by
  induction hl generalizing s s' with
  | nil =>
    simp only [unionMixes, exc_pure_ok] at hs hs'
    subst hs hs'
    exact rfl'
  | @cons z z' m m' hz hm ih =>
    cases hm with
    | nil => exact mix_lower hz hs hs'
    | cons hz2 hm2 =>
      simp only [unionMixes, exc_bind_ok, exc_pure_ok] at hs hs'
      obtain ⟨s1, h1, s2, h2, rfl⟩ := hs
      obtain ⟨t1, k1, t2, k2, rfl⟩ := hs'
      exact (mix_lower hz h1 k1).or (ih h2 k2)

end
end HG
