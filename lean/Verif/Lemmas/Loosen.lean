import Verif.Model.Planar
import Verif.Lemmas.Strategy
import Verif.Lemmas.Except
import Mathlib.Algebra.Order.Ring.Int

/-!
# Inclusion of strategies

Enlarging the strategies of the coordinates or relaxing the upper bounds enlarges the set of values
of every strategy.
-/

set_option linter.unusedSectionVars false

namespace HG

open Strategy

/-- Every value of one strategy is a value of the other. -/
def Strategy.Within {α : Type} (s t : Strategy α) : Prop := ∀ a, s.val a → t.val a

/-- An upper bound is not stricter than another one. -/
def Spec.Looser (hi hi' : Option Int) : Prop := ∀ m', hi' = some m' → ∃ m, hi = some m ∧ m ≤ m'

open Spec

namespace Strategy.Within

variable {α β : Type}

theorem rfl' {s : Strategy α} : Within s s := fun _ h => h

theorem trans {s t u : Strategy α} (h : Within s t) (h' : Within t u) : Within s u :=
  fun a ha => h' a (h a ha)

theorem bind {s s' : Strategy α} {f f' : α → Strategy β} (h : Within s s')
    (hf : ∀ a, s.val a → Within (f a) (f' a)) : Within (s.bind f) (s'.bind f') := by
  rintro b ⟨a, ha, hb⟩
  exact ⟨a, h a ha, hf a ha b hb⟩

theorem bindM {s s' : Strategy α} {f f' : α → Strategy β} (h : Within s s')
    (hf : ∀ a, s.val a → Within (f a) (f' a)) : Within (s >>= f) (s' >>= f') := bind h hf

theorem map {s s' : Strategy α} (h : Within s s') (f : α → β) : Within (s.map f) (s'.map f) := by
  rintro b ⟨a, ha, rfl⟩
  exact ⟨a, h a ha, rfl⟩

theorem mapE {s s' : Strategy α} (h : Within s s') (f : α → Except Exc β) :
    Within (s.mapE f) (s'.mapE f) := bind h fun _ _ => rfl'

theorem filter {s s' : Strategy α} (h : Within s s') {p p' : α → Bool}
    (hp : ∀ a, p a = true → p' a = true) : Within (s.filter p) (s'.filter p') :=
  fun a ha => ⟨h a ha.1, hp a ha.2⟩

theorem filterE {s s' : Strategy α} (h : Within s s') (p : α → Except Exc Bool) :
    Within (s.filterE p) (s'.filterE p) := fun a ha => ⟨h a ha.1, ha.2⟩

theorem or {s s' t t' : Strategy α} (h : Within s s') (h' : Within t t') :
    Within (s ||| t) (s' ||| t') := fun a ha => ha.imp (h a) (h' a)

theorem inl {s s' : Strategy α} (h : Within s s') (t' : Strategy α) : Within s (s' ||| t') :=
  fun a ha => .inl (h a ha)

theorem inr {t t' : Strategy α} (h : Within t t') (s' : Strategy α) : Within t (s' ||| t') :=
  fun a ha => .inr (h a ha)

theorem prod {s s' : Strategy α} {t t' : Strategy β} (h : Within s s') (h' : Within t t') :
    Within (Strategy.prod s t) (Strategy.prod s' t') := fun _ hp => ⟨h _ hp.1, h' _ hp.2⟩

theorem integers (lo : Int) {hi hi' : Int} (h : hi ≤ hi') :
    Within (Strategy.integers lo hi) (Strategy.integers lo hi') := fun _ ha => ⟨ha.1, ha.2.trans h⟩

end Strategy.Within

open Strategy.Within

namespace Spec.Looser

theorem rfl' {hi : Option Int} : Looser hi hi := fun m h => ⟨m, h, le_rfl⟩

theorem leOpt {hi hi' : Option Int} (h : Looser hi hi') {n : Int} (hn : leOpt n hi) :
    Strategy.leOpt n hi' := by
  cases hi' with
  | none => trivial
  | some m' =>
    obtain ⟨m, rfl, hm⟩ := h m' rfl
    exact le_trans hn hm

theorem minOpt {hi hi' : Option Int} (h : Looser hi hi') {b b' : Int} (hb : b ≤ b') :
    HG.minOpt b hi ≤ HG.minOpt b' hi' := by
  cases hi' with
  | none => cases hi <;> simp only [HG.minOpt] <;> omega
  | some m' =>
    obtain ⟨m, rfl, hm⟩ := h m' rfl
    simp only [HG.minOpt]
    omega

theorem maxOpt {hi hi' : Option Int} (h : Looser hi hi') (b : Int) :
    Looser (HG.maxOpt b hi) (HG.maxOpt b hi') := by
  intro k hk
  cases hi' with
  | none => cases hk
  | some m' =>
    obtain ⟨m, rfl, hm⟩ := h m' rfl
    simp only [HG.maxOpt, Option.some.injEq] at hk ⊢
    exact ⟨_, rfl, by omega⟩

theorem add {hi hi' : Option Int} (h : Looser hi hi') (k : Int) :
    Looser (hi.map (· + k)) (hi'.map (· + k)) := by
  intro n hn
  cases hi' with
  | none => cases hn
  | some m' =>
    obtain ⟨m, rfl, hm⟩ := h m' rfl
    simp only [Option.map_some, Option.some.injEq] at hn ⊢
    exact ⟨_, rfl, by omega⟩

theorem optMul {hi hi' ci ci' : Option Int} (h : Looser hi hi') (hc : Looser ci ci')
    (h0 : ∀ m, hi = some m → 0 ≤ m) (h1 : ∀ m, ci = some m → 0 ≤ m) :
    Looser (HG.optMul hi ci) (HG.optMul hi' ci') := by
  intro n hn
  cases hi' with
  | none => cases ci' <;> cases hn
  | some m' =>
    cases ci' with
    | none => cases hn
    | some c' =>
      obtain ⟨m, rfl, hm⟩ := h m' rfl
      obtain ⟨c, rfl, hcc⟩ := hc c' rfl
      simp only [HG.optMul, Option.some.injEq] at hn ⊢
      refine ⟨_, rfl, ?_⟩
      have := mul_le_mul hm hcc (h1 c rfl) ((h0 m rfl).trans hm)
      omega

theorem size {lo : Int} {hi hi' : Option Int} (h : Looser hi hi') {n : ℕ}
    (hv : hasValidSize lo hi n = true) : hasValidSize lo hi' n = true := by
  unfold hasValidSize at hv ⊢
  rw [Bool.and_eq_true] at hv ⊢
  refine ⟨hv.1, ?_⟩
  cases hi' with
  | none => rfl
  | some m' =>
    obtain ⟨m, rfl, hm⟩ := h m' rfl
    have := hv.2
    simp only [decide_eq_true_eq] at this ⊢
    omega

end Spec.Looser

theorem Strategy.Within.uniqueLists {α : Type} {s s' : Strategy α} (h : Within s s') (lo : Int)
    {hi hi' : Option Int} (hh : Looser hi hi') :
    Within (uniqueLists s lo hi) (uniqueLists s' lo hi') :=
  fun _ hl => ⟨fun a ha => h a (hl.1 a ha), hl.2.1, hl.2.2.1, hh.leOpt hl.2.2.2⟩

theorem Strategy.Within.lists {α : Type} {s s' : Strategy α} (h : Within s s') (lo : Int)
    {hi hi' : Option Int} (hh : Looser hi hi') : Within (lists s lo hi) (lists s' lo hi') :=
  fun _ hl => ⟨fun a ha => h a (hl.1 a ha), hl.2.1, hh.leOpt hl.2.2⟩

section

variable {K : Type} [LinearOrder K] [Zero K] [Add K] [_root_.Sub K] [Predicates K]

variable {x x' : Strategy K} {y y' : Option (Strategy K)}

theorem point_within (hx : Within x x') (hy : Within (yOr x y) (yOr x' y')) :
    Within (toPointStrategy x y) (toPointStrategy x' y') := (hx.prod hy).map _

theorem box_within (hx : Within x x') (hy : Within (yOr x y) (yOr x' y')) :
    Within (toBoxStrategy x y) (toBoxStrategy x' y') :=
  (((hx.uniqueLists 2 .rfl').mapE _).prod ((hy.uniqueLists 2 .rfl').mapE _)).map _

theorem segment_within (hx : Within x x') (hy : Within (yOr x y) (yOr x' y')) :
    Within (toSegmentStrategy x y) (toSegmentStrategy x' y') :=
  (((point_within hx hy).prod (point_within hx hy)).filter fun _ h => h).map _

theorem triangular_within (hx : Within x x') (hy : Within (yOr x y) (yOr x' y')) :
    Within (toTriangularStrategy x y) (toTriangularStrategy x' y') :=
  (((point_within hx hy).prod ((point_within hx hy).prod (point_within hx hy))).filter
    fun _ h => h).map _

theorem generalPosition_within (hx : Within x x') (hy : Within (yOr x y) (yOr x' y')) (lo : Int)
    {hi hi' : Option Int} (hh : Looser hi hi') :
    Within (toGeneralPositionStrategy x y lo hi) (toGeneralPositionStrategy x' y' lo hi') := by
  unfold toGeneralPositionStrategy
  exact bindM rfl' fun l _ => bindM ((hx.uniqueLists l (hh.maxOpt l)).prod
    (hy.uniqueLists l (hh.maxOpt l))) fun _ _ => rfl'

/-- The choice between the strategies of `to_convex_vertex_sequence_strategy`. -/
def convexPick (lo : Int) (hi : Option Int) (tri rect big : Strategy (List (Point K))) :
    Strategy (List (Point K)) :=
  let withRect := if lo ≤ 4 then rect ||| big else big
  let withTri := if lo = 3 then tri ||| withRect else withRect
  match hi with
  | some m => if m < 4 then tri else withTri
  | none => withTri

theorem convexPick_within {lo : Int} {hi hi' : Option Int} (hh : Looser hi hi')
    (h3 : hi = hi' ∨ (3 ≤ lo ∧ ∀ m, hi = some m → lo ≤ m))
    {tri rect big tri' rect' big' : Strategy (List (Point K))} (ht : Within tri tri')
    (hr : Within rect rect') (hb : Within big big') :
    Within (convexPick lo hi tri rect big) (convexPick lo hi' tri' rect' big') := by
  have r : Within (if lo ≤ 4 then rect ||| big else big)
      (if lo ≤ 4 then rect' ||| big' else big') := by
    split
    · exact hr.or hb
    · exact hb
  have all : Within (if lo = 3 then tri ||| (if lo ≤ 4 then rect ||| big else big)
        else (if lo ≤ 4 then rect ||| big else big))
      (if lo = 3 then tri' ||| (if lo ≤ 4 then rect' ||| big' else big')
        else (if lo ≤ 4 then rect' ||| big' else big')) := by
    by_cases h3 : lo = 3
    · rw [if_pos h3, if_pos h3]
      exact ht.or r
    · rw [if_neg h3, if_neg h3]
      exact r
  unfold convexPick
  dsimp only
  cases hi' with
  | none =>
    cases hi with
    | none => exact all
    | some m =>
      dsimp only
      split
      · have hlo : lo = 3 := by
          rcases h3 with h | ⟨h, h'⟩
          · cases h
          · have := h' m rfl
            omega
        rw [if_pos hlo]
        exact ht.inl _
      · exact all
  | some m' =>
    obtain ⟨m, rfl, hm⟩ := hh m' rfl
    dsimp only
    by_cases h4 : m' < 4
    · rw [if_pos h4, if_pos (show m < 4 by omega)]
      exact ht
    · rw [if_neg h4]
      split
      · have hlo : lo = 3 := by
          rcases h3 with h | ⟨h, h'⟩
          · simp only [Option.some.injEq] at h; omega
          · have := h' m rfl
            omega
        rw [if_pos hlo]
        exact ht.inl _
      · exact all

/-- The upper bound only has to be consistent if it changes. -/
theorem convex_within {env : Env K} (hx : Within x x') (hy : Within (yOr x y) (yOr x' y')) {lo : Int}
    {hi hi' : Option Int} (hh : Looser hi hi')
    (h3 : hi = hi' ∨ (3 ≤ lo ∧ ∀ m, hi = some m → lo ≤ m)) :
    Within (toConvexStrategy env x y lo hi) (toConvexStrategy env x' y' lo hi') :=
  convexPick_within hh h3 (triangular_within hx hy) ((box_within hx hy).map _)
    ((((generalPosition_within hx hy lo hh).prod rfl').mapE _).filter fun _ h => hh.size h)

theorem star_within {env : Env K} (hx : Within x x') (hy : Within (yOr x y) (yOr x' y')) (lo : Int)
    {hi hi' : Option Int} (hh : Looser hi hi') :
    Within (toStarStrategy env x y lo hi) (toStarStrategy env x' y' lo hi') :=
  ((generalPosition_within hx hy lo hh).map _).filter fun _ h => hh.size h

theorem vertexSequences_within {env : Env K} (hx : Within x x')
    (hy : Within (yOr x y) (yOr x' y')) (lo : Int) {hi hi' : Option Int} (hh : Looser hi hi') :
    Within (toVertexSequences env x y lo hi) (toVertexSequences env x' y' lo hi') :=
  (star_within hx hy lo hh).or ((((generalPosition_within hx hy lo hh).bind fun _ _ =>
    rfl'.prod (.integers lo (hh.minOpt le_rfl))).mapE _).filter fun _ h => hh.size h)

theorem concave_within {env : Env K} (hx : Within x x')
    (hy : Within (yOr x y) (yOr x' y')) (lo : Int) {hi hi' : Option Int} (hh : Looser hi hi') :
    Within (toConcaveStrategy env x y lo hi) (toConcaveStrategy env x' y' lo hi') :=
  (vertexSequences_within hx hy lo hh).filterE _

theorem vertexSequence_within {env : Env K} (hx : Within x x')
    (hy : Within (yOr x y) (yOr x' y')) {lo : Int} {hi hi' : Option Int} (hh : Looser hi hi')
    (h3 : hi = hi' ∨ (3 ≤ lo ∧ ∀ m, hi = some m → lo ≤ m)) :
    Within (toVertexSequenceStrategy env x y lo hi) (toVertexSequenceStrategy env x' y' lo hi') :=
  (convex_within hx hy hh h3).or (vertexSequences_within hx hy lo hh)

theorem segmentSequence_within {env : Env K} (hx : Within x x')
    (hy : Within (yOr x y) (yOr x' y')) {lo : Int} {hi hi' : Option Int} (hh : Looser hi hi')
    (h2 : hi = hi' ∨ (2 ≤ lo ∧ ∀ m, hi = some m → lo ≤ m)) :
    Within (toSegmentSequenceStrategy env x y lo hi) (toSegmentSequenceStrategy env x' y' lo hi') := by
  have hy' : Within (yOr x (some (yOr x y))) (yOr x' (some (yOr x' y'))) := hy
  have a1 := (hx.prod (hy.uniqueLists (lo + 1) (hh.add 1))).map
    fun p => verticalMultisegment p.1 p.2
  have a2 := ((hx.uniqueLists (lo + 1) (hh.add 1)).prod hy).map
    fun p => horizontalMultisegment p.1 p.2
  have a4 := ((segment_within hx hy').lists lo hh).filter
    (p := fun ss => !env.segmentsCrossOrOverlap ss) fun _ h => h
  have a3 : (hi = hi' ∨ ∀ m, hi = some m → 3 ≤ m) →
      Within (((toVertexSequenceStrategy env x (some (yOr x y)) (max lo 3) hi).map
        contourEdges).bind (toSubSequenceStrategy lo))
      (((toVertexSequenceStrategy env x' (some (yOr x' y')) (max lo 3) hi').map
        contourEdges).bind (toSubSequenceStrategy lo)) := by
    intro h
    refine ((vertexSequence_within hx hy' hh ?_).map _).bind fun _ _ => rfl'
    rcases h2 with h2 | ⟨h2, h2'⟩
    · exact .inl h2
    rcases h with h | h
    · exact .inl h
    exact .inr ⟨le_max_right _ _, fun m hm => max_le (h2' m hm) (h m hm)⟩
  unfold toSegmentSequenceStrategy
  dsimp only
  cases hi' with
  | none =>
    cases hi with
    | none => exact ((a1.or a2).or (a3 (.inl rfl))).or a4
    | some m =>
      have hm : 2 ≤ m := by
        rcases h2 with h | ⟨h, h'⟩
        · cases h
        · have := h' m rfl
          omega
      dsimp only
      rw [if_neg (by omega)]
      split
      · exact ((a1.or a2).or (a3 (.inr fun k hk => by cases hk; assumption))).or a4
      · exact ((a1.or a2).inl _).or a4
  | some m' =>
    obtain ⟨m, rfl, hm⟩ := hh m' rfl
    dsimp only
    rcases h2 with h | ⟨h, h'⟩
    · simp only [Option.some.injEq] at h
      subst h
      split
      · split
        · exact (segment_within hx hy').map _
        · exact rfl'
      · split
        · exact ((a1.or a2).or (a3 (.inl rfl))).or a4
        · exact (a1.or a2).or a4
    · have := h' m rfl
      rw [if_neg (show ¬ m < 2 by omega), if_neg (show ¬ m' < 2 by omega)]
      by_cases h3 : 3 ≤ m
      · rw [if_pos h3, if_pos (h3.trans hm)]
        exact ((a1.or a2).or (a3 (.inr fun k hk => by cases hk; exact h3))).or a4
      · rw [if_neg h3]
        split
        · exact ((a1.or a2).inl _).or a4
        · exact (a1.or a2).or a4

theorem valid_sizes_looser {lo clo : Int} {hi hi' chi chi' : Option Int} (hh : Looser hi hi')
    (hc : Looser chi chi') {cs : List (Contour K)}
    (h : multicontourHasValidSizes lo hi clo chi cs = true) :
    multicontourHasValidSizes lo hi' clo chi' cs = true := by
  unfold multicontourHasValidSizes at h ⊢
  rw [Bool.and_eq_true, List.all_eq_true] at h ⊢
  exact ⟨hh.size h.1, fun c hcs => hc.size (h.2 c hcs)⟩

theorem multicontour_within {env : Env K} (hx : Within x x')
    (hy : Within (yOr x y) (yOr x' y')) {lo clo : Int} {hi hi' chi chi' : Option Int}
    (hh : Looser hi hi') (hc : Looser chi chi') (h0 : ∀ m, hi = some m → 0 ≤ m)
    (h1 : ∀ m, chi = some m → 0 ≤ m) :
    Within (toMulticontourStrategy env x y lo hi clo chi)
      (toMulticontourStrategy env x' y' lo hi' clo chi') :=
  ((generalPosition_within hx hy _ (hh.optMul hc h0 h1)).bind fun _ _ =>
    (((Within.integers lo (hh.minOpt le_rfl)).bind fun _ _ => rfl').prod rfl').mapE _).filter
    fun _ h => valid_sizes_looser hh hc h

/-- Bounds of polygons with looser upper bounds. -/
structure Spec.LooserSizes (z z' : PolygonSizes) : Prop where
  minSize : z.minSize = z'.minSize
  minHoleCount : z.minHoleCount = z'.minHoleCount
  minHoleSize : z.minHoleSize = z'.minHoleSize
  maxSize : Looser z.maxSize z'.maxSize
  maxHoleCount : Looser z.maxHoleCount z'.maxHoleCount
  maxHoleSize : Looser z.maxHoleSize z'.maxHoleSize
  count_nonneg : ∀ m, z.maxHoleCount = some m → 0 ≤ m
  size_nonneg : ∀ m, z.maxHoleSize = some m → 0 ≤ m

theorem Spec.LooserSizes.maxPointCount {z z' : PolygonSizes} (h : LooserSizes z z') :
    Looser z.maxPointCount z'.maxPointCount := by
  obtain ⟨-, -, -, h1, h2, h3, h4, h5⟩ := h
  intro k hk
  unfold PolygonSizes.maxPointCount at hk ⊢
  split at hk
  · rename_i a' b' c' ha hb hc
    obtain ⟨a, e1, l1⟩ := h1 a' ha
    obtain ⟨b, e2, l2⟩ := h2 b' hb
    obtain ⟨c, e3, l3⟩ := h3 c' hc
    rw [e1, e2, e3]
    simp only [Option.some.injEq] at hk ⊢
    refine ⟨_, rfl, ?_⟩
    have := mul_le_mul l3 l2 (h4 b e2) ((h5 c e3).trans l3)
    omega
  · cases hk

theorem polygon_within {env : Env K} (hx : Within x x')
    (hy : Within (yOr x y) (yOr x' y')) {z z' : PolygonSizes} (hz : LooserSizes z z') :
    Within (toPolygonStrategy env x y z) (toPolygonStrategy env x' y' z') := by
  have hcnt := hz.maxPointCount
  obtain ⟨e1, e2, e3, l1, l2, l3, -, -⟩ := hz
  unfold toPolygonStrategy
  rw [← e1, ← e2, ← e3]
  refine (((generalPosition_within hx hy _ hcnt).filter fun pts h => ?_).bind
    fun pts _ => ?_).filter fun p h => ?_
  · unfold hasValidInnerPointCount at h ⊢
    rw [Bool.and_eq_true] at h ⊢
    rw [← e2, ← e3]
    refine ⟨?_, h.2⟩
    cases hm' : z'.maxSize with
    | none => rfl
    | some m' =>
      obtain ⟨m, hm, hle⟩ := l1 m' hm'
      have := h.1
      rw [hm] at this
      simp only [decide_eq_true_eq] at this ⊢
      omega
  · unfold pointsToPolygonStrategy
    dsimp only
    rw [← e1, ← e2, ← e3]
    refine ((Within.integers _ (l1.minOpt le_rfl)).prod (Within.prod ?_ rfl')).mapE _
    unfold toHoleSizes
    dsimp only
    rw [← e2, ← e3]
    split
    · exact (Within.integers _ (l2.minOpt le_rfl)).bind fun _ _ => rfl'
    · exact rfl'
  · unfold polygonHasValidSizes at h ⊢
    rw [Bool.and_eq_true] at h ⊢
    rw [← e1, ← e2, ← e3]
    exact ⟨l1.size h.1, valid_sizes_looser l2 l3 h.2⟩

theorem slabPolygon_within {env : Env K} {a : Bool} {coords : List K} {other other' : Strategy K}
    (ho : Within other other') {z z' : PolygonSizes} (hz : LooserSizes z z') :
    Within (slabPolygon env a coords other z) (slabPolygon env a coords other' z') := by
  unfold slabPolygon
  split
  · exact polygon_within rfl' (y := some other) (y' := some other') ho hz
  · exact polygon_within ho (y := some (sampledFrom coords)) (y' := some (sampledFrom coords)) rfl' hz

theorem slabLoop_within {env : Env K} {a : Bool} {coords : List K} {other other' : Strategy K}
    (ho : Within other other') {z z' : PolygonSizes} (hz : LooserSizes z z') (mp : Int) (n : ℕ)
    (start : Int) :
    Within (slabLoop env a coords other z mp n start) (slabLoop env a coords other' z' mp n start) := by
  induction n generalizing start with
  | zero => exact (slabPolygon_within ho hz).map _
  | succ n ih =>
    exact bindM rfl' fun _ _ => bindM rfl' fun _ _ => bindM (slabPolygon_within ho hz) fun _ _ =>
      bindM rfl' fun _ _ => bindM (ih _) fun _ _ => rfl'

theorem multipolygon_within {env : Env K} (hx : Within x x')
    (hy : Within (yOr x y) (yOr x' y')) {lo : Int} {hi hi' : Option Int} (hh : Looser hi hi')
    {z z' : PolygonSizes} (hz : LooserSizes z z') (h0 : ∀ m, hi = some m → 0 ≤ m)
    (h1 : ∀ m, z.maxSize = some m → 0 ≤ m) {s s' : Strategy (List (Polygon K))}
    (hs : toMultipolygonStrategy env x y lo hi z = .ok s)
    (hs' : toMultipolygonStrategy env x' y' lo hi' z' = .ok s') : Within s s' := by
  have hcnt := hz.maxPointCount
  have hz' := hz
  obtain ⟨e1, e2, e3, l1, l2, l3, l4, l5⟩ := hz'
  simp only [toMultipolygonStrategy, exc_bind_ok] at hs hs'
  rw [← e1, ← e2, ← e3] at hs'
  obtain ⟨mp, hmp, hs⟩ := hs
  obtain ⟨mp', hmp', hs'⟩ := hs'
  rw [hmp] at hmp'
  cases hmp'
  have htot : Looser (multipolygonMaxTotal hi z (lo * mp)) (multipolygonMaxTotal hi' z' (lo * mp)) := by
    intro k hk
    unfold multipolygonMaxTotal at hk ⊢
    split at hk
    · rename_i m' c' hc'
      obtain ⟨m, rfl, hm⟩ := hh m' rfl
      obtain ⟨c, hc, hcc⟩ := hcnt c' hc'
      rw [hc]
      simp only [Option.some.injEq] at hk ⊢
      refine ⟨_, rfl, ?_⟩
      have hc0 : 0 ≤ c := by
        unfold PolygonSizes.maxPointCount at hc
        split at hc
        · rename_i a b d ha hb hd
          simp only [Option.some.injEq] at hc
          have := mul_nonneg (l5 d hd) (l4 b hb)
          have := h1 a ha
          omega
        · cases hc
      have := mul_le_mul hm hcc hc0 ((h0 m rfl).trans hm)
      omega
    · cases hk
  have slabs : ∀ (a : Bool) {u u' v v' : Strategy K}, Within u u' → Within v v' →
      Within ((uniqueLists u (lo * mp) (multipolygonMaxTotal hi z (lo * mp))).bind
          (coordsToPolygons env a v z mp lo hi))
        ((uniqueLists u' (lo * mp) (multipolygonMaxTotal hi' z' (lo * mp))).bind
          (coordsToPolygons env a v' z' mp lo hi')) := by
    intro a u u' v v' hu hv
    refine (hu.uniqueLists _ htot).bind fun l _ => ?_
    exact bindM (Within.integers _ (hh.minOpt le_rfl)) fun _ _ => slabLoop_within hv hz _ _ _
  split at hs
  · rename_i h
    rw [if_pos h] at hs'
    simp only [exc_pure_ok] at hs hs'
    subst hs hs'
    exact ((multicontour_within hx (y := some (yOr x y)) (y' := some (yOr x' y')) hy hh l1 h0 h1).map
      _).or ((slabs true hx hy).or (slabs false hy hx))
  · rename_i h
    rw [if_neg h] at hs'
    simp only [exc_pure_ok] at hs hs'
    subst hs hs'
    exact (slabs true hx hy).or (slabs false hy hx)

theorem Spec.LooserSizes.rfl' {z : PolygonSizes} (h0 : ∀ m, z.maxHoleCount = some m → 0 ≤ m)
    (h1 : ∀ m, z.maxHoleSize = some m → 0 ≤ m) : LooserSizes z z :=
  ⟨rfl, rfl, rfl, .rfl', .rfl', .rfl', h0, h1⟩

theorem runDrawer_within {env : Env K} {a : Bool} {coords : List K} {other other' : Strategy K}
    (ho : Within other other') {z z' : PolygonSizes} (hz : LooserSizes z z') (d : Drawer) (n : Int)
    (s : MixState K) :
    Within (runDrawer env a coords other z d n s) (runDrawer env a coords other' z' d n s) := by
  cases d with
  | points =>
    refine bindM ?_ fun _ _ => rfl'
    split
    · exact (point_within (y := some other) (y' := some other') rfl' ho).uniqueLists _ .rfl'
    · exact (point_within (y := some (sampledFrom (coords.take n.toNat)))
        (y' := some (sampledFrom (coords.take n.toNat))) ho rfl').uniqueLists _ .rfl'
  | segments =>
    refine bindM ?_ fun _ _ => rfl'
    split
    · exact segmentSequence_within (y := some other) (y' := some other') rfl' ho .rfl' (.inl rfl)
    · exact segmentSequence_within (y := some (sampledFrom (coords.take n.toNat)))
        (y' := some (sampledFrom (coords.take n.toNat))) ho rfl' .rfl' (.inl rfl)
  | polygon => exact bindM rfl' fun _ _ => bindM (slabPolygon_within ho hz) fun _ _ => rfl'

theorem mixLoop_within {env : Env K} {a : Bool} {other other' : Strategy K}
    (ho : Within other other') {z z' : PolygonSizes} (hz : LooserSizes z z')
    (ds : List (Drawer × Int)) (coords : List K) (s : MixState K) :
    Within (mixLoop env a other z ds coords s) (mixLoop env a other' z' ds coords s) := by
  induction ds generalizing coords s with
  | nil => exact rfl'
  | cons d ds ih =>
    exact bindM (runDrawer_within ho hz _ _ _) fun _ _ => bindM rfl' fun _ _ => ih _ _

/-- Bounds of mixes with looser upper bounds on everything but the number of points. -/
structure Spec.LooserMix (z z' : MixSizes) : Prop where
  minPoints : z.minPoints = z'.minPoints
  maxPoints : z.maxPoints = z'.maxPoints
  minSegments : z.minSegments = z'.minSegments
  minPolygons : z.minPolygons = z'.minPolygons
  maxSegments : Looser z.maxSegments z'.maxSegments
  maxPolygons : Looser z.maxPolygons z'.maxPolygons
  polygon : LooserSizes z.polygon z'.polygon

theorem Spec.Looser.twice {hi hi' : Option Int} (h : Looser hi hi') :
    Looser (hi.map (2 * ·)) (hi'.map (2 * ·)) := by
  intro k hk
  rw [Option.map_eq_some_iff] at hk
  obtain ⟨m', hm', rfl⟩ := hk
  obtain ⟨m, rfl, hm⟩ := h m' hm'
  exact ⟨2 * m, rfl, by omega⟩

theorem rangeStep2_subset {lo hi hi' : Int} (h : hi ≤ hi') :
    ∀ v ∈ rangeStep2 lo hi, v ∈ rangeStep2 lo hi' := by
  intro v hv
  simp only [rangeStep2, List.mem_map, List.mem_range] at hv ⊢
  obtain ⟨i, hi, rfl⟩ := hv
  exact ⟨i, by omega, rfl⟩

theorem pointCounts_within {z z' : MixSizes} (hz : LooserMix z z') (mp total : Int) :
    Within (toPointCounts z mp total) (toPointCounts z' mp total) := by
  obtain ⟨e1, e2, e3, e4, l1, l2, -⟩ := hz
  unfold toPointCounts
  dsimp only
  rw [← e1, ← e2, ← e3, ← e4]
  refine bindM (Within.integers _ (l2.minOpt le_rfl)) fun _ _ => bindM rfl' fun _ _ =>
    bindM rfl' fun _ _ => bindM ?_ fun _ _ => rfl'
  intro v hv
  exact rangeStep2_subset (Int.add_le_add_right (l1.twice.minOpt le_rfl) 1) v hv

theorem mix_within {env : Env K} (hx : Within x x') (hy : Within (yOr x y) (yOr x' y'))
    {z z' : MixSizes} (hz : LooserMix z z') {s s' : Strategy (Mix K)}
    (hs : toMixStrategy env x y z = .ok s) (hs' : toMixStrategy env x' y' z' = .ok s') :
    Within s s' := by
  have hpc := pointCounts_within hz
  obtain ⟨e1, -, e3, e4, -, -, hp⟩ := hz
  simp only [toMixStrategy, exc_bind_ok, exc_pure_ok] at hs hs'
  rw [← e1, ← e3, ← e4, ← hp.minSize, ← hp.minHoleCount, ← hp.minHoleSize] at hs'
  obtain ⟨mp, hmp, rfl⟩ := hs
  obtain ⟨mp', hmp', rfl⟩ := hs'
  rw [hmp] at hmp'
  cases hmp'
  have key : ∀ (a : Bool) {u u' v v' : Strategy K}, Within u u' → Within v v' → ∀ n : Int,
      Within ((uniqueLists u n none).bind (coordsToMix env a v z mp))
        ((uniqueLists u' n none).bind (coordsToMix env a v' z' mp)) := by
    intro a u u' v v' hu hv n
    refine (hu.uniqueLists _ .rfl').bind fun l _ => ?_
    exact bindM (hpc _ _) fun _ _ => bindM rfl' fun _ _ => bindM (mixLoop_within hv hp _ _ _)
      fun _ _ => rfl'
  exact (key true hx hy _).or (key false hy hx _)

end
end HG
