import Verif.Lemmas.Strategy
import Verif.Lemmas.Except
import Verif.Model.Planar
import Verif.Spec.Geometry
import Mathlib.Data.List.Sort
import Mathlib.Algebra.BigOperators.Group.List.Basic
import Mathlib.Tactic.Ring

/-!
# Sizes of drawn values: internal lemmas
-/

set_option linter.unusedSectionVars false

namespace HG

open Strategy Spec

theorem hasValidSize_iff (lo : Int) (hi : Option Int) (n : Nat) :
    hasValidSize lo hi n = true ↔ SizeIn lo hi n := by
  cases hi <;> simp [hasValidSize, SizeIn]

theorem pySort_perm {α : Type} (le : α → α → Bool) (l : List α) : (pySort le l).Perm l :=
  List.perm_insertionSort _ _

theorem pySort_length {α : Type} (le : α → α → Bool) (l : List α) :
    (pySort le l).length = l.length := (pySort_perm le l).length_eq

theorem pairwise_length {α : Type} (l : List α) : (pairwise l).length = l.length - 1 := by
  induction l with
  | nil => rfl
  | cons a l ih =>
    cases l with
    | nil => rfl
    | cons b l =>
      simp only [pairwise, List.length_cons]
      simp only [List.length_cons] at ih
      omega

section
variable {K : Type} [LinearOrder K] [Zero K] [Add K] [Sub K] [Predicates K]

/-- The size arguments of one collection are consistent. -/
def OkBounds (least lo : Int) (hi : Option Int) : Prop :=
  least ≤ lo ∧ ∀ m, hi = some m → lo ≤ m

theorem rectangular_length {x : Strategy K} {y : Option (Strategy K)} {vs : List (Point K)}
    (h : (toRectangularStrategy x y).val vs) : vs.length = 4 := by
  simp only [toRectangularStrategy, val_map] at h
  obtain ⟨b, _, rfl⟩ := h
  rfl

theorem triangular_length {x : Strategy K} {y : Option (Strategy K)} {vs : List (Point K)}
    (h : (toTriangularStrategy x y).val vs) : vs.length = 3 := by
  simp only [toTriangularStrategy, val_map] at h
  obtain ⟨b, _, rfl⟩ := h
  unfold toCcwTriplet
  split <;> rfl

theorem convex_size {env : Env K} {x : Strategy K} {y : Option (Strategy K)} {lo : Int}
    {hi : Option Int} (hb : OkBounds 3 lo hi) {vs : List (Point K)}
    (h : (toConvexStrategy env x y lo hi).val vs) : SizeIn lo hi vs.length := by
  obtain ⟨h3, hm⟩ := hb
  have tri : (toTriangularStrategy x y).val vs → lo = 3 → SizeIn lo hi vs.length := by
    intro h hlo
    rw [triangular_length h]
    refine ⟨by omega, fun m e => ?_⟩
    have := hm m e
    push_cast
    omega
  have main : (∀ m, hi = some m → 4 ≤ m) → ∀ big : Strategy (List (Point K)),
      (∀ vs, big.val vs → SizeIn lo hi vs.length) →
      (if lo = 3 then toTriangularStrategy x y |||
        (if lo ≤ 4 then toRectangularStrategy x y ||| big else big)
       else (if lo ≤ 4 then toRectangularStrategy x y ||| big else big)).val vs →
      SizeIn lo hi vs.length := by
    intro h4 big hbig h
    have rect : (toRectangularStrategy x y).val vs → lo ≤ 4 → SizeIn lo hi vs.length := by
      intro h hlo
      rw [rectangular_length h]
      exact ⟨by omega, fun m e => h4 m e⟩
    split at h
    · rcases h with h | h
      · exact tri h (by assumption)
      · split at h
        · rcases h with h | h
          · exact rect h (by assumption)
          · exact hbig _ h
        · exact hbig _ h
    · split at h
      · rcases h with h | h
        · exact rect h (by assumption)
        · exact hbig _ h
      · exact hbig _ h
  cases hi with
  | none =>
    refine main (by simp) _ ?_ h
    intro vs hv
    exact (hasValidSize_iff _ _ _).1 hv.2
  | some m =>
    simp only [toConvexStrategy] at h
    split at h
    · have h5 := hm m rfl
      exact tri h (by omega)
    · refine main ?_ _ ?_ h
      · intro m' e
        cases e
        omega
      · intro vs hv
        exact (hasValidSize_iff _ _ _).1 hv.2

theorem star_size {env : Env K} {x : Strategy K} {y : Option (Strategy K)} {lo : Int}
    {hi : Option Int} {vs : List (Point K)}
    (h : (toStarStrategy env x y lo hi).val vs) : SizeIn lo hi vs.length :=
  (hasValidSize_iff _ _ _).1 h.2

theorem vertexSequences_size {env : Env K} {x : Strategy K} {y : Option (Strategy K)} {lo : Int}
    {hi : Option Int} {vs : List (Point K)}
    (h : (toVertexSequences env x y lo hi).val vs) : SizeIn lo hi vs.length := by
  rcases h with h | h
  · exact star_size h
  · exact (hasValidSize_iff _ _ _).1 h.2

theorem concave_size {env : Env K} {x : Strategy K} {y : Option (Strategy K)} {lo : Int}
    {hi : Option Int} {vs : List (Point K)}
    (h : (toConcaveStrategy env x y lo hi).val vs) : SizeIn lo hi vs.length :=
  vertexSequences_size h.1

theorem vertexSequence_size {env : Env K} {x : Strategy K} {y : Option (Strategy K)} {lo : Int}
    {hi : Option Int} (hb : OkBounds 3 lo hi) {vs : List (Point K)}
    (h : (toVertexSequenceStrategy env x y lo hi).val vs) : SizeIn lo hi vs.length := by
  rcases h with h | h
  · exact convex_size hb h
  · exact vertexSequences_size h

theorem contourEdges_length (vs : List (Point K)) : (contourEdges vs).length = vs.length := by
  simp [contourEdges]

theorem cut_length {α : Type} (l : List α) (k : Int) (h0 : 0 ≤ k) (hk : k ≤ l.length) :
    ((cut l k).length : Int) = k := by
  unfold cut
  split
  · simp only [List.length_take]
    omega
  · omega

theorem subSequence_size {α : Type} {lo : Int} (h0 : 0 ≤ lo) {l s : List α}
    (h : (toSubSequenceStrategy lo l).val s) : lo ≤ s.length ∧ s.length ≤ l.length := by
  simp only [toSubSequenceStrategy, val_map, val_prod, val_permutations, val_integers] at h
  obtain ⟨⟨p, k⟩, ⟨hp, hk1, hk2⟩, rfl⟩ := h
  simp only at hp hk1 hk2 ⊢
  have := cut_length p k (by omega) (by rw [hp.length_eq]; exact hk2)
  omega

theorem segmentSequence_size {env : Env K} {x : Strategy K} {y : Option (Strategy K)} {lo : Int}
    {hi : Option Int} (hb : OkBounds 0 lo hi) {ss : List (Segment K)}
    (h : (toSegmentSequenceStrategy env x y lo hi).val ss) : SizeIn lo hi ss.length := by
  obtain ⟨h0, hm⟩ := hb
  have vert : ∀ (f : K × List K → List (Segment K)) (g : Strategy (K × List K)),
      (∀ p, (f p).length = p.2.length - 1) →
      (∀ p, g.val p → lo + 1 ≤ p.2.length ∧ leOpt p.2.length (hi.map (· + 1))) →
      ∀ p, g.val p → SizeIn lo hi (f p).length := by
    intro f g hf hg p hp
    obtain ⟨h1, h2⟩ := hg p hp
    rw [hf]
    refine ⟨by omega, ?_⟩
    rintro m rfl
    simp at h2
    omega
  have free : (lists (toSegmentStrategy x (some (yOr x y))) lo hi).val ss →
      SizeIn lo hi ss.length := by
    rintro ⟨_, h1, h2⟩
    refine ⟨h1, ?_⟩
    rintro m rfl
    exact h2
  have line : ∀ s : List (Segment K),
      (((prod x (uniqueLists (yOr x y) (lo + 1) (hi.map (· + 1)))).map
        fun p => verticalMultisegment p.1 p.2) |||
      ((prod (uniqueLists x (lo + 1) (hi.map (· + 1))) (yOr x y)).map
        fun p => horizontalMultisegment p.1 p.2)).val s → SizeIn lo hi s.length := by
    intro s h
    simp only [val_or, val_map, val_prod, val_uniqueLists] at h
    rcases h with ⟨p, ⟨_, _, _, h1, h2⟩, rfl⟩ | ⟨p, ⟨⟨_, _, h1, h2⟩, _⟩, rfl⟩
    · simp only [verticalMultisegment, List.length_map, pairwise_length, sortCoords, pySort_length]
      refine ⟨by omega, ?_⟩
      rintro m rfl
      simp at h2
      omega
    · simp only [horizontalMultisegment, List.length_map, pairwise_length, sortCoords,
        pySort_length]
      refine ⟨by omega, ?_⟩
      rintro m rfl
      simp at h2
      omega
  have contour : (∀ m, hi = some m → 3 ≤ m) →
      (((toVertexSequenceStrategy env x (some (yOr x y)) (max lo 3) hi).map
        contourEdges).bind (toSubSequenceStrategy lo)).val ss → SizeIn lo hi ss.length := by
    intro h3 h
    simp only [val_bind', val_map] at h
    obtain ⟨_, ⟨vs, hvs, rfl⟩, h⟩ := h
    have hs := vertexSequence_size ⟨by omega, fun m e => by have := h3 m e; have := hm m e; omega⟩
      hvs
    have := subSequence_size h0 h
    rw [contourEdges_length] at this
    refine ⟨this.1, fun m e => ?_⟩
    have := hs.2 m e
    omega
  cases hi with
  | none =>
    simp only [toSegmentSequenceStrategy] at h
    rcases h with ((h | h) | h) | h
    · exact line _ (Or.inl h)
    · exact line _ (Or.inr h)
    · exact contour (by simp) h
    · exact free h.1
  | some m =>
    have hlo := hm m rfl
    simp only [toSegmentSequenceStrategy] at h
    split at h
    · split at h
      · obtain ⟨s, _, rfl⟩ := h
        refine ⟨by simp; omega, ?_⟩
        rintro m' ⟨rfl⟩
        simp
        omega
      · subst h
        refine ⟨by simp; omega, ?_⟩
        rintro m' ⟨rfl⟩
        simp
        omega
    · split at h
      · rcases h with ((h | h) | h) | h
        · exact line _ (Or.inl h)
        · exact line _ (Or.inr h)
        · refine contour ?_ h
          rintro m' ⟨rfl⟩
          assumption
        · exact free h.1
      · rcases h with (h | h) | h
        · exact line _ (Or.inl h)
        · exact line _ (Or.inr h)
        · exact free h.1

theorem multicontourHasValidSizes_iff (lo : Int) (hi : Option Int) (clo : Int) (chi : Option Int)
    (cs : List (Contour K)) : multicontourHasValidSizes lo hi clo chi cs = true ↔
      SizeIn lo hi cs.length ∧ ∀ c ∈ cs, SizeIn clo chi c.vertices.length := by
  simp [multicontourHasValidSizes, hasValidSize_iff]

theorem multicontour_sizes {env : Env K} {x : Strategy K} {y : Option (Strategy K)} {lo : Int}
    {hi : Option Int} {clo : Int} {chi : Option Int} {cs : List (Contour K)}
    (h : (toMulticontourStrategy env x y lo hi clo chi).val cs) :
    SizeIn lo hi cs.length ∧ ∀ c ∈ cs, SizeIn clo chi c.vertices.length :=
  (multicontourHasValidSizes_iff _ _ _ _ _).1 h.2

/-- All parts of a polygon have sizes in the ranges. -/
def PolySizesOk (z : PolygonSizes) (p : Polygon K) : Prop :=
  SizeIn z.minSize z.maxSize p.border.vertices.length ∧
    SizeIn z.minHoleCount z.maxHoleCount p.holes.length ∧
    ∀ c ∈ p.holes, SizeIn z.minHoleSize z.maxHoleSize c.vertices.length

theorem polygon_sizes {env : Env K} {x : Strategy K} {y : Option (Strategy K)} {z : PolygonSizes}
    {p : Polygon K} (h : (toPolygonStrategy env x y z).val p) : PolySizesOk z p := by
  have h2 := h.2
  simp only [polygonHasValidSizes, Bool.and_eq_true, hasValidSize_iff,
    multicontourHasValidSizes_iff] at h2
  exact h2

theorem slabPolygon_sizes {env : Env K} {alongX : Bool} {coords : List K} {other : Strategy K}
    {z : PolygonSizes} {p : Polygon K} (h : (slabPolygon env alongX coords other z).val p) :
    PolySizesOk z p := by
  unfold slabPolygon at h
  split at h <;> exact polygon_sizes h

theorem slabLoop_sizes {env : Env K} {alongX : Bool} {coords : List K} {other : Strategy K}
    {z : PolygonSizes} {minPoints : Int} (left : Nat) (start : Int) {ps : List (Polygon K)}
    (h : (slabLoop env alongX coords other z minPoints left start).val ps) :
    ps.length = left + 1 ∧ ∀ p ∈ ps, PolySizesOk z p := by
  induction left generalizing start ps with
  | zero =>
    simp only [slabLoop, val_map] at h
    obtain ⟨p, hp, rfl⟩ := h
    simpa using slabPolygon_sizes hp
  | succ left ih =>
    simp only [slabLoop, val_bind, val_pure] at h
    obtain ⟨count, _, prime, _, p, hp, e, _, rest, hrest, rfl⟩ := h
    obtain ⟨h1, h2⟩ := ih _ hrest
    refine ⟨by simp [h1], fun q hq => ?_⟩
    rcases List.mem_cons.1 hq with rfl | hq
    · exact slabPolygon_sizes hp
    · exact h2 q hq

theorem coordsToPolygons_sizes {env : Env K} {alongX : Bool} {other : Strategy K}
    {z : PolygonSizes} {minPoints lo : Int} {hi : Option Int} {coords : List K}
    {ps : List (Polygon K)} (hlo : 1 ≤ lo)
    (h : (coordsToPolygons env alongX other z minPoints lo hi coords).val ps) :
    SizeIn lo hi ps.length ∧ ∀ p ∈ ps, PolySizesOk z p := by
  simp only [coordsToPolygons, val_bind, val_integers] at h
  obtain ⟨size, ⟨h1, h2⟩, h⟩ := h
  obtain ⟨h3, h4⟩ := slabLoop_sizes _ _ h
  refine ⟨⟨by omega, ?_⟩, h4⟩
  rintro m rfl
  simp only [minOpt] at h2
  have := min_le_right ((coords.length : Int) / minPoints) m
  omega

theorem multipolygon_sizes {env : Env K} {x : Strategy K} {y : Option (Strategy K)} {lo : Int}
    {hi : Option Int} {z : PolygonSizes} (hlo : 1 ≤ lo)
    (hh : ∀ m, z.maxHoleCount = some m → z.minHoleCount ≤ m)
    {s : Strategy (List (Polygon K))}
    (hs : toMultipolygonStrategy env x y lo hi z = .ok s) {ps : List (Polygon K)}
    (h : s.val ps) : SizeIn lo hi ps.length ∧ ∀ p ∈ ps, PolySizesOk z p := by
  simp only [toMultipolygonStrategy, exc_bind_ok] at hs
  obtain ⟨mp, _, hs⟩ := hs
  have slabs : ((uniqueLists x (lo * mp) (multipolygonMaxTotal hi z (lo * mp))).bind
        (coordsToPolygons env true (yOr x y) z mp lo hi)
      ||| (uniqueLists (yOr x y) (lo * mp) (multipolygonMaxTotal hi z (lo * mp))).bind
        (coordsToPolygons env false x z mp lo hi)).val ps →
      SizeIn lo hi ps.length ∧ ∀ p ∈ ps, PolySizesOk z p := by
    rintro (⟨c, _, h⟩ | ⟨c, _, h⟩) <;> exact coordsToPolygons_sizes hlo h
  split at hs
  · rename_i h0
    rw [exc_pure_ok] at hs
    subst hs
    rcases h with h | h
    · simp only [val_map] at h
      obtain ⟨cs, hcs, rfl⟩ := h
      obtain ⟨h1, h2⟩ := multicontour_sizes hcs
      refine ⟨by simpa using h1, ?_⟩
      intro p hp
      obtain ⟨c, hc, rfl⟩ := List.mem_map.1 hp
      refine ⟨h2 c hc, ⟨by simp [h0], fun m e => ?_⟩, by simp⟩
      have := hh m e
      simp
      omega
    · exact slabs h
  · rw [exc_pure_ok] at hs
    subst hs
    exact slabs h

/-! ## Mixes -/

theorem partitionLoop_sum (fuel : Nat) (v : Int) (hv : 0 ≤ v) (hf : v ≤ fuel) {l : List Int}
    (h : (partitionLoop fuel v).val l) : l.sum = v ∧ ∀ a ∈ l, 1 ≤ a := by
  induction fuel generalizing v l with
  | zero =>
    simp only [partitionLoop, val_just] at h
    subst h
    simp at hf ⊢
    omega
  | succ n ih =>
    simp only [partitionLoop] at h
    split at h
    · subst h
      simp
      omega
    · simp only [val_bind, val_integers, val_pure] at h
      obtain ⟨part, ⟨h1, h2⟩, rest, hr, rfl⟩ := h
      obtain ⟨h3, h4⟩ := ih (v - part) (by omega) (by push_cast at hf; omega) hr
      refine ⟨by simp [h3], fun a ha => ?_⟩
      rcases List.mem_cons.1 ha with rfl | ha
      · exact h1
      · exact h4 a ha

theorem partition_sum (v : Int) {l : List Int} (h : (partitionStrategy v).val l) :
    0 ≤ v ∧ l.sum = v ∧ ∀ a ∈ l, 1 ≤ a := by
  unfold partitionStrategy at h
  split at h
  · exact ⟨by assumption, partitionLoop_sum _ _ (by assumption) (by omega) h⟩
  · exact absurd h (by simp)

theorem replicateDraw_val {α : Type} (s : Strategy α) (n : Nat) {l : List α}
    (h : (replicateDraw s n).val l) : l.length = n ∧ ∀ a ∈ l, s.val a := by
  induction n generalizing l with
  | zero =>
    simp only [replicateDraw, val_just] at h
    subst h
    simp
  | succ n ih =>
    simp only [replicateDraw, val_bind, val_pure] at h
    obtain ⟨a, ha, rest, hr, rfl⟩ := h
    obtain ⟨h1, h2⟩ := ih hr
    exact ⟨by simp [h1], fun b hb => by
      rcases List.mem_cons.1 hb with rfl | hb
      · exact ha
      · exact h2 b hb⟩

theorem mem_rangeStep2 (a b v : Int) : v ∈ rangeStep2 a b → a ≤ v ∧ v < b ∧ (v - a) % 2 = 0 := by
  intro h
  simp only [rangeStep2, List.mem_map] at h
  obtain ⟨i, hi, rfl⟩ := h
  have := List.mem_range.1 hi
  omega

/-- The counts of pieces of a mix. -/
theorem pointCounts_sizes {z : MixSizes} {mp total : Int} (hg : 0 ≤ z.minPolygons)

    (hp : ∀ m, z.maxPoints = some m → z.minPoints ≤ m)
    {c : List Int × List Int × List Int} (h : (toPointCounts z mp total).val c) :
    (z.minPoints ≤ c.1.sum ∧ (∀ m, z.maxPoints = some m → c.1.sum ≤ m) ∧ ∀ a ∈ c.1, 1 ≤ a) ∧
    (∃ sp : List Int, c.2.1 = sp.map (2 * ·) ∧ (∀ a ∈ sp, 1 ≤ a) ∧
      z.minSegments ≤ sp.sum ∧ ∀ m, z.maxSegments = some m → sp.sum ≤ m) ∧
    SizeIn z.minPolygons z.maxPolygons c.2.2.length ∧ (∀ a ∈ c.2.2, mp ≤ a) ∧
    c.1.sum + c.2.1.sum + c.2.2.sum ≤ total := by
  simp only [toPointCounts, val_bind, val_integers, val_sampledFrom, val_pure] at h
  obtain ⟨pc, ⟨hpc1, hpc2⟩, mpp, hmpp, pcs, hpcs, sp, hsp, pp, hpp, sparts, hsparts, rfl⟩ := h
  obtain ⟨_, hpp1, hpp2⟩ := partition_sum _ hpp
  obtain ⟨_, hss1, hss2⟩ := partition_sum _ hsparts
  obtain ⟨hr1, hr2, hr3⟩ := mem_rangeStep2 _ _ _ hsp
  have hseg : ∀ m, z.maxSegments = some m → sp ≤ 2 * m := by
    intro m e
    rw [e] at hr2
    simp only [Option.map_some, minOpt] at hr2
    have := min_le_right (total - pcs.sum - z.minPoints) (2 * m)
    omega
  have hseg2 : sp ≤ total - pcs.sum - z.minPoints := by
    cases e : z.maxSegments with
    | none =>
      rw [e] at hr2
      simp only [Option.map_none, minOpt] at hr2
      omega
    | some m =>
      rw [e] at hr2
      simp only [Option.map_some, minOpt] at hr2
      have := min_le_left (total - pcs.sum - z.minPoints) (2 * m)
      omega
  have hmin : minOpt (total - sp - pcs.sum) z.maxPoints ≤ total - sp - pcs.sum := by
    cases z.maxPoints with
    | none => exact le_refl _
    | some m => exact min_le_left _ _
  have hdouble : (sparts.map (2 * ·)).sum = 2 * sparts.sum := by
    clear hss1 hss2 hsparts
    induction sparts with
    | nil => rfl
    | cons a l ih => simp only [List.map_cons, List.sum_cons, ih]; ring
  simp only
  refine ⟨⟨?_, ?_, hpp2⟩, ⟨sparts, rfl, hss2, ?_, ?_⟩, ?_, ?_, ?_⟩
  · rw [hpp1]
    cases e : z.maxPoints with
    | none => simp only [minOpt]; omega
    | some m =>
      have := hp m e
      simp only [minOpt]
      exact le_min (by omega) this
  · intro m e
    rw [hpp1, e]
    exact min_le_right _ _
  · rw [hss1]; omega
  · intro m e
    have := hseg m e
    rw [hss1]; omega
  · split at hpcs
    · obtain ⟨h1, _⟩ := replicateDraw_val _ _ hpcs
      refine ⟨by omega, fun m e => ?_⟩
      rw [e] at hpc2
      have := min_le_right ((total - z.minPoints - 2 * z.minSegments) / mp) m
      simp only [minOpt] at hpc2
      omega
    · rename_i h0
      simp only [val_just] at hpcs
      subst hpcs
      have h0 : pc = 0 := by simpa using h0
      refine ⟨by simp; omega, fun m e => ?_⟩
      rw [e] at hpc2
      have := min_le_right ((total - z.minPoints - 2 * z.minSegments) / mp) m
      simp only [minOpt] at hpc2
      simp
      omega
  · split at hpcs
    · obtain ⟨_, h2⟩ := replicateDraw_val _ _ hpcs
      intro a ha
      exact (h2 a ha).1
    · simp only [val_just] at hpcs
      subst hpcs
      simp
  · rw [hdouble, hss1, hpp1]
    omega

/-- The total count of the pieces of one kind. -/
def pieceSum (d : Drawer) (l : List (Drawer × Int)) : Int :=
  ((l.filter fun p => p.1 = d).map Prod.snd).sum

theorem pieceSum_cons (d : Drawer) (p : Drawer × Int) (l : List (Drawer × Int)) :
    pieceSum d (p :: l) = (if p.1 = d then p.2 else 0) + pieceSum d l := by
  unfold pieceSum
  by_cases h : p.1 = d <;> simp [h]

theorem mixLoop_sizes {env : Env K} {alongX : Bool} {other : Strategy K} {z : PolygonSizes}
    (l : List (Drawer × Int)) (hpos : ∀ p ∈ l, 0 ≤ p.2)
    (heven : ∀ p ∈ l, p.1 = .segments → p.2 % 2 = 0) (coords : List K) (s t : MixState K)
    (h : (mixLoop env alongX other z l coords s).val t) :
    (t.points.length : Int) = s.points.length + pieceSum .points l ∧
    2 * (t.segments.length : Int) = 2 * s.segments.length + pieceSum .segments l ∧
    t.polygons.length = s.polygons.length + (l.filter fun p => p.1 = .polygon).length ∧
    ((∀ p ∈ s.polygons, PolySizesOk z p) → ∀ p ∈ t.polygons, PolySizesOk z p) := by
  induction l generalizing coords s with
  | nil =>
    simp only [mixLoop, val_just] at h
    subst h
    simp [pieceSum]
  | cons p l ih =>
    obtain ⟨d, count⟩ := p
    simp only [mixLoop, val_bind] at h
    obtain ⟨s', hs', touch, _, h⟩ := h
    obtain ⟨h1, h2, h3, h4⟩ := ih (fun p hp => hpos p (by simp [hp]))
      (fun p hp => heven p (by simp [hp])) _ _ h
    have hc : 0 ≤ count := hpos (d, count) (by simp)
    cases d with
    | points =>
      simp only [runDrawer, drawPoints, val_bind, val_pure] at hs'
      obtain ⟨ps, hps, rfl⟩ := hs'
      have hlen : (ps.length : Int) = count := by
        split at hps <;>
        · simp only [toUniquePointSequenceStrategy, val_uniqueLists, leOpt_some] at hps
          omega
      simp only [pieceSum_cons, List.length_append] at *
      simp
      refine ⟨by omega, by omega, by omega, h4⟩
    | segments =>
      simp only [runDrawer, drawSegments, val_bind, val_pure] at hs'
      obtain ⟨ps, hps, rfl⟩ := hs'
      have hev : count % 2 = 0 := heven (.segments, count) (by simp) rfl
      have hlen : (ps.length : Int) = count / 2 := by
        have hb : OkBounds 0 (count / 2) (some (count / 2)) :=
          ⟨by omega, fun m e => by cases e; exact le_refl _⟩
        split at hps
        all_goals
          have := segmentSequence_size hb hps
          have h2 := this.2 _ rfl
          exact le_antisymm h2 this.1
      simp only [pieceSum_cons, List.length_append] at *
      simp
      refine ⟨by omega, by omega, by omega, h4⟩
    | polygon =>
      simp only [runDrawer, drawPolygon, val_bind, val_pure] at hs'
      obtain ⟨n, hn, p, hp, rfl⟩ := hs'
      simp only [pieceSum_cons, List.length_append] at *
      simp
      refine ⟨by omega, by omega, by simp at h3; omega, ?_⟩
      intro hq
      apply h4
      intro q hq'
      rcases List.mem_append.1 hq' with hq' | hq'
      · exact hq q hq'
      · rw [List.mem_singleton.1 hq']
        exact slabPolygon_sizes hp

theorem pieceSum_perm (d : Drawer) {l l' : List (Drawer × Int)} (h : l.Perm l') :
    pieceSum d l = pieceSum d l' :=
  ((h.filter _).map _).sum_eq

theorem pieceSum_append (d : Drawer) (l l' : List (Drawer × Int)) :
    pieceSum d (l ++ l') = pieceSum d l + pieceSum d l' := by
  simp [pieceSum]

theorem pieceSum_map (d d' : Drawer) (l : List Int) :
    pieceSum d (l.map fun c => (d', c)) = if d' = d then l.sum else 0 := by
  induction l with
  | nil => simp [pieceSum]
  | cons a l ih =>
    simp only [List.map_cons, pieceSum_cons, ih]
    split <;> simp

end
end HG
