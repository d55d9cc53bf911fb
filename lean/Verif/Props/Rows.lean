import Verif.Props.MixCounts
import Verif.Props.Parts

/-!
# C63: parts in a row separated by points are generated together

The converse of C57 for `mixes`: parts on consecutive blocks of coordinates, no two of them
segments or polygons without points in between, are the parts of a generated mix, in any order of
their kinds.
-/

set_option linter.unusedSectionVars false

namespace HG

open Strategy Spec

section

variable {K : Type} [LinearOrder K] [Zero K] [Add K] [_root_.Sub K] [Predicates K]

/-- A part of a mix and the block of coordinates it is drawn from. -/
inductive Spec.MixPart (K : Type) where
  | points (block : List K) (ps : List (Point K))
  | segments (block : List K) (ss : List (Segment K))
  | polygon (block : List K) (g : Polygon K)

namespace Spec.MixPart

/-- The block of coordinates. -/
def block : MixPart K → List K
  | points A _ => A
  | segments A _ => A
  | polygon A _ => A

/-- The points of the part. -/
def pts : MixPart K → List (Point K)
  | points _ ps => ps
  | _ => []

/-- The segments of the part. -/
def segs : MixPart K → List (Segment K)
  | segments _ ss => ss
  | _ => []

/-- The polygons of the part. -/
def pols : MixPart K → List (Polygon K)
  | polygon _ g => [g]
  | _ => []

/-- The part consists of points. -/
def IsPoints : MixPart K → Prop
  | points _ _ => True
  | _ => False

end Spec.MixPart

/-- The strategies of the first and the second coordinate when the block is taken along the first
(`true`) or the second axis. -/
def Spec.blockX (along : Bool) (A : List K) (other : Strategy K) : Strategy K :=
  if along then sampledFrom A else other

/-- See `blockX`. -/
def Spec.blockY (along : Bool) (A : List K) (other : Strategy K) : Strategy K :=
  if along then other else sampledFrom A

/-- The part is a value of the simpler constructors over its block: a multipoint with as many points
as the block has coordinates, a segment or multisegment with half as many segments, or a polygon
over `p` coordinates. -/
def Spec.MixPartOk (env : Env K) (along : Bool) (other : Strategy K) (a : MixArgs) (p : ℕ) :
    MixPart K → Prop
  | .points A ps => ps ≠ [] ∧ A.length = ps.length ∧
      ∃ s, multipoints (blockX along A other) (some (blockY along A other)) ps.length
        (some ps.length) = .ok s ∧ s.2.val ps
  | .segments A ss => A.length = 2 * ss.length ∧
      ((∃ g s, ss = [g] ∧ HG.segments (blockX along A other) (some (blockY along A other)) = .ok s ∧
          s.2.val g) ∨
        (2 ≤ ss.length ∧ ∃ s, multisegments env (blockX along A other) (some (blockY along A other))
          ss.length (some ss.length) = .ok s ∧ s.2.val ss))
  | .polygon A g => A.length = p ∧ ∃ s, polygons env (blockX along A other)
      (some (blockY along A other)) a.minPolygonBorderSize a.maxPolygonBorderSize
      a.minPolygonHolesSize a.maxPolygonHolesSize a.minPolygonHoleSize a.maxPolygonHoleSize = .ok s ∧
      s.2.val g

/-- No two neighbouring parts are segments or polygons. -/
def Spec.PointSeparated (l : List (MixPart K)) : Prop := l.IsChain fun a b => a.IsPoints ∨ b.IsPoints

/-- What is drawn for a part. -/
def pieceOf : MixPart K → Drawer × Int
  | .points A _ => (.points, A.length)
  | .segments A _ => (.segments, A.length)
  | .polygon A _ => (.polygon, A.length)

theorem separated_touch {along : Bool} {b : MixPart K} {l : List (MixPart K)} (h : PointSeparated (b :: l))
    (s : MixState K) : canTouchNext along (pieceOf b).1 ((l.map pieceOf).head?.map Prod.fst) s =
      .ok false := by
  cases l with
  | nil => rfl
  | cons c l =>
    have h1 : b.IsPoints ∨ c.IsPoints := (List.isChain_cons_cons.1 h).1
    cases b <;> cases c <;> first | rfl | simp [MixPart.IsPoints] at h1

theorem part_draw {env : Env K} {along : Bool} {other : Strategy K} {a : MixArgs} {p : ℕ}
    (hp : p.Prime) (h5 : 5 ≤ p) {b : MixPart K} (hb : MixPartOk env along other a p b) (R : List K)
    (s : MixState K) {u v w : Int} :
    (runDrawer env along (b.block ++ R) other (a.sizes u v w).polygon (pieceOf b).1 (pieceOf b).2 s).val
      ⟨s.points ++ b.pts, s.segments ++ b.segs, s.polygons ++ b.pols⟩ := by
  cases b with
  | points A ps =>
    obtain ⟨h1, h2, t, ht, hv⟩ := hb
    simp only [multipoints, exc_bind_ok, exc_pure_ok, validate_ok] at ht
    obtain ⟨_, -, rfl⟩ := ht
    have hpos := List.length_pos_of_ne_nil h1
    have hm : max (ps.length : Int) 1 = ps.length := max_eq_left (by omega)
    dsimp only at hv
    rw [hm] at hv
    refine ⟨ps, ?_, ?_⟩
    · simp only [pieceOf, MixPart.block, Int.toNat_natCast, List.take_left']
      rw [h2]
      cases along <;> exact hv
    · simp [MixPart.pts, MixPart.segs, MixPart.pols]
  | segments A ss =>
    obtain ⟨h2, h⟩ := hb
    have key : (toSegmentSequenceStrategy env (blockX along A other) (some (blockY along A other))
        (ss.length : Int) (some (ss.length : Int))).val ss := by
      rcases h with ⟨g, t, rfl, ht, hv⟩ | ⟨h3, t, ht, hv⟩
      · simp only [HG.segments, exc_pure_ok] at ht
        subst ht
        unfold toSegmentSequenceStrategy
        dsimp only
        rw [if_pos (by simp), if_pos (by simp)]
        exact ⟨g, hv, rfl⟩
      · simp only [multisegments, exc_bind_ok, exc_pure_ok, validate_ok] at ht
        obtain ⟨_, -, rfl⟩ := ht
        have hm : max (ss.length : Int) 2 = ss.length := max_eq_left (by omega)
        dsimp only at hv
        rw [hm] at hv
        exact hv
    refine ⟨ss, ?_, ?_⟩
    · have e : (A.length : Int) / 2 = ss.length := by omega
      simp only [pieceOf, MixPart.block, Int.toNat_natCast, List.take_left']
      rw [e]
      cases along <;> exact key
    · simp [MixPart.pts, MixPart.segs, MixPart.pols]
  | polygon A g =>
    obtain ⟨h1, t, ht, hv⟩ := hb
    simp only [polygons, exc_bind_ok, exc_pure_ok] at ht
    obtain ⟨_, -, _, -, _, -, rfl⟩ := ht
    obtain ⟨r, hr, hrp, hr1, -, hr3⟩ := toPriorPrime_spec (p : Int) (by omega)
    have hrq : r = p := le_antisymm (by omega) (hr3 p hp le_rfl)
    subst hrq
    refine ⟨r, ?_, g, ?_, ?_⟩
    · simp only [pieceOf]
      rw [h1]
      cases along
      · rfl
      · rw [if_pos rfl, val_ofExcept]
        exact hr
    · rw [Int.toNat_natCast, MixPart.block, ← h1, List.take_left']
      · cases along <;> exact hv
      · rfl
    · simp [MixPart.pts, MixPart.segs, MixPart.pols]

theorem row_loop {env : Env K} {along : Bool} {other : Strategy K} {a : MixArgs} {p : ℕ}
    (hp : p.Prime) (h5 : 5 ≤ p) {u v w : Int} (l : List (MixPart K))
    (hl : ∀ b ∈ l, MixPartOk env along other a p b) (hs : PointSeparated l) (s : MixState K) :
    (mixLoop env along other (a.sizes u v w).polygon (l.map pieceOf) (l.flatMap MixPart.block) s).val
      ⟨s.points ++ l.flatMap MixPart.pts, s.segments ++ l.flatMap MixPart.segs,
        s.polygons ++ l.flatMap MixPart.pols⟩ := by
  induction l generalizing s with
  | nil => simp [mixLoop]
  | cons b l ih =>
    refine ⟨_, part_draw hp h5 (hl b (by simp)) (l.flatMap MixPart.block) s, false, ?_, ?_⟩
    · rw [val_ofExcept]
      exact separated_touch hs _
    · have e : (b.block ++ l.flatMap MixPart.block).drop ((pieceOf b).2 - b2i false).toNat =
          l.flatMap MixPart.block := by
        have : ((pieceOf b).2 - b2i false).toNat = b.block.length := by
          cases b <;> simp [pieceOf, MixPart.block, b2i]
        rw [this, List.drop_left']
        rfl
      have := ih (fun b hb => hl b (by simp [hb])) (List.IsChain.tail hs)
        ⟨s.points ++ b.pts, s.segments ++ b.segs, s.polygons ++ b.pols⟩
      simp only [List.flatMap_cons]
      rw [← List.append_assoc, ← List.append_assoc, ← List.append_assoc]
      rw [← e] at this
      exact this

/-! ## The counts -/

theorem partition_any (l : List Int) (h : ∀ a ∈ l, 1 ≤ a) : (partitionStrategy l.sum).val l := by
  have h0 : 0 ≤ l.sum := List.sum_nonneg fun a ha => by have := h a ha; omega
  unfold partitionStrategy
  rw [if_pos h0]
  suffices ∀ n : ℕ, l.sum ≤ n → (partitionLoop n l.sum).val l from this _ (by omega)
  clear h0
  intro n
  induction l generalizing n with
  | nil =>
    intro _
    cases n with
    | zero => rfl
    | succ n => rw [partitionLoop, List.sum_nil, if_pos rfl]; rfl
  | cons a l ih =>
    intro hn
    have ha := h a (by simp)
    have hl : 0 ≤ l.sum := List.sum_nonneg fun b hb => by have := h b (by simp [hb]); omega
    rw [List.sum_cons] at hn ⊢
    cases n with
    | zero => omega
    | succ n =>
      rw [partitionLoop, if_neg (by omega)]
      refine ⟨a, ⟨ha, by omega⟩, l, ?_, rfl⟩
      rw [add_sub_cancel_left]
      exact ih (fun b hb => h b (by simp [hb])) n (by omega)

/-- The numbers of coordinates for the points. -/
def pointSizes (l : List (MixPart K)) : List Int :=
  l.flatMap fun | .points A _ => [(A.length : Int)] | _ => []

/-- The numbers of segments. -/
def segmentSizes (l : List (MixPart K)) : List Int :=
  l.flatMap fun | .segments _ ss => [(ss.length : Int)] | _ => []

theorem pieces_perm {env : Env K} {along : Bool} {other : Strategy K} {a : MixArgs} {p : ℕ}
    (l : List (MixPart K)) (hl : ∀ b ∈ l, MixPartOk env along other a p b) :
    (l.map pieceOf).Perm ((pointSizes l).map (fun c => (Drawer.points, c)) ++
      ((segmentSizes l).map (2 * ·)).map (fun c => (Drawer.segments, c)) ++
      (List.replicate (l.flatMap MixPart.pols).length (p : Int)).map (fun c => (Drawer.polygon, c))) := by
  induction l with
  | nil => simp [pointSizes, segmentSizes]
  | cons b l ih =>
    have hb := hl b (by simp)
    have ih := ih fun c hc => hl c (by simp [hc])
    cases b with
    | points A ps =>
      simp only [List.map_cons, pieceOf, pointSizes, segmentSizes, List.flatMap_cons, MixPart.pols,
        List.nil_append, List.cons_append]
      exact ih.cons _
    | segments A ss =>
      simp only [List.map_cons, pieceOf, pointSizes, segmentSizes, List.flatMap_cons, MixPart.pols,
        List.nil_append, List.append_assoc, List.cons_append]
      rw [hb.1]
      simp only [Nat.cast_mul, Nat.cast_ofNat]
      refine (List.Perm.cons _ ?_).trans List.perm_middle.symm
      rw [← List.append_assoc]
      exact ih
    | polygon A g =>
      simp only [List.map_cons, pieceOf, pointSizes, segmentSizes, List.flatMap_cons, MixPart.pols,
        List.nil_append, List.cons_append, List.length_cons,
        List.replicate_succ, List.map_cons]
      rw [hb.1]
      exact (ih.cons _).trans List.perm_middle.symm

theorem row_sums {env : Env K} {along : Bool} {other : Strategy K} {a : MixArgs} {p : ℕ}
    (l : List (MixPart K)) (hl : ∀ b ∈ l, MixPartOk env along other a p b) :
    (pointSizes l).sum = (l.flatMap MixPart.pts).length ∧
    (segmentSizes l).sum = (l.flatMap MixPart.segs).length ∧
    ((l.flatMap MixPart.block).length : Int) = (l.flatMap MixPart.pts).length +
      2 * (l.flatMap MixPart.segs).length + (l.flatMap MixPart.pols).length * p ∧
    (∀ n ∈ pointSizes l, 1 ≤ n) ∧ ∀ n ∈ segmentSizes l, 1 ≤ n := by
  induction l with
  | nil => simp [pointSizes, segmentSizes]
  | cons b l ih =>
    have hb := hl b (by simp)
    obtain ⟨i1, i2, i3, i4, i5⟩ := ih fun c hc => hl c (by simp [hc])
    cases b with
    | points A ps =>
      have := List.length_pos_of_ne_nil hb.1
      have h2 := hb.2.1
      simp only [pointSizes, segmentSizes, List.flatMap_cons, MixPart.pts, MixPart.segs, MixPart.pols,
        MixPart.block, List.singleton_append, List.nil_append, List.sum_cons, List.length_append,
        List.mem_cons] at *
      refine ⟨by omega, i2, by push_cast; omega, ?_, i5⟩
      rintro n (rfl | hn)
      · omega
      · exact i4 n hn
    | segments A ss =>
      have h2 := hb.1
      have h3 : 1 ≤ ss.length := by
        rcases hb.2 with ⟨g, s, e, -⟩ | ⟨h, -⟩
        · simp [e]
        · omega
      simp only [pointSizes, segmentSizes, List.flatMap_cons, MixPart.pts, MixPart.segs, MixPart.pols,
        MixPart.block, List.singleton_append, List.nil_append, List.sum_cons, List.length_append,
        List.mem_cons] at *
      refine ⟨i1, by omega, by push_cast; omega, i4, ?_⟩
      rintro n (rfl | hn)
      · omega
      · exact i5 n hn
    | polygon A g =>
      have h2 := hb.1
      simp only [pointSizes, segmentSizes, List.flatMap_cons, MixPart.pts, MixPart.segs, MixPart.pols,
        MixPart.block, List.singleton_append, List.nil_append, List.length_append,
        List.length_cons] at *
      refine ⟨i1, i2, ?_, i4, i5⟩
      push_cast
      rw [i3, h2]
      ring

theorem pointCounts_parts {z : MixSizes} {pl sl : List Int} {ng p q : ℕ} (hp : p.Prime) (h5 : 5 ≤ p)
    (hq : 0 < q) (hqp : ng ≠ 0 → q ≤ p) (hpl : ∀ n ∈ pl, 1 ≤ n) (hsl : ∀ n ∈ sl, 1 ≤ n)
    (h1 : z.minPoints ≤ pl.sum) (h2 : ∀ k, z.maxPoints = some k → pl.sum ≤ k)
    (h3 : z.minSegments ≤ sl.sum) (h4 : ∀ k, z.maxSegments = some k → sl.sum ≤ k)
    (h6 : z.minPolygons ≤ ng) (h7 : ∀ k, z.maxPolygons = some k → ng ≤ k) :
    (toPointCounts z q (pl.sum + 2 * sl.sum + ng * p)).val
      (pl, sl.map (2 * ·), List.replicate ng (p : Int)) := by
  simp only [toPointCounts, val_bind, val_integers, val_sampledFrom, val_pure]
  have hp0 : (0 : Int) < q := by omega
  have hm : (ng : Int) * q ≤ ng * p := by
    rcases Nat.eq_zero_or_pos ng with h | h
    · simp [h]
    · have := hqp (by omega)
      exact mul_le_mul_of_nonneg_left (by exact_mod_cast this) (by omega)
  refine ⟨ng, ⟨h6, minOpt_ge ?_ h7⟩, ?_⟩
  · rw [Int.le_ediv_iff_mul_le hp0]
    omega
  have draw : ∃ mpp', (if (ng : Int) ≠ 0 then ofExcept (toPriorPrime
      ((pl.sum + 2 * sl.sum + ng * p - z.minPoints - 2 * z.minSegments) / ng)) else just 0).val mpp' ∧
      (if (ng : Int) ≠ 0 then replicateDraw (integers (q : Int) mpp') ((ng : Int)).toNat
        else just []).val (List.replicate ng (p : Int)) := by
    by_cases hne : (ng : Int) ≠ 0
    · have hpos : (0 : Int) < ng := by omega
      have hle : (p : Int) ≤ (pl.sum + 2 * sl.sum + ng * p - z.minPoints - 2 * z.minSegments) / ng := by
        rw [Int.le_ediv_iff_mul_le hpos]
        nlinarith
      obtain ⟨r, hr, -, -, -, hr3⟩ := toPriorPrime_spec
        ((pl.sum + 2 * sl.sum + ng * p - z.minPoints - 2 * z.minSegments) / ng) (by omega)
      refine ⟨r, by rw [if_pos hne, val_ofExcept, hr], ?_⟩
      rw [if_pos hne, Int.toNat_natCast]
      have := hqp (by omega)
      have := hr3 p hp hle
      have hv : (integers (q : Int) r).val (p : Int) := ⟨by omega, by omega⟩
      generalize hn : ng = n
      clear hn
      induction n with
      | zero => rfl
      | succ n ih => exact ⟨p, hv, _, ih, rfl⟩
    · have h0 : ng = 0 := by omega
      subst h0
      exact ⟨0, rfl, rfl⟩
  obtain ⟨mpp', d1, d2⟩ := draw
  have hsum : (List.replicate ng (p : Int)).sum = ng * p := by
    rw [List.sum_replicate, nsmul_eq_mul]
  have e2 : pl.sum + 2 * sl.sum + ng * p - 2 * sl.sum - ng * p = pl.sum := by ring
  refine ⟨mpp', d1, _, d2, 2 * sl.sum, ?_, pl, ?_, sl, ?_, rfl⟩
  · rw [mem_rangeStep2_iff, hsum]
    refine ⟨by omega, ?_, ⟨sl.sum - z.minSegments, by ring⟩⟩
    refine Int.lt_add_one_iff.2 (minOpt_ge (by omega) ?_)
    intro k hk
    obtain ⟨m, hm, rfl⟩ := Option.map_eq_some_iff.1 hk
    have := h4 m hm
    omega
  · rw [hsum, e2, minOpt_eq h2]
    exact partition_any pl hpl
  · rw [Int.mul_ediv_cancel_left _ (by norm_num : (2 : Int) ≠ 0)]
    exact partition_any sl hsl

theorem sortCoords_of_lt {l : List K} (h : l.Pairwise (· < ·)) : sortCoords l = l := by
  have hn : l.Nodup := h.imp fun h => h.ne
  exact (sortCoords_perm l).eq_of_pairwise (fun a b _ _ h1 h2 => absurd h2 h1.asymm)
    (sortCoords_sorted l hn) h

/-- Parts in a row over coordinates of either axis. -/
theorem coordsToMix_row {env : Env K} {along : Bool} {other : Strategy K} {a : MixArgs} {p q : ℕ}
    (hp : p.Prime) (h5 : 5 ≤ p) (hq : 0 < q) {u v w : Int} (l : List (MixPart K))
    (hl : ∀ b ∈ l, MixPartOk env along other a p b) (hs : PointSeparated l)
    (hsort : (l.flatMap MixPart.block).Pairwise (· < ·))
    (hqp : l.flatMap MixPart.pols ≠ [] → q ≤ p)
    (h1 : u ≤ (l.flatMap MixPart.pts).length)
    (h2 : ∀ k, a.maxPointsSize = some k → (l.flatMap MixPart.pts).length ≤ k)
    (h3 : v ≤ (l.flatMap MixPart.segs).length)
    (h4 : ∀ k, a.maxSegmentsSize = some k → (l.flatMap MixPart.segs).length ≤ k)
    (h6 : w ≤ (l.flatMap MixPart.pols).length)
    (h7 : ∀ k, a.maxPolygonsSize = some k → (l.flatMap MixPart.pols).length ≤ k) :
    (coordsToMix env along other (a.sizes u v w) q (l.flatMap MixPart.block)).val
      ⟨unpackPoints (l.flatMap MixPart.pts), unpackSegments (l.flatMap MixPart.segs),
        unpackPolygons (l.flatMap MixPart.pols)⟩ := by
  obtain ⟨r1, r2, r3, r4, r5⟩ := row_sums l hl
  refine ⟨(pointSizes l, (segmentSizes l).map (2 * ·),
    List.replicate (l.flatMap MixPart.pols).length (p : Int)), ?_, l.map pieceOf, ?_,
    ⟨l.flatMap MixPart.pts, l.flatMap MixPart.segs, l.flatMap MixPart.pols⟩, ?_, rfl⟩
  · rw [r3, ← r1, ← r2]
    refine pointCounts_parts hp h5 hq (fun h => hqp ?_) r4 r5 ?_ ?_ ?_ ?_ h6 h7
    · rintro e; simp [e] at h
    · rw [r1]; exact h1
    · rw [r1]; exact h2
    · rw [r2]; exact h3
    · rw [r2]; exact h4
  · rw [val_permutations]
    exact pieces_perm l hl
  · rw [sortCoords_of_lt hsort]
    have := row_loop (u := u) (v := v) (w := w) hp h5 l hl hs ⟨[], [], []⟩
    simpa using this

/-- C63: parts in a row, no two of them segments or polygons without points in between, are the parts
of a value of `mixes`.  The first claim is on blocks of first coordinates, the second one on blocks
of second coordinates. -/
theorem C63_mixes (env : Env K) (x : Strategy K) (y : Option (Strategy K)) (a : MixArgs) (p : ℕ)
    (hp : p.Prime) (h5 : 5 ≤ p)
    (hsum : max a.minPolygonBorderSize 3 + max a.minPolygonHolesSize 0 * max a.minPolygonHoleSize 3 ≤ p)
    (l : List (MixPart K)) (hs : PointSeparated l)
    (hsort : (l.flatMap MixPart.block).Pairwise (· < ·))
    (h1 : SizeIn a.minPointsSize a.maxPointsSize (l.flatMap MixPart.pts).length)
    (h2 : SizeIn a.minSegmentsSize a.maxSegmentsSize (l.flatMap MixPart.segs).length)
    (h3 : SizeIn a.minPolygonsSize a.maxPolygonsSize (l.flatMap MixPart.pols).length)
    (htwo : (l.flatMap MixPart.pts ≠ [] ∧ l.flatMap MixPart.segs ≠ []) ∨
      (l.flatMap MixPart.pts ≠ [] ∧ l.flatMap MixPart.pols ≠ []) ∨
      (l.flatMap MixPart.segs ≠ [] ∧ l.flatMap MixPart.pols ≠ []))
    (s : Made (Mix K)) (hm : mixes env x y a = .ok s)
    (hl : ((∀ b ∈ l, MixPartOk env true (y.getD x) a p b) ∧ ∀ c ∈ l.flatMap MixPart.block, x.val c) ∨
      ((∀ b ∈ l, MixPartOk env false x a p b) ∧
        ∀ c ∈ l.flatMap MixPart.block, (y.getD x).val c)) :
    ∃ v, s.2.val v ∧ mixPoints v = l.flatMap MixPart.pts ∧
      mixSegments v = l.flatMap MixPart.segs ∧ mixPolygons v = l.flatMap MixPart.pols := by
  simp only [mixes, exc_bind_ok, validate_ok] at hm
  obtain ⟨w1, -, w2, -, w3, -, w4, -, w5, -, w6, -, hm⟩ := hm
  split at hm
  · simp only [exc_throw_ok] at hm
  · simp only [exc_bind_ok, exc_pure_ok] at hm
    obtain ⟨t, ht, rfl⟩ := hm
    refine ⟨⟨unpackPoints (l.flatMap MixPart.pts), unpackSegments (l.flatMap MixPart.segs),
        unpackPolygons (l.flatMap MixPart.pols)⟩, ?_, ?_⟩
    swap
    · rw [unpackPoints_spec, unpackSegments_spec, unpackPolygons_spec]
      exact ⟨rfl, rfl, rfl⟩
    have l1 := h1.1
    have l2 := h2.1
    have l3 := h3.1
    have hy : yOr x y = y.getD x := by cases y <;> rfl
    have hsum3 : (3 : Int) ≤ max a.minPolygonBorderSize 3 +
        max a.minPolygonHolesSize 0 * max a.minPolygonHoleSize 3 := by
      have e1 : (3 : Int) ≤ max a.minPolygonBorderSize 3 := le_max_right _ _
      have e2 : (0 : Int) ≤ max a.minPolygonHolesSize 0 := le_max_right _ _
      have e3 : (0 : Int) ≤ max a.minPolygonHoleSize 3 := le_trans (by norm_num) (le_max_right _ _)
      have := mul_nonneg e2 e3
      omega
    have key : ∀ {u v w : Int}, a.sizes u v w ∈ a.branches → 0 ≤ w →
        u ≤ (l.flatMap MixPart.pts).length → v ≤ (l.flatMap MixPart.segs).length →
        w ≤ (l.flatMap MixPart.pols).length →
        t.val ⟨unpackPoints (l.flatMap MixPart.pts), unpackSegments (l.flatMap MixPart.segs),
          unpackPolygons (l.flatMap MixPart.pols)⟩ := by
      intro u v w hmem w0 u1 v1 w1
      obtain ⟨r, hr, hsub⟩ := unionMixes_mem ht hmem
      refine hsub _ ?_
      obtain ⟨q, hq, -, -, hq5, -, hqmin⟩ := toNextPrime_spec
        ((a.sizes u v w).polygon.minSize + (a.sizes u v w).polygon.minHoleCount *
          (a.sizes u v w).polygon.minHoleSize) hsum3
      have hqp : q ≤ p := hqmin p hp hsum h5
      simp only [toMixStrategy, exc_bind_ok, exc_pure_ok, hq] at hr
      obtain ⟨_, h', hr⟩ := hr
      cases h'
      subst hr
      have hn : (l.flatMap MixPart.block).Nodup := hsort.imp fun h => h.ne
      have hlen : ∀ {b : Bool} {o : Strategy K}, (∀ c ∈ l, MixPartOk env b o a p c) →
          u + 2 * v + w * q ≤ (l.flatMap MixPart.block).length := by
        intro b o hb
        rw [(row_sums l hb).2.2.1]
        have : w * q ≤ (l.flatMap MixPart.pols).length * p :=
          mul_le_mul w1 (by exact_mod_cast hqp) (by omega) (by omega)
        omega
      rcases hl with ⟨hl, hx⟩ | ⟨hl, hx⟩
      · refine .inl ⟨l.flatMap MixPart.block, ⟨hx, hn, hlen hl, trivial⟩, ?_⟩
        rw [hy]
        exact coordsToMix_row hp h5 (by omega) l hl hs hsort (fun _ => hqp) u1 h1.2 v1 h2.2 w1 h3.2
      · refine .inr ⟨l.flatMap MixPart.block, ⟨?_, hn, hlen hl, trivial⟩, ?_⟩
        · rw [hy]; exact hx
        · exact coordsToMix_row hp h5 (by omega) l hl hs hsort (fun _ => hqp) u1 h1.2 v1 h2.2 w1 h3.2
    have ne : ∀ {m : Option Int} {n : ℕ}, 0 < n → (∀ k, m = some k → (n : Int) ≤ k) →
        mayBeNonEmpty m = true := by
      intro m n hn h
      cases m with
      | none => rfl
      | some k =>
        have := h k rfl
        simp only [mayBeNonEmpty, decide_eq_true_eq]
        omega
    rcases htwo with ⟨p1, s1⟩ | ⟨p1, g1⟩ | ⟨s1, g1⟩
    · have p1 := List.length_pos_of_ne_nil p1
      have s1 := List.length_pos_of_ne_nil s1
      refine key (u := max (max a.minPointsSize 0) 1) (v := max (max a.minSegmentsSize 0) 1)
        (w := max a.minPolygonsSize 0) ?_ (by omega) (by omega) (by omega) (by omega)
      unfold MixArgs.branches
      simp only [ne p1 h1.2, ne s1 h2.2, if_true]
      split <;> simp
    · have p1 := List.length_pos_of_ne_nil p1
      have g1 := List.length_pos_of_ne_nil g1
      refine key (u := max (max a.minPointsSize 0) 1) (v := max a.minSegmentsSize 0)
        (w := max (max a.minPolygonsSize 0) 1) ?_ (by omega) (by omega) (by omega) (by omega)
      unfold MixArgs.branches
      simp only [ne p1 h1.2, ne g1 h3.2, if_true]
      split <;> simp
    · have s1 := List.length_pos_of_ne_nil s1
      have g1 := List.length_pos_of_ne_nil g1
      refine key (u := max a.minPointsSize 0) (v := max (max a.minSegmentsSize 0) 1)
        (w := max (max a.minPolygonsSize 0) 1) ?_ (by omega) (by omega) (by omega) (by omega)
      unfold MixArgs.branches
      simp only [ne s1 h2.2, ne g1 h3.2, if_true]
      split <;> simp

end

end HG
