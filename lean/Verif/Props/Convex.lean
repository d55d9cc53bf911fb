import Verif.Lemmas.Hull2
import Verif.Props.Provenance
import Verif.Spec.EnvOk
import Mathlib.Data.List.MinMax

/-!
# C43, C07, C08, C09: convex hulls and convex contours
-/

set_option linter.unusedSectionVars false

namespace HG

open Strategy Spec

section
variable {K : Type} [CommRing K] [LinearOrder K] [IsStrictOrderedRing K]

/-! ## C43 -/

theorem leB_lexLt {p q : Point K} (h : Point.leB p q = true) (hne : p ≠ q) : LexLt p q := by
  rcases (leB_iff p q).1 h with h | ⟨h, h'⟩
  · exact Or.inl h
  · refine Or.inr ⟨h, lt_of_le_of_ne h' fun h'' => hne ?_⟩
    cases p; cases q
    simp_all

/-- The sorted list of different points increases strictly for a linear functional. -/
theorem sorted_functional (pts : List (Point K)) (hn : pts.Nodup) :
    ∃ A B : K, (pySort Point.leB pts).Pairwise fun u v => lin A B u < lin A B v := by
  obtain ⟨A, B, h⟩ := exists_functional pts
  refine ⟨A, B, ?_⟩
  have h1 := pySort_sorted Point.leB leB_total leB_trans pts
  have h2 : (pySort Point.leB pts).Nodup := (pySort_perm _ _).nodup_iff.2 hn
  have h3 : (pySort Point.leB pts).Pairwise LexLt :=
    (List.Pairwise.and h1 h2).imp fun ⟨a, b⟩ => leB_lexLt a b
  rw [List.pairwise_iff_getElem] at h3 ⊢
  intro i j hi hj hij
  exact h _ ((pySort_perm _ _).mem_iff.1 (List.getElem_mem hi)) _
    ((pySort_perm _ _).mem_iff.1 (List.getElem_mem hj)) (h3 i j hi hj hij)

/-- The test of `_to_sub_hull`. -/
def weakPop (a b p : Point K) : Bool := decide (orient a b p = .clockwise)

theorem cross_eq_area2 (a b c : Point K) : cross a b c = area2 a b c := by
  unfold cross area2; ring

theorem weakPop_strict (a b p : Point K) (h : weakPop a b p = true) : area2 a b p < 0 := by
  simp only [weakPop, decide_eq_true_eq, orient_cw_iff, cross_eq_area2] at h
  exact h

theorem weakPop_ok : PopTest (weakPop (K := K)) :=
  ⟨fun a b p h => (weakPop_strict a b p h).le, fun a b p h => by
    simp only [weakPop, decide_eq_false_iff_not, orient_cw_iff, cross_eq_area2, not_lt] at h
    exact h⟩

theorem subHullPop_eq (p : Point K) (l : List (Point K)) : subHullPop p l = popG weakPop p l := by
  induction l with
  | nil => simp [subHullPop, popG]
  | cons b l ih =>
    cases l with
    | nil => simp [subHullPop, popG]
    | cons a l => 
      unfold subHullPop popG
      rw [ih]
      simp [weakPop]

theorem toMaxConvexHull_eq (pts : List (Point K)) :
    toMaxConvexHull pts = hullG weakPop (pySort Point.leB pts) := by
  have : ∀ l : List (Point K), toSubHull l = (scanG weakPop l).reverse := by
    intro l
    unfold toSubHull subHullRev scanG
    congr 2
    funext acc p
    rw [subHullPop_eq]
  unfold toMaxConvexHull hullG
  simp only [this]

/-- C43: for at least two different points, the maximal hull consists of input points; every input
point is on the left of every edge, or on the edge's line; input points that are not in the hull
are strictly on the left of every edge, so that the hull contains all input points of its
boundary. -/
theorem C43_max_hull (pts : List (Point K)) (hn : pts.Nodup) (h2 : 2 ≤ pts.length) :
    let h := toMaxConvexHull pts
    2 ≤ h.length ∧ (∀ p ∈ h, p ∈ pts) ∧
    (∀ i < h.length, ∀ q ∈ pts, 0 ≤ area2 (cyc h i) (cyc h (i + 1)) q) ∧
    (∀ i < h.length, ∀ q ∈ pts, q ∉ h → 0 < area2 (cyc h i) (cyc h (i + 1)) q) := by
  obtain ⟨A, B, hs⟩ := sorted_functional pts hn
  have hmem : ∀ p, p ∈ pySort Point.leB pts ↔ p ∈ pts := fun p => (pySort_perm _ _).mem_iff
  have h2' : 2 ≤ (pySort Point.leB pts).length := by rw [pySort_length]; exact h2
  obtain ⟨g1, g2, g3⟩ := hullG_left weakPop_ok _ h2' hs
  have g4 := hullG_boundary weakPop_ok weakPop_strict _ h2' hs
  rw [← toMaxConvexHull_eq] at g1 g2 g3 g4
  exact ⟨g2, fun p hp => (hmem p).1 (g1 p hp), fun i hi q hq => g3 i hi q ((hmem q).2 hq),
    fun i hi q hq hn => g4 i hi q ((hmem q).2 hq) hn⟩

/-- No point is counted twice unless all points are on one line: the lower and the upper chain have
only their endpoints in common. -/
theorem C43_max_hull_nodup (pts : List (Point K)) (hn : pts.Nodup) (h2 : 2 ≤ pts.length)
    (hc : ∃ a ∈ pts, ∃ b ∈ pts, ∃ c ∈ pts, area2 a b c ≠ 0) : (toMaxConvexHull pts).Nodup := by
  obtain ⟨A, B, hs⟩ := sorted_functional pts hn
  have hmem : ∀ p, p ∈ pySort Point.leB pts ↔ p ∈ pts := fun p => (pySort_perm _ _).mem_iff
  have h2' : 2 ≤ (pySort Point.leB pts).length := by rw [pySort_length]; exact h2
  rw [toMaxConvexHull_eq]
  refine hullG_nodup weakPop_ok _ h2' hs ?_
  obtain ⟨a, ha, b, hb, c, hc, h⟩ := hc
  exact ⟨a, (hmem a).2 ha, b, (hmem b).2 hb, c, (hmem c).2 hc, h⟩

/-- In particular the hull makes no right turn. -/
theorem C43_no_right_turn (pts : List (Point K)) (hn : pts.Nodup) (h2 : 2 ≤ pts.length) (i : Nat)
    (hi : i < (toMaxConvexHull pts).length) :
    0 ≤ area2 (cyc (toMaxConvexHull pts) i) (cyc (toMaxConvexHull pts) (i + 1))
      (cyc (toMaxConvexHull pts) (i + 2)) := by
  obtain ⟨g1, g2, g3, -⟩ := C43_max_hull pts hn h2
  refine g3 i hi _ (g2 _ ?_)
  unfold cyc
  rw [List.getD_eq_getElem _ _ (Nat.mod_lt _ (by omega))]
  exact List.getElem_mem _

/-- Six points: a square, a point inside and the middle of an edge, which is counted. -/
example :
    let pts : List (Point ℤ) := [⟨0, 0⟩, ⟨4, 0⟩, ⟨4, 4⟩, ⟨0, 4⟩, ⟨1, 2⟩, ⟨2, 0⟩]
    pts.Nodup ∧ 2 ≤ pts.length ∧ toMaxConvexHull pts = [⟨0, 0⟩, ⟨2, 0⟩, ⟨4, 0⟩, ⟨4, 4⟩, ⟨0, 4⟩] := by
  decide +kernel

/-! ## The contract on hulls can be met -/

/-- The test of the sample hull. -/
def strictPop (a b p : Point ℤ) : Bool := !decide (0 < cross a b p)

theorem strictPop_turn (a b p : Point ℤ) (h : strictPop a b p = false) : 0 < area2 a b p := by
  simpa [strictPop, cross_eq_area2] using h

theorem strictPop_ok : PopTest strictPop :=
  ⟨fun a b p h => by simpa [strictPop, cross_eq_area2] using h,
    fun a b p h => (strictPop_turn a b p h).le⟩

theorem sampleChain_eq (l : List (Point ℤ)) : Sample.chain l = (scanG strictPop l).reverse := by
  have : ∀ p l, Sample.chainPop p l = popG strictPop p l := by
    intro p l
    induction l with
    | nil => simp [Sample.chainPop, popG]
    | cons b l ih =>
      cases l with
      | nil => simp [Sample.chainPop, popG]
      | cons a l =>
        unfold Sample.chainPop popG
        rw [ih]
        by_cases h : 0 < cross a b p <;> simp [strictPop, h]
  unfold Sample.chain scanG
  congr 2
  funext acc p
  rw [this]

/-- The hull of the sample environment meets the contract for all inputs. -/
theorem sample_hullOk (pts : List (Point ℤ)) : HullOk (Sample.env.convexHull pts) pts := by
  have hmem : ∀ p, p ∈ (pySort Point.leB pts).dedup ↔ p ∈ pts := fun p => by
    rw [List.mem_dedup]; exact (pySort_perm _ _).mem_iff
  obtain ⟨A, B, h⟩ := exists_functional pts
  have h1 : (pySort Point.leB pts).dedup.Pairwise fun p q => Point.leB p q = true :=
    (pySort_sorted Point.leB leB_total leB_trans pts).sublist (List.dedup_sublist _)
  have h2 : (pySort Point.leB pts).dedup.Nodup := List.nodup_dedup _
  have h3 : (pySort Point.leB pts).dedup.Pairwise LexLt :=
    (List.Pairwise.and h1 h2).imp fun ⟨a, b⟩ => leB_lexLt a b
  have hs : (pySort Point.leB pts).dedup.Pairwise fun u v => lin A B u < lin A B v := by
    rw [List.pairwise_iff_getElem] at h3 ⊢
    intro i j hi hj hij
    exact h _ ((hmem _).1 (List.getElem_mem hi)) _ ((hmem _).1 (List.getElem_mem hj))
      (h3 i j hi hj hij)
  have e : Sample.env.convexHull pts = hullG strictPop (pySort Point.leB pts).dedup := by
    change Sample.hull pts = _
    unfold Sample.hull hullG
    simp only [sampleChain_eq]
  rw [e]
  by_cases hl : 2 ≤ (pySort Point.leB pts).dedup.length
  · obtain ⟨g1, g2, g3⟩ := hullG_left strictPop_ok _ hl hs
    exact ⟨fun p hp => (hmem p).1 (g1 p hp), hullG_strict strictPop_ok strictPop_turn _ hl hs,
      fun i hi q hq => g3 i hi q ((hmem q).2 hq), fun _ _ _ _ _ => g2⟩
  · have : hullG strictPop (pySort Point.leB pts).dedup = [] := by
      generalize (pySort Point.leB pts).dedup = s at hl
      match s with
      | [] => rfl
      | [p] => rfl
      | _ :: _ :: _ => simp at hl
    rw [this]
    refine ⟨by simp, ⟨by simp, by simp⟩, by simp, ?_⟩
    intro p hp q hq hne
    exfalso
    have hp' := (hmem p).2 hp
    have hq' := (hmem q).2 hq
    generalize (pySort Point.leB pts).dedup = s at hl hp' hq'
    match s with
    | [] => simp at hp'
    | [r] => simp at hp' hq'; exact hne (hp'.trans hq'.symm)
    | _ :: _ :: _ => simp at hl

/-! ## C07 -/

theorem box_strictlyConvex {b : Box K} (hx : b.minX < b.maxX) (hy : b.minY < b.maxY) :
    StrictlyConvex (boxVertices b) := by
  have h := mul_pos (sub_pos.2 hx) (sub_pos.2 hy)
  constructor
  · simp [boxVertices, hx.ne, hx.ne', hy.ne]
  · intro i j k hij hjk hk
    have hk4 : k < 4 := by simpa [boxVertices] using hk
    have : (i = 0 ∧ j = 1 ∧ k = 2) ∨ (i = 0 ∧ j = 1 ∧ k = 3) ∨ (i = 0 ∧ j = 2 ∧ k = 3) ∨
        (i = 1 ∧ j = 2 ∧ k = 3) := by omega
    rcases this with ⟨rfl, rfl, rfl⟩ | ⟨rfl, rfl, rfl⟩ | ⟨rfl, rfl, rfl⟩ | ⟨rfl, rfl, rfl⟩ <;>
      simp [boxVertices, LeftTurn, area2] <;> nlinarith

theorem triplet_strictlyConvex {a b c : Point K} (h : LeftTurn a b c) :
    StrictlyConvex [a, b, c] := by
  unfold LeftTurn at h
  have hab : a ≠ b := by rintro rfl; simp [area2_self''] at h
  have hac : a ≠ c := by rintro rfl; simp [area2_self] at h
  have hbc : b ≠ c := by rintro rfl; simp [area2_self'] at h
  refine ⟨by simp [hab, hac, hbc], ?_⟩
  intro i j k hij hjk hk
  have hk3 : k < 3 := by simpa using hk
  obtain ⟨rfl, rfl, rfl⟩ : i = 0 ∧ j = 1 ∧ k = 2 := by omega
  simpa [LeftTurn] using h

theorem toCcwTriplet_strictlyConvex {a b c : Point K}
    (h : areVerticesStrict [a, b, c] = true) : StrictlyConvex (toCcwTriplet a b c) := by
  have h0 : cross a b c ≠ 0 := by
    intro h0
    have e : orient a c b = .collinear := by rw [orient_col_iff, cross_swap23, h0, neg_zero]
    simp only [areVerticesStrict, contourOrientations, List.all_map, List.all_eq_true,
      List.mem_range, Function.comp] at h
    have := h 0 (by simp)
    simp [e] at this
  unfold toCcwTriplet
  split
  · rename_i ho
    rw [orient_ccw_iff, cross_eq_area2] at ho
    exact triplet_strictlyConvex ho
  · rename_i ho
    rw [orient_ccw_iff, not_lt] at ho
    refine triplet_strictlyConvex ?_
    unfold LeftTurn
    rw [← cross_eq_area2, cross_swap13]
    have := lt_of_le_of_ne ho h0
    linarith

end

section
variable {K : Type} [LinearOrder K] [Zero K] [Add K] [Sub K] [Predicates K]

theorem box_drawn {x : Strategy K} {y : Option (Strategy K)} {b : Box K}
    (h : (toBoxStrategy x y).val b) : b.minX < b.maxX ∧ b.minY < b.maxY ∧ x.val b.minX ∧
      x.val b.maxX ∧ (yOr x y).val b.minY ∧ (yOr x y).val b.maxY := by
  simp only [toBoxStrategy, val_map, val_prod, sortedPairs_val] at h
  obtain ⟨p, ⟨⟨h1, h2, h3⟩, h4, h5, h6⟩, rfl⟩ := h
  exact ⟨h3, h6, h1, h2, h4, h5⟩

/-- Values of the convex vertex sequences. -/
theorem convexStrategy_cases {env : Env K} {x : Strategy K} {y : Option (Strategy K)} {lo : Int}
    {hi : Option Int} {vs : List (Point K)} (h : (toConvexStrategy env x y lo hi).val vs) :
    (toTriangularStrategy x y).val vs ∨ (toRectangularStrategy x y).val vs ∨
    ∃ pts r c, (toGeneralPositionStrategy x y lo hi).val pts ∧ (∀ l, (r.shuffle l).Perm l) ∧
      convexCandidates env pts r = .ok c ∧ vs = env.convexHull c := by
  have big : ((((toGeneralPositionStrategy x y lo hi).prod convexRandoms).mapE
      fun p => toConvexVertexSequence env p.1 p.2).filter
      fun vs => hasValidSize lo hi vs.length).val vs →
      ∃ pts r c, (toGeneralPositionStrategy x y lo hi).val pts ∧ (∀ l, (r.shuffle l).Perm l) ∧
      convexCandidates env pts r = .ok c ∧ vs = env.convexHull c := by
    intro h
    simp only [val_filter, val_mapE, val_prod] at h
    obtain ⟨⟨⟨pts, r⟩, ⟨h1, h2⟩, h3⟩, -⟩ := h
    simp only [toConvexVertexSequence, exc_bind_ok, exc_pure_ok] at h3
    obtain ⟨c, hc, rfl⟩ := h3
    exact ⟨pts, r, c, h1, h2, hc, rfl⟩
  unfold toConvexStrategy at h
  dsimp only at h
  have rect : (if lo ≤ 4 then toRectangularStrategy x y |||
      (((toGeneralPositionStrategy x y lo hi).prod convexRandoms).mapE
      fun p => toConvexVertexSequence env p.1 p.2).filter
      (fun vs => hasValidSize lo hi vs.length) else
      (((toGeneralPositionStrategy x y lo hi).prod convexRandoms).mapE
      fun p => toConvexVertexSequence env p.1 p.2).filter
      (fun vs => hasValidSize lo hi vs.length)).val vs → (toRectangularStrategy x y).val vs ∨
    ∃ pts r c, (toGeneralPositionStrategy x y lo hi).val pts ∧ (∀ l, (r.shuffle l).Perm l) ∧
      convexCandidates env pts r = .ok c ∧ vs = env.convexHull c := by
    intro h
    split at h
    · rcases h with h | h
      · exact Or.inl h
      · exact Or.inr (big h)
    · exact Or.inr (big h)
  have tri : ∀ {s : Strategy (List (Point K))}, (if lo = 3 then toTriangularStrategy x y ||| s
      else s).val vs → (toTriangularStrategy x y).val vs ∨ s.val vs := by
    intro s h
    split at h
    · exact h
    · exact Or.inr h
  split at h
  · split at h
    · exact Or.inl h
    · exact (tri h).imp id rect
  · exact (tri h).imp id rect

end

section
variable {K : Type} [CommRing K] [LinearOrder K] [IsStrictOrderedRing K]

/-- C07: given that the dependency computes convex hulls, every contour of `convex_contours` is
strictly convex and counterclockwise. -/
theorem C07_convex (env : Env K) (henv : ∀ pts, HullOk (env.convexHull pts) pts) (x : Strategy K)
    (y : Option (Strategy K)) (lo : Int) (hi : Option Int) (s : Made (Contour K))
    (hs : convexContours env x y lo hi = .ok s) (c : Contour K) (h : s.2.val c) :
    StrictlyConvex c.vertices := by
  simp only [convexContours, exc_bind_ok, exc_pure_ok, validate_ok] at hs
  obtain ⟨w, -, rfl⟩ := hs
  obtain ⟨vs, hv, rfl⟩ := h
  rcases convexStrategy_cases hv with h | h | ⟨pts, r, cand, -, -, -, rfl⟩
  · simp only [toTriangularStrategy, val_map, val_filter] at h
    obtain ⟨t, ⟨-, ht⟩, rfl⟩ := h
    exact toCcwTriplet_strictlyConvex ht
  · simp only [toRectangularStrategy, val_map] at h
    obtain ⟨b, hb, rfl⟩ := h
    have := box_drawn hb
    exact box_strictlyConvex this.1 this.2.1
  · exact (henv cand).convex

/-! ## C08 -/

end

section
variable {K : Type} [LinearOrder K] [Zero K] [Add K] [Sub K] [Predicates K]

theorem splitEnds_ok {l : List K} {a b : K} {m : List K} (h : splitEnds l = .ok (a, m, b)) :
    l = a :: m ++ [b] := by
  unfold splitEnds at h
  cases l with
  | nil => simp [throw, throwThe, MonadExceptOf.throw] at h
  | cons c rest =>
    dsimp only at h
    split at h
    · simp [throw, throwThe, MonadExceptOf.throw] at h
    · rename_i d hd
      obtain ⟨l', rfl⟩ := List.getLast?_eq_some_iff.1 hd
      simp [pure, Except.pure] at h
      obtain ⟨rfl, rfl, rfl⟩ := h
      simp

theorem sortedCoords_le (l : List K) :
    (pySort (fun a b : K => decide (a ≤ b)) l).Pairwise (· ≤ ·) := by
  refine (pySort_sorted _ ?_ ?_ l).imp ?_
  · intro a b; simp only [decide_eq_true_eq]; exact le_total a b
  · intro a b c; simp only [decide_eq_true_eq]; exact le_trans
  · intro a b h; simpa using h

/-- Two points of a list between whose coordinates a value lies. -/
def Spec.Between (f : Point K → K) (pts : List (Point K)) (a : K) : Prop :=
  ∃ p ∈ pts, ∃ q ∈ pts, f p ≤ a ∧ a ≤ f q

theorem ends_mem {f : Point K → K} {pts : List (Point K)} {a b : K} {m : List K}
    (h : splitEnds (pySort (fun a b : K => decide (a ≤ b)) (pts.map f)) = .ok (a, m, b)) :
    (∃ p ∈ pts, f p = a) ∧ (∃ q ∈ pts, f q = b) ∧ a ≤ b ∧ (∀ p ∈ pts, a ≤ f p ∧ f p ≤ b) ∧
      (a :: m ++ [b]).Pairwise (· ≤ ·) ∧ m.length + 2 = pts.length := by
  have e := splitEnds_ok h
  have hs := sortedCoords_le (pts.map f)
  have hp := pySort_perm (fun a b : K => decide (a ≤ b)) (pts.map f)
  rw [e] at hs hp
  have ha : a ∈ pts.map f := hp.mem_iff.1 (by simp)
  have hb : b ∈ pts.map f := hp.mem_iff.1 (by simp)
  refine ⟨List.mem_map.1 ha, List.mem_map.1 hb, ?_, ?_, hs, ?_⟩
  · rw [List.pairwise_append] at hs
    exact hs.2.2 a (by simp) b (by simp)
  · intro p hp'
    have : f p ∈ a :: m ++ [b] := hp.mem_iff.2 (List.mem_map_of_mem hp')
    have h1 := hs
    rw [List.cons_append, List.pairwise_cons] at hs
    rw [List.pairwise_append] at h1
    constructor
    · rw [List.cons_append] at this
      rcases List.mem_cons.1 this with h | h
      · rw [h]
      · exact hs.1 _ h
    · rcases List.mem_append.1 this with h | h
      · exact h1.2.2 _ h b (by simp)
      · simp at h; rw [h]
  · have := hp.length_eq
    simp at this
    omega

theorem candidates_between {env : Env K} {pts : List (Point K)} {r : ConvexRandom K}
    {c : List (Point K)} (h : convexCandidates env pts r = .ok c) :
    ∀ v ∈ c, Between Point.x pts v.x ∧ Between Point.y pts v.y := by
  simp only [convexCandidates, exc_bind_ok, exc_pure_ok] at h
  obtain ⟨⟨a, m, b⟩, hx, ⟨a', m', b'⟩, hy, rfl⟩ := h
  obtain ⟨⟨p, hp, ep⟩, ⟨q, hq, eq⟩, hab, -⟩ := ends_mem hx
  obtain ⟨⟨p', hp', ep'⟩, ⟨q', hq', eq'⟩, hab', -⟩ := ends_mem hy
  intro v hv
  obtain ⟨w, -, rfl⟩ := List.mem_map.1 hv
  refine ⟨⟨p, hp, q, hq, ?_, ?_⟩, ⟨p', hp', q', hq', ?_, ?_⟩⟩
  · rw [ep]; exact le_min (le_max_right _ _) hab
  · rw [eq]; exact min_le_right _ _
  · rw [ep']; exact le_min (le_max_right _ _) hab'
  · rw [eq']; exact min_le_right _ _

/-- A value between two values of a strategy. -/
def Spec.InRange (x : Strategy K) (a : K) : Prop := ∃ b c, x.val b ∧ x.val c ∧ b ≤ a ∧ a ≤ c

theorem convexStrategy_range {env : Env K} (henv : ∀ pts, ∀ p ∈ env.convexHull pts, p ∈ pts)
    {x : Strategy K} {y : Option (Strategy K)} {lo : Int} {hi : Option Int} (h3 : 3 ≤ lo)
    {vs : List (Point K)} (hv : (toConvexStrategy env x y lo hi).val vs) :
    ∀ v ∈ vs, InRange x v.x ∧ InRange (y.getD x) v.y := by
  have one : ∀ v : Point K, x.val v.x → (y.getD x).val v.y → InRange x v.x ∧
      InRange (y.getD x) v.y := fun v h1 h2 =>
    ⟨⟨_, _, h1, h1, le_refl _, le_refl _⟩, ⟨_, _, h2, h2, le_refl _, le_refl _⟩⟩
  rcases convexStrategy_cases hv with h | h | ⟨pts, r, cand, hp, -, hc, rfl⟩
  · simp only [toTriangularStrategy, val_map, val_filter, val_prod, toPointStrategy] at h
    obtain ⟨t, ⟨⟨⟨p, ⟨p1, p2⟩, e1⟩, ⟨q, ⟨q1, q2⟩, e2⟩, ⟨u, ⟨u1, u2⟩, e3⟩⟩, ht⟩, rfl⟩ := h
    have key : ∀ v ∈ [t.1, t.2.1, t.2.2], x.val v.x ∧ (y.getD x).val v.y := by
      intro v hv
      simp only [List.mem_cons, List.not_mem_nil, or_false] at hv
      rcases hv with rfl | rfl | rfl
      · rw [e1]; exact ⟨p1, p2⟩
      · rw [e2]; exact ⟨q1, q2⟩
      · rw [e3]; exact ⟨u1, u2⟩
    intro v hv
    have hv' : v ∈ [t.1, t.2.1, t.2.2] := by
      unfold toCcwTriplet at hv
      split at hv
      · exact hv
      · simp at hv ⊢; tauto
    exact one v (key v hv').1 (key v hv').2
  · simp only [toRectangularStrategy, val_map] at h
    obtain ⟨b, hb, rfl⟩ := h
    obtain ⟨-, -, h1, h2, h3, h4⟩ := box_drawn hb
    intro v hv
    simp only [boxVertices, List.mem_cons, List.not_mem_nil, or_false] at hv
    rcases hv with rfl | rfl | rfl | rfl <;> exact one _ (by assumption) (by assumption)
  · intro v hv
    obtain ⟨⟨p, hp', q, hq, h1, h2⟩, ⟨p', hp'', q', hq', h1', h2'⟩⟩ :=
      candidates_between hc v (henv cand v hv)
    have d := generalPosition_drawn h3 hp
    exact ⟨⟨_, _, (drawn_iff.1 (d p hp')).1, (drawn_iff.1 (d q hq)).1, h1, h2⟩,
      ⟨_, _, (drawn_iff.1 (d p' hp'')).2, (drawn_iff.1 (d q' hq')).2, h1', h2'⟩⟩

/-- C08: every vertex of a contour of `convex_contours` lies between drawn coordinates, however
the arithmetic operations round and whatever the orientation predicate says. -/
theorem C08_range (env : Env K) (henv : ∀ pts, ∀ p ∈ env.convexHull pts, p ∈ pts) (x : Strategy K)
    (y : Option (Strategy K)) (lo : Int) (hi : Option Int) (s : Made (Contour K))
    (hs : convexContours env x y lo hi = .ok s) (c : Contour K) (h : s.2.val c) :
    ∀ v ∈ c.vertices, InRange x v.x ∧ InRange (y.getD x) v.y := by
  simp only [convexContours, exc_bind_ok, exc_pure_ok, validate_ok] at hs
  obtain ⟨w, -, rfl⟩ := hs
  obtain ⟨vs, hv, rfl⟩ := h
  exact convexStrategy_range henv (le_max_right _ _) hv

/-! ## C09 -/

end

section
variable {K : Type} [CommRing K] [LinearOrder K] [IsStrictOrderedRing K]

/-- Positions visited by a walk. -/
def Spec.walk (p : Point K) : List (K × K) → List (Point K)
  | [] => []
  | v :: vs => p :: walk ⟨p.x + v.1, p.y + v.2⟩ vs

/-- The positive (negative) parts of the vectors sum up to the extent. -/
theorem vectorCoordinates_parts (l : List (K × Bool)) (a b m : K)
    (ha : ∀ c ∈ l, a ≤ c.1) (hb : ∀ c ∈ l, b ≤ c.1) (hm : ∀ c ∈ l, c.1 ≤ m) (ham : a ≤ m)
    (hbm : b ≤ m) (hs : (l.map Prod.fst).Pairwise (· ≤ ·)) :
    (vectorCoordinates l a b m).length = l.length + 2 ∧
    ((vectorCoordinates l a b m).map fun v => max v 0).sum = m - a ∧
    ((vectorCoordinates l a b m).map fun v => min v 0).sum = b - m := by
  induction l generalizing a b with
  | nil =>
    refine ⟨rfl, ?_, ?_⟩
    · simp [vectorCoordinates, max_eq_left (sub_nonneg.2 ham), max_eq_right (sub_nonpos.2 hbm)]
    · simp [vectorCoordinates, min_eq_right (sub_nonneg.2 ham), min_eq_left (sub_nonpos.2 hbm)]
  | cons c l ih =>
    obtain ⟨c, bit⟩ := c
    have hac : a ≤ c := ha (c, bit) (by simp)
    have hbc : b ≤ c := hb (c, bit) (by simp)
    have hcm : c ≤ m := hm (c, bit) (by simp)
    rw [List.map_cons, List.pairwise_cons] at hs
    have hcl : ∀ d ∈ l, c ≤ d.1 := fun d hd => hs.1 _ (List.mem_map_of_mem hd)
    cases bit
    · obtain ⟨h1, h2, h3⟩ := ih a c (fun d hd => ha d (by simp [hd])) hcl
        (fun d hd => hm d (by simp [hd])) ham hcm hs.2
      refine ⟨by simp [vectorCoordinates, h1], ?_, ?_⟩
      · simp only [vectorCoordinates, List.map_cons, List.sum_cons, h2,
          max_eq_right (sub_nonpos.2 hbc)]
        ring
      · simp only [vectorCoordinates, List.map_cons, List.sum_cons, h3,
          min_eq_left (sub_nonpos.2 hbc)]
        ring
    · obtain ⟨h1, h2, h3⟩ := ih c b hcl (fun d hd => hb d (by simp [hd]))
        (fun d hd => hm d (by simp [hd])) hcm hbm hs.2
      refine ⟨by simp [vectorCoordinates, h1], ?_, ?_⟩
      · simp only [vectorCoordinates, List.map_cons, List.sum_cons, h2,
          max_eq_left (sub_nonneg.2 hac)]
        ring
      · simp only [vectorCoordinates, List.map_cons, List.sum_cons, h3,
          min_eq_right (sub_nonneg.2 hac)]
        ring

theorem sum_parts (l : List K) :
    (l.map fun v => max v 0).sum + (l.map fun v => min v 0).sum = l.sum := by
  induction l with
  | nil => simp
  | cons a l ih =>
    simp only [List.map_cons, List.sum_cons]
    have : max a 0 + min a 0 = a := by
      rcases le_total a 0 with h | h
      · rw [max_eq_right h, min_eq_left h, zero_add]
      · rw [max_eq_left h, min_eq_right h, add_zero]
    calc _ = (max a 0 + min a 0) + ((l.map fun v => max v 0).sum + (l.map fun v => min v 0).sum) := by
          ring
      _ = _ := by rw [this, ih]

/-- Bounds of the sums of parts of a list. -/
theorem sum_le_parts (l : List K) :
    (l.map fun v => min v 0).sum ≤ l.sum ∧ l.sum ≤ (l.map fun v => max v 0).sum ∧
    0 ≤ (l.map fun v => max v 0).sum ∧ (l.map fun v => min v 0).sum ≤ 0 := by
  induction l with
  | nil => simp
  | cons a l ih =>
    simp only [List.map_cons, List.sum_cons]
    obtain ⟨h1, h2, h3, h4⟩ := ih
    exact ⟨add_le_add (min_le_left _ _) h1, add_le_add (le_max_left _ _) h2,
      add_nonneg (le_max_right _ _) h3, add_nonpos (min_le_right _ _) h4⟩

/-- The running minimum is the least partial sum. -/
theorem chainMin_spec (f : K × K → K) (vs : List (K × K)) (pos acc : K) (h : acc ≤ pos) :
    (∀ l1 l2, vs = l1 ++ l2 → chainMin f pos acc vs ≤ pos + (l1.map f).sum) ∧
    chainMin f pos acc vs ≤ acc ∧
    (chainMin f pos acc vs = acc ∨
      ∃ l1 l2, vs = l1 ++ l2 ∧ chainMin f pos acc vs = pos + (l1.map f).sum) := by
  induction vs generalizing pos acc with
  | nil =>
    refine ⟨?_, le_refl _, Or.inl rfl⟩
    intro l1 l2 e
    obtain ⟨rfl, rfl⟩ := List.nil_eq_append_iff.1 e
    simpa [chainMin] using h
  | cons v vs ih =>
    obtain ⟨h1, h2, h3⟩ := ih (pos + f v) (min acc (pos + f v)) (min_le_right _ _)
    have h2' : chainMin f pos acc (v :: vs) ≤ acc := h2.trans (min_le_left _ _)
    refine ⟨?_, h2', ?_⟩
    · intro l1 l2 e
      cases l1 with
      | nil => simpa using h2'.trans h
      | cons w l1 =>
        simp only [List.cons_append, List.cons.injEq] at e
        obtain ⟨rfl, e⟩ := e
        have := h1 l1 l2 e
        simp only [List.map_cons, List.sum_cons]
        rw [← add_assoc]
        exact this
    · rcases h3 with h3 | ⟨l1, l2, e, h3⟩
      · rcases min_choice acc (pos + f v) with hm | hm
        · left; rw [chainMin, h3, hm]
        · right
          exact ⟨[v], vs, rfl, by rw [chainMin, h3, hm]; simp⟩
      · right
        exact ⟨v :: l1, l2, by rw [e]; rfl, by rw [chainMin, h3]; simp [add_assoc]⟩

theorem chainPositions_mem (vs : List (K × K)) (p q : Point K) (h : q ∈ chainPositions p vs) :
    ∃ l1 l2, vs = l1 ++ l2 ∧ q.x = p.x + (l1.map Prod.fst).sum ∧
      q.y = p.y + (l1.map Prod.snd).sum := by
  induction vs generalizing p with
  | nil => simp [chainPositions] at h
  | cons v vs ih =>
    rcases List.mem_cons.1 h with rfl | h
    · exact ⟨[], v :: vs, rfl, by simp, by simp⟩
    · obtain ⟨l1, l2, e, h1, h2⟩ := ih _ h
      exact ⟨v :: l1, l2, by rw [e]; rfl, by rw [h1]; simp [add_assoc], by
        rw [h2]; simp [add_assoc]⟩

theorem mem_chainPositions (l1 l2 : List (K × K)) (p : Point K) (h : l2 ≠ []) :
    (⟨p.x + (l1.map Prod.fst).sum, p.y + (l1.map Prod.snd).sum⟩ : Point K) ∈
      chainPositions p (l1 ++ l2) := by
  induction l1 generalizing p with
  | nil =>
    cases l2 with
    | nil => exact absurd rfl h
    | cons v l2 => simp [chainPositions]
  | cons v l1 ih =>
    have := ih ⟨p.x + v.1, p.y + v.2⟩
    simp only [List.cons_append, chainPositions, List.map_cons, List.sum_cons]
    apply List.mem_cons_of_mem
    rw [← add_assoc, ← add_assoc]
    exact this

/-- Partial sums of a closed sequence differ at most by the sum of positive parts. -/
theorem partial_sums_diff (l : List K) (W : K) (hP : (l.map fun v => max v 0).sum = W)
    (hN : (l.map fun v => min v 0).sum = - W) {a b c d : List K} (h1 : l = a ++ b)
    (h2 : l = c ++ d) : a.sum - c.sum ≤ W := by
  rcases List.append_eq_append_iff.1 (h1.symm.trans h2) with ⟨e, rfl, rfl⟩ | ⟨e, rfl, rfl⟩
  · -- c = a ++ e
    have hs := sum_le_parts e
    have ha := sum_le_parts a
    have hd := sum_le_parts d
    rw [h1] at hN
    simp only [List.map_append, List.sum_append] at hN ⊢
    linarith [hs.1, ha.2.2.2, hd.2.2.2]
  · -- a = c ++ e
    have hs := sum_le_parts e
    have hc := sum_le_parts c
    have hb := sum_le_parts b
    rw [h1] at hP
    simp only [List.map_append, List.sum_append] at hP ⊢
    linarith [hs.2.1, hc.2.2.1, hb.2.2.1]

theorem split_sorted {α : Type} (f : α → Nat) (k : Nat) (l : List α)
    (h : l.Pairwise fun a b => f a ≤ f b) :
    ∃ l1 l2, l = l1 ++ l2 ∧ (∀ a ∈ l1, f a < k) ∧ ∀ a ∈ l2, k ≤ f a := by
  induction l with
  | nil => exact ⟨[], [], rfl, by simp, by simp⟩
  | cons a l ih =>
    rw [List.pairwise_cons] at h
    by_cases ha : f a < k
    · obtain ⟨l1, l2, e, h1, h2⟩ := ih h.2
      exact ⟨a :: l1, l2, by rw [e]; rfl, by simpa [ha] using h1, h2⟩
    · refine ⟨[], a :: l, rfl, by simp, ?_⟩
      intro b hb
      rcases List.mem_cons.1 hb with rfl | hb
      · omega
      · have := h.1 b hb; omega

theorem sum_pos_part {l : List K} (h : ∀ a ∈ l, 0 ≤ a) : (l.map fun v => max v 0).sum = l.sum := by
  induction l with
  | nil => rfl
  | cons a l ih =>
    simp only [List.map_cons, List.sum_cons]
    rw [max_eq_left (h a (by simp)), ih fun b hb => h b (by simp [hb])]

theorem sum_pos_part_neg {l : List K} (h : ∀ a ∈ l, a ≤ 0) : (l.map fun v => max v 0).sum = 0 := by
  induction l with
  | nil => rfl
  | cons a l ih =>
    simp only [List.map_cons, List.sum_cons]
    rw [max_eq_right (h a (by simp)), ih fun b hb => h b (by simp [hb]), add_zero]

/-- The vectors of one axis. -/
theorem axis_parts {pts : List (Point K)} {f : Point K → K} {a b : K} {m : List K}
    (h : splitEnds (pySort (fun a b : K => decide (a ≤ b)) (pts.map f)) = .ok (a, m, b))
    (bits : Nat → Bool) :
    let v := vectorCoordinates (m.zip ((List.range m.length).map bits)) a a b
    v.length = pts.length ∧ (v.map fun w => max w 0).sum = b - a ∧
      (v.map fun w => min w 0).sum = -(b - a) := by
  obtain ⟨-, -, hab, -, hs, hl⟩ := ends_mem h
  have hlen : m.length ≤ ((List.range m.length).map bits).length := by simp
  have hfst : (m.zip ((List.range m.length).map bits)).map Prod.fst = m :=
    List.map_fst_zip hlen
  have hmem : ∀ c ∈ m.zip ((List.range m.length).map bits), c.1 ∈ m := by
    intro c hc
    rw [← hfst]; exact List.mem_map_of_mem hc
  have h1 := hs
  rw [List.cons_append, List.pairwise_cons] at hs
  have hs2 := hs.2
  rw [List.pairwise_append] at hs2
  obtain ⟨g1, g2, g3⟩ := vectorCoordinates_parts (m.zip ((List.range m.length).map bits)) a a b
    (fun c hc => hs.1 _ (by simp [hmem c hc])) (fun c hc => hs.1 _ (by simp [hmem c hc]))
    (fun c hc => hs2.2.2 _ (hmem c hc) b (by simp)) hab hab (by rw [hfst]; exact hs2.1)
  refine ⟨?_, g2, by rw [g3]; ring⟩
  rw [g1, List.length_zip]
  simp
  omega

/-- What the construction of the candidates yields. -/
theorem candidates_spec {env : Env K} {pts : List (Point K)} {r : ConvexRandom K}
    (hr : ∀ l, (r.shuffle l).Perm l) {c : List (Point K)}
    (h : convexCandidates env pts r = .ok c) :
    ∃ (vs : List (K × K)) (a b a' b' : K) ,
      vs.length = pts.length ∧ pts ≠ [] ∧
      vs.Pairwise (fun v w => env.atan2 v.2 v.1 ≤ env.atan2 w.2 w.1) ∧
      ((vs.map Prod.fst).map fun w => max w 0).sum = b - a ∧
      ((vs.map Prod.fst).map fun w => min w 0).sum = -(b - a) ∧
      ((vs.map Prod.snd).map fun w => max w 0).sum = b' - a' ∧
      ((vs.map Prod.snd).map fun w => min w 0).sum = -(b' - a') ∧
      (∀ p ∈ pts, a ≤ p.x ∧ p.x ≤ b) ∧ (∀ p ∈ pts, a' ≤ p.y ∧ p.y ≤ b') ∧
      c = (chainPositions ⟨0, 0⟩ vs).map fun p =>
        ⟨min (max (p.x + (a - chainMin Prod.fst 0 0 vs)) a) b,
          min (max (p.y + (a' - chainMin Prod.snd 0 0 vs)) a') b'⟩ := by
  simp only [convexCandidates, exc_bind_ok, exc_pure_ok] at h
  obtain ⟨⟨a, m, b⟩, hx, ⟨a', m', b'⟩, hy, rfl⟩ := h
  obtain ⟨x1, x2, x3⟩ := axis_parts hx r.xBits
  obtain ⟨y1, y2, y3⟩ := axis_parts hy r.yBits
  dsimp only at x1 x2 x3 y1 y2 y3 ⊢
  generalize vectorCoordinates (m.zip ((List.range m.length).map r.xBits)) a a b = vx at *
  generalize vectorCoordinates (m'.zip ((List.range m'.length).map r.yBits)) a' a' b' = vy at *
  have hsh := hr vy
  have hperm := pySort_perm (fun v w : K × K => decide (env.atan2 v.2 v.1 ≤ env.atan2 w.2 w.1))
    (vx.zip (r.shuffle vy))
  have hlen : (r.shuffle vy).length = pts.length := by rw [hsh.length_eq, y1]
  have pf : ((pySort (fun v w : K × K => decide (env.atan2 v.2 v.1 ≤ env.atan2 w.2 w.1))
      (vx.zip (r.shuffle vy))).map Prod.fst).Perm vx := by
    refine (hperm.map _).trans ?_
    rw [List.map_fst_zip (by omega)]
  have ps : ((pySort (fun v w : K × K => decide (env.atan2 v.2 v.1 ≤ env.atan2 w.2 w.1))
      (vx.zip (r.shuffle vy))).map Prod.snd).Perm vy := by
    refine (hperm.map _).trans ?_
    rw [List.map_snd_zip (by omega)]
    exact hsh
  refine ⟨_, a, b, a', b', ?_, ?_, ?_, ?_, ?_, ?_, ?_, (ends_mem hx).2.2.2.1,
    (ends_mem hy).2.2.2.1, rfl⟩
  · rw [pySort_length, List.length_zip]; omega
  · have := (ends_mem hx).2.2.2.2.2
    rintro rfl; simp at this
  · refine (pySort_sorted _ ?_ ?_ _).imp ?_
    · intro v w; simp only [decide_eq_true_eq]; exact le_total _ _
    · intro v w u; simp only [decide_eq_true_eq]; exact le_trans
    · intro v w h; simpa using h
  · rw [(pf.map _).sum_eq, x2]
  · rw [(pf.map _).sum_eq, x3]
  · rw [(ps.map _).sum_eq, y2]
  · rw [(ps.map _).sum_eq, y3]

theorem walk_eq (vs : List (K × K)) (p : Point K) : walk p vs = chainPositions p vs := by
  induction vs generalizing p with
  | nil => rfl
  | cons v vs ih => simp [walk, chainPositions, ih]

theorem walk_shift (vs : List (K × K)) (p : Point K) (a b : K) :
    (chainPositions p vs).map (fun q => (⟨q.x + a, q.y + b⟩ : Point K)) =
      walk ⟨p.x + a, p.y + b⟩ vs := by
  induction vs generalizing p with
  | nil => rfl
  | cons v vs ih =>
    simp only [chainPositions, List.map_cons, walk, ih]
    rw [show p.x + a + v.1 = p.x + v.1 + a by ring, show p.y + b + v.2 = p.y + v.2 + b by ring]

/-- A shifted partial sum lies in the extent. -/
theorem shift_range {f : K × K → K} {vs l1 l2 : List (K × K)} {a b : K} (e : vs = l1 ++ l2)
    (hP : ((vs.map f).map fun w => max w 0).sum = b - a)
    (hN : ((vs.map f).map fun w => min w 0).sum = -(b - a)) :
    a ≤ (l1.map f).sum + (a - chainMin f 0 0 vs) ∧ (l1.map f).sum + (a - chainMin f 0 0 vs) ≤ b := by
  obtain ⟨h1, -, h3⟩ := chainMin_spec f vs 0 0 (le_refl _)
  have g1 := h1 l1 l2 e
  constructor
  · linarith
  · obtain ⟨k1, k2, ek, h⟩ : ∃ k1 k2, vs = k1 ++ k2 ∧ chainMin f 0 0 vs = (k1.map f).sum := by
      rcases h3 with h3 | ⟨k1, k2, ek, h3⟩
      · exact ⟨[], vs, rfl, by simpa using h3⟩
      · exact ⟨k1, k2, ek, by simpa using h3⟩
    have := partial_sums_diff (vs.map f) (b - a) hP hN (a := l1.map f) (b := l2.map f)
      (c := k1.map f) (d := k2.map f) (by rw [e, List.map_append]) (by rw [ek, List.map_append])
    rw [h]
    linarith

/-- The candidates without clamping. -/
theorem candidates_walk {vs : List (K × K)} {a b a' b' : K}
    (h1 : ((vs.map Prod.fst).map fun w => max w 0).sum = b - a)
    (h2 : ((vs.map Prod.fst).map fun w => min w 0).sum = -(b - a))
    (h3 : ((vs.map Prod.snd).map fun w => max w 0).sum = b' - a')
    (h4 : ((vs.map Prod.snd).map fun w => min w 0).sum = -(b' - a')) :
    (chainPositions ⟨0, 0⟩ vs).map (fun p : Point K =>
        (⟨min (max (p.x + (a - chainMin Prod.fst 0 0 vs)) a) b,
          min (max (p.y + (a' - chainMin Prod.snd 0 0 vs)) a') b'⟩ : Point K)) =
      (chainPositions ⟨0, 0⟩ vs).map (fun p : Point K =>
        (⟨p.x + (a - chainMin Prod.fst 0 0 vs), p.y + (a' - chainMin Prod.snd 0 0 vs)⟩ :
          Point K)) := by
  apply List.map_congr_left
  intro q hq
  obtain ⟨l1, l2, e, e1, e2⟩ := chainPositions_mem vs _ _ hq
  simp only [zero_add] at e1 e2
  obtain ⟨r1, r2⟩ := shift_range e h1 h2
  obtain ⟨r3, r4⟩ := shift_range e h3 h4
  rw [← e1] at r1 r2
  rw [← e2] at r3 r4
  rw [max_eq_left r1, min_eq_left r2, max_eq_left r3, min_eq_left r4]

/-- C09: the candidates of the convex construction are a closed walk along vectors sorted by
angle: the final clamping changes no vertex. -/
theorem C09_no_clamping (env : Env K) (pts : List (Point K)) (r : ConvexRandom K)
    (hr : ∀ l, (r.shuffle l).Perm l) (c : List (Point K))
    (h : convexCandidates env pts r = .ok c) :
    ∃ (p : Point K) (vs : List (K × K)), c = walk p vs ∧ vs.length = pts.length ∧
      vs.Pairwise (fun v w => env.atan2 v.2 v.1 ≤ env.atan2 w.2 w.1) ∧
      (vs.map Prod.fst).sum = 0 ∧ (vs.map Prod.snd).sum = 0 := by
  obtain ⟨vs, a, b, a', b', hl, -, hs, h1, h2, h3, h4, -, -, rfl⟩ := candidates_spec hr h
  refine ⟨⟨0 + (a - chainMin Prod.fst 0 0 vs), 0 + (a' - chainMin Prod.snd 0 0 vs)⟩, vs, ?_, hl, hs,
    ?_, ?_⟩
  · rw [candidates_walk h1 h2 h3 h4]
    exact walk_shift vs _ _ _
  · rw [← sum_parts, h1, h2]; ring
  · rw [← sum_parts, h3, h4]; ring

/-- If some block of vectors makes up the whole extent, the extent is reached. -/
theorem extent_reached {f : K × K → K} {vs l1 l2 l3 : List (K × K)} {a b : K}
    (e : vs = l1 ++ (l2 ++ l3)) (h : (l2.map f).sum = b - a) (hne : vs ≠ [])
    (h0 : (vs.map f).sum = 0) :
    (∃ k1 k2, vs = k1 ++ k2 ∧ k2 ≠ [] ∧ (k1.map f).sum + (a - chainMin f 0 0 vs) ≤ a) ∧
    (∃ k1 k2, vs = k1 ++ k2 ∧ k2 ≠ [] ∧ b ≤ (k1.map f).sum + (a - chainMin f 0 0 vs)) := by
  obtain ⟨g1, -, g3⟩ := chainMin_spec f vs 0 0 (le_refl _)
  constructor
  · rcases g3 with g3 | ⟨k1, k2, ek, g3⟩
    · exact ⟨[], vs, rfl, hne, by rw [g3]; simp⟩
    · by_cases hk : k2 = []
      · subst hk
        rw [List.append_nil] at ek
        subst ek
        refine ⟨[], vs, rfl, hne, ?_⟩
        rw [g3, h0]; simp
      · exact ⟨k1, k2, ek, hk, by rw [g3]; simp⟩
  · have := g1 l1 (l2 ++ l3) e
    by_cases hk : l3 = []
    · subst hk
      refine ⟨[], vs, rfl, hne, ?_⟩
      rw [e] at h0
      simp only [List.map_append, List.sum_append, List.append_nil, List.map_nil, List.sum_nil] at h0 ⊢
      linarith
    · refine ⟨l1 ++ l2, l3, by rw [e, List.append_assoc], hk, ?_⟩
      simp only [List.map_append, List.sum_append]
      linarith

/-- C09, the extent: when angles respect quadrants, the candidates reach the extreme drawn
coordinates in both axes: every given coordinate lies between those of two candidates. -/
theorem C09_extent (env : Env K) (henv : QuadrantOk env.atan2) (pts : List (Point K))
    (r : ConvexRandom K) (hr : ∀ l, (r.shuffle l).Perm l) (c : List (Point K))
    (h : convexCandidates env pts r = .ok c) :
    ∀ p ∈ pts, Between Point.x c p.x ∧ Between Point.y c p.y := by
  obtain ⟨vs, a, b, a', b', hl, hne, hs, h1, h2, h3, h4, hx, hy, rfl⟩ := candidates_spec hr h
  rw [candidates_walk h1 h2 h3 h4]
  have hvs : vs ≠ [] := by
    rintro rfl
    exact hne (List.length_eq_zero_iff.1 hl.symm)
  have hq : vs.Pairwise fun v w => quadrant v.1 v.2 ≤ quadrant w.1 w.2 :=
    hs.imp fun {v w} h => by
      by_contra hc
      exact absurd h (not_le.2 (henv _ _ _ _ (by omega)))
  have q0 : ∀ v : K × K, quadrant v.1 v.2 < 1 → v.1 < 0 := by
    intro v hv
    unfold quadrant at hv
    split at hv <;> split at hv <;> first | assumption | omega
  have q12 : ∀ v : K × K, 1 ≤ quadrant v.1 v.2 → quadrant v.1 v.2 < 3 → 0 ≤ v.1 := by
    intro v hv hv'
    unfold quadrant at hv hv'
    split at hv <;> split at hv <;> simp_all
  have q3 : ∀ v : K × K, 3 ≤ quadrant v.1 v.2 → v.1 < 0 := by
    intro v hv
    unfold quadrant at hv
    split at hv <;> split at hv <;> first | assumption | omega
  have q01 : ∀ v : K × K, quadrant v.1 v.2 < 2 → v.2 < 0 := by
    intro v hv
    unfold quadrant at hv
    split at hv <;> split at hv <;> first | assumption | omega
  have q23 : ∀ v : K × K, 2 ≤ quadrant v.1 v.2 → 0 ≤ v.2 := by
    intro v hv
    unfold quadrant at hv
    split at hv <;> split at hv <;> simp_all
  have reach : ∀ {k1 k2 : List (K × K)} {s t : K}, vs = k1 ++ k2 → k2 ≠ [] →
      (⟨(k1.map Prod.fst).sum + s, (k1.map Prod.snd).sum + t⟩ : Point K) ∈
      (chainPositions ⟨0, 0⟩ vs).map fun p : Point K => (⟨p.x + s, p.y + t⟩ : Point K) := by
    intro k1 k2 s t e hk
    have := mem_chainPositions k1 k2 ⟨0, 0⟩ hk
    rw [← e] at this
    simp only [zero_add] at this
    exact List.mem_map.2 ⟨_, this, rfl⟩
  intro p hp
  constructor
  · obtain ⟨l1, m, e, f1, f2⟩ := split_sorted (fun v : K × K => quadrant v.1 v.2) 1 vs hq
    have hq' := hq
    rw [e, List.pairwise_append] at hq'
    obtain ⟨l2, l3, e', f3, f4⟩ := split_sorted (fun v : K × K => quadrant v.1 v.2) 3 m hq'.2.1
    have e2 : vs = l1 ++ (l2 ++ l3) := by rw [e, e']
    have hsum : (l2.map Prod.fst).sum = b - a := by
      rw [← h1, e2]
      simp only [List.map_append, List.sum_append]
      rw [sum_pos_part_neg (l := l1.map Prod.fst), sum_pos_part (l := l2.map Prod.fst),
        sum_pos_part_neg (l := l3.map Prod.fst), zero_add, add_zero]
      · intro x hx
        obtain ⟨v, hv, rfl⟩ := List.mem_map.1 hx
        exact (q3 v (f4 v hv)).le
      · intro x hx
        obtain ⟨v, hv, rfl⟩ := List.mem_map.1 hx
        exact q12 v (f2 v (by rw [e']; simp [hv])) (f3 v hv)
      · intro x hx
        obtain ⟨v, hv, rfl⟩ := List.mem_map.1 hx
        exact (q0 v (f1 v hv)).le
    obtain ⟨⟨k1, k2, ek, hk, g⟩, ⟨j1, j2, ej, hj, g'⟩⟩ := extent_reached e2 hsum hvs (by
      rw [← sum_parts, h1, h2]; ring)
    exact ⟨_, reach ek hk, _, reach ej hj, g.trans (hx p hp).1, (hx p hp).2.trans g'⟩
  · obtain ⟨l1, m, e, f1, f2⟩ := split_sorted (fun v : K × K => quadrant v.1 v.2) 2 vs hq
    have e2 : vs = l1 ++ (m ++ []) := by rw [e]; simp
    have hsum : (m.map Prod.snd).sum = b' - a' := by
      rw [← h3, e]
      simp only [List.map_append, List.sum_append]
      rw [sum_pos_part_neg (l := l1.map Prod.snd), sum_pos_part (l := m.map Prod.snd), zero_add]
      · intro x hx
        obtain ⟨v, hv, rfl⟩ := List.mem_map.1 hx
        exact q23 v (f2 v hv)
      · intro x hx
        obtain ⟨v, hv, rfl⟩ := List.mem_map.1 hx
        exact (q01 v (f1 v hv)).le
    obtain ⟨⟨k1, k2, ek, hk, g⟩, ⟨j1, j2, ej, hj, g'⟩⟩ := extent_reached e2 hsum hvs (by
      rw [← sum_parts, h3, h4]; ring)
    exact ⟨_, reach ek hk, _, reach ej hj, g.trans (hy p hp).1, (hy p hp).2.trans g'⟩

end

/-! ## Concrete cases -/

/-- The angle function of the sample environment respects quadrants. -/
theorem sample_quadrantOk : QuadrantOk Sample.env.atan2 := by
  intro x y x' y' h
  change Sample.pseudoAngle y x < Sample.pseudoAngle y' x'
  have bnd : ∀ x y : ℤ, -1 ≤ (x : ℚ) / (|x| + |y| : ℤ) ∧ (x : ℚ) / (|x| + |y| : ℤ) ≤ 1 := by
    intro x y
    have h1 : -(|x| + |y|) ≤ x := by have := neg_abs_le x; have := abs_nonneg y; omega
    have h2 : x ≤ |x| + |y| := by have := le_abs_self x; have := abs_nonneg y; omega
    have h1' : -((|x| + |y| : ℤ) : ℚ) ≤ x := by exact_mod_cast h1
    have h2' : (x : ℚ) ≤ (|x| + |y| : ℤ) := by exact_mod_cast h2
    have h0 : (0 : ℚ) ≤ (|x| + |y| : ℤ) := by
      have := abs_nonneg x; have := abs_nonneg y
      exact_mod_cast (by omega : (0 : ℤ) ≤ |x| + |y|)
    rcases h0.eq_or_lt with h0 | h0
    · rw [← h0, div_zero]; constructor <;> norm_num
    · rw [le_div_iff₀ h0, div_le_one h0]
      exact ⟨by linarith, h2'⟩
  have pos : ∀ x y : ℤ, 0 ≤ x → 0 ≤ (x : ℚ) / (|x| + |y| : ℤ) := by
    intro x y hx
    have := abs_nonneg x; have := abs_nonneg y
    apply div_nonneg
    · exact_mod_cast hx
    · exact_mod_cast (by omega : (0 : ℤ) ≤ |x| + |y|)
  have neg : ∀ x y : ℤ, x < 0 → (x : ℚ) / (|x| + |y| : ℤ) < 0 := by
    intro x y hx
    have := abs_nonneg y
    have := abs_pos.2 hx.ne
    apply div_neg_of_neg_of_pos
    · exact_mod_cast hx
    · exact_mod_cast (by omega : (0 : ℤ) < |x| + |y|)
  have lt1 : ∀ x y : ℤ, y < 0 → (x : ℚ) / (|x| + |y| : ℤ) < 1 := by
    intro x y hy
    have := abs_nonneg x
    have h3 := abs_pos.2 hy.ne
    have := le_abs_self x
    rw [div_lt_one (by exact_mod_cast (by omega : (0 : ℤ) < |x| + |y|))]
    exact_mod_cast (by omega : x < |x| + |y|)
  have b := bnd x y
  have b' := bnd x' y'
  have p := pos x y
  have p' := pos x' y'
  have n := neg x y
  have n' := neg x' y'
  have l := lt1 x y
  have l' := lt1 x' y'
  unfold quadrant at h
  unfold Sample.pseudoAngle
  generalize (x : ℚ) / (|x| + |y| : ℤ) = u at *
  generalize (x' : ℚ) / (|x'| + |y'| : ℤ) = u' at *
  rcases lt_or_ge x 0 with hx | hx <;> rcases lt_or_ge x' 0 with hx' | hx' <;>
  rcases lt_or_ge y 0 with hy | hy <;> rcases lt_or_ge y' 0 with hy' | hy' <;>
    split_ifs at h ⊢ <;>
    first
    | (exfalso; omega)
    | (try have p := p hx
       try have p' := p' hx'
       try have n := n hx
       try have n' := n' hx'
       try have l := l hy
       try have l' := l' hy'
       linarith [b.1, b.2, b'.1, b'.2])

/-- A draw of the random source. -/
def sampleRandom : ConvexRandom ℤ := ⟨fun i => i % 2 = 0, fun i => i % 3 = 0, fun l => l⟩

theorem sample_candidates : convexCandidates Sample.env (Sample.parab 7) sampleRandom =
    .ok [⟨2, 4⟩, ⟨0, 3⟩, ⟨2, 1⟩, ⟨4, 0⟩, ⟨5, 1⟩, ⟨6, 3⟩, ⟨4, 4⟩] := by decide +kernel

/-- The hypotheses of C07 and C08 are met by a draw of a heptagon. -/
theorem sample_convex :
    (∀ pts, HullOk (Sample.env.convexHull pts) pts) ∧
    ∃ s, convexContours Sample.env (sampledFrom (Sample.coords 7)) none 7 none = .ok s ∧
      s.2.val ⟨[⟨0, 3⟩, ⟨2, 1⟩, ⟨4, 0⟩, ⟨5, 1⟩, ⟨6, 3⟩, ⟨4, 4⟩, ⟨2, 4⟩]⟩ := by
  refine ⟨sample_hullOk, _, rfl, ?_⟩
  refine ⟨[⟨0, 3⟩, ⟨2, 1⟩, ⟨4, 0⟩, ⟨5, 1⟩, ⟨6, 3⟩, ⟨4, 4⟩, ⟨2, 4⟩], ?_, rfl⟩
  simp only [toConvexStrategy, show ¬ (max 7 3 : Int) ≤ 4 by decide,
    show ¬ (max 7 3 : Int) = 3 by decide, if_false, val_filter, val_mapE, val_prod]
  refine ⟨⟨(Sample.parab 7, sampleRandom), ⟨Sample.generalPosition7 _ none (by decide +kernel)
    trivial, fun l => List.Perm.refl _⟩, ?_⟩, by decide +kernel⟩
  simp only [toConvexVertexSequence, sample_candidates]
  decide +kernel

/-- The hypotheses of C09 are met by the same draw. -/
example : QuadrantOk Sample.env.atan2 ∧ (∀ l, (sampleRandom.shuffle l).Perm l) ∧
    ∃ c, convexCandidates Sample.env (Sample.parab 7) sampleRandom = .ok c :=
  ⟨sample_quadrantOk, fun _ => List.Perm.refl _, _, sample_candidates⟩

end HG
