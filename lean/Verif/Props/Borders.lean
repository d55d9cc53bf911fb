import Verif.Delaunay.Area
import Verif.Props.Holes
import Verif.Props.GeneralPosition

/-!
# C47: the border of a generated polygon is a simple counterclockwise contour
-/

set_option linter.unusedSectionVars false

namespace HG

open Strategy Spec

section
variable {K : Type} [CommRing K] [LinearOrder K] [IsStrictOrderedRing K]

/-- A well-formed border: distinct vertices, at least three of them, no two edges with a wrong
common point, no two edges that cross between points of the coordinate grid, neighbouring edges
never on one line, and the interior to the left. -/
structure Spec.GoodBorder (l : List (Point K)) : Prop where
  nodup : l.Nodup
  simple : SimpleContour l
  nocross : NoProperCross l
  strict : StrictContour l
  ccw : 0 < shoelace l

theorem PolyRun.good {env : Env K} {pts : List (Point K)} {hss : List Int} {ch : Nat → Bool}
    {p : Polygon K} (h : PolyRun env pts hss ch p) : GoodBorder p.border.vertices := by
  obtain ⟨-, m, t, es, hst, D, m', D', B', -, -, -, -, -, -, hB, e, h3⟩ := h
  have sc := hB.sc
  have sc' := sc.compress
  rw [e] at h3 ⊢
  refine ⟨sc'.nodup, sc'.simple, sc'.noProperCross, ?_, ?_⟩
  · rcases compressContour_strict _ sc.nodup with h | h
    · omega
    · exact h
  · rw [shoelace_compress]; exact hB.area_pos

/-- What the `coin_change` function of the `decision` library is expected to do: it represents a
number as a sum. -/
def Spec.Sums (change : Nat → List Nat) : Prop := ∀ n, 2 ≤ n → (change n).sum = n

theorem polygon_run {env : Env K} (hcoin : Sums env.coinChange) {x : Strategy K}
    {y : Option (Strategy K)} {z : PolygonSizes} (h3 : 3 ≤ z.minSize + z.minHoleSize * z.minHoleCount)
    {p : Polygon K} (h : (toPolygonStrategy env x y z).val p) :
    ∃ pts hss ch, pts.Nodup ∧ (∀ q ∈ pts, Drawn x y q) ∧ PolyRun env pts hss ch p := by
  obtain ⟨h, -⟩ := h
  simp only [val_bind', val_filter] at h
  obtain ⟨pts, ⟨hp, -⟩, h⟩ := h
  simp only [pointsToPolygonStrategy, val_mapE] at h
  obtain ⟨r, -, h⟩ := h
  obtain ⟨hn, hpr, hlen, -⟩ := C35_distinct x y _ _ h3 pts hp
  exact ⟨pts, _, _, hn, generalPosition_drawn h3 hp, toPolygon_run hn (hcoin _ hpr.two_le) h⟩

/-- C47: the border of a generated polygon is a simple, strict, counterclockwise contour. -/
theorem C47_polygon_border (env : Env K) (hcoin : Sums env.coinChange) (x : Strategy K)
    (y : Option (Strategy K)) (lo : Int) (hi : Option Int) (nlo : Int) (nhi : Option Int)
    (hlo : Int) (hhi : Option Int) (s : Made (Polygon K))
    (hs : polygons env x y lo hi nlo nhi hlo hhi = .ok s) (p : Polygon K) (h : s.2.val p) :
    GoodBorder p.border.vertices := by
  simp only [polygons, exc_bind_ok, exc_pure_ok, validate_ok] at hs
  obtain ⟨w, -, w', -, w'', -, rfl⟩ := hs
  have h1 : 3 ≤ max lo 3 := le_max_right _ _
  have h2 : 0 ≤ max nlo 0 := le_max_right _ _
  have h3 : 3 ≤ max hlo 3 := le_max_right _ _
  obtain ⟨pts, hss, ch, -, -, hr⟩ := polygon_run hcoin (by dsimp only; nlinarith) h
  exact hr.good

theorem slabLoop_polygons {env : Env K} {alongX : Bool} {coords : List K} {other : Strategy K}
    {z : PolygonSizes} {mp : Int} {Q : Polygon K → Prop}
    (hQ : ∀ x y p, (toPolygonStrategy env x y z).val p → Q p) (left : Nat) (start : Int)
    {ps : List (Polygon K)} (h : (slabLoop env alongX coords other z mp left start).val ps) :
    ∀ p ∈ ps, Q p := by
  have slab : ∀ sub p, (slabPolygon env alongX sub other z).val p → Q p := by
    intro sub p hp
    unfold slabPolygon at hp
    split at hp <;> exact hQ _ _ _ hp
  induction left generalizing start ps with
  | zero =>
    simp only [slabLoop, val_map] at h
    obtain ⟨p, hp, rfl⟩ := h
    simpa using slab _ _ hp
  | succ left ih =>
    simp only [slabLoop, val_bind, val_pure] at h
    obtain ⟨count, _, prime, _, p, hp, e, _, rest, hrest, rfl⟩ := h
    intro q hq
    rcases List.mem_cons.1 hq with rfl | hq
    · exact slab _ _ hp
    · exact ih _ hrest q hq

/-- Polygons of a multipolygon that must have holes come from the polygon strategy. -/
theorem multipolygon_polygons {env : Env K} {x : Strategy K} {y : Option (Strategy K)} {lo : Int}
    {hi : Option Int} {z : PolygonSizes} (hz : z.minHoleCount ≠ 0) {Q : Polygon K → Prop}
    (hQ : ∀ x y p, (toPolygonStrategy env x y z).val p → Q p) {s : Strategy (List (Polygon K))}
    (hs : toMultipolygonStrategy env x y lo hi z = .ok s) {l : List (Polygon K)} (h : s.val l) :
    ∀ p ∈ l, Q p := by
  simp only [toMultipolygonStrategy, exc_bind_ok] at hs
  obtain ⟨mp, -, hs⟩ := hs
  rw [if_neg hz] at hs
  simp only [exc_pure_ok] at hs
  subst hs
  rcases h with ⟨cs, -, h⟩ | ⟨cs, -, h⟩
  all_goals
    simp only [coordsToPolygons, val_bind] at h
    obtain ⟨n, -, h⟩ := h
    exact slabLoop_polygons hQ _ _ h

/-- C47: the same for the polygons of a multipolygon that are asked to have holes. -/
theorem C47_multipolygon_borders (env : Env K) (hcoin : Sums env.coinChange) (x : Strategy K)
    (y : Option (Strategy K)) (lo : Int) (hi : Option Int) (blo : Int) (bhi : Option Int)
    (nlo : Int) (hnlo : 1 ≤ nlo) (nhi : Option Int) (hlo : Int) (hhi : Option Int)
    (s : Made (List (Polygon K)))
    (hs : multipolygons env x y lo hi blo bhi nlo nhi hlo hhi = .ok s) (l : List (Polygon K))
    (h : s.2.val l) : ∀ p ∈ l, GoodBorder p.border.vertices := by
  simp only [multipolygons, exc_bind_ok, exc_pure_ok, validate_ok] at hs
  obtain ⟨w, -, w', -, w'', -, w''', -, s, hs, rfl⟩ := hs
  have h1 : 3 ≤ max blo 3 := le_max_right _ _
  have h3 : 3 ≤ max hlo 3 := le_max_right _ _
  refine multipolygon_polygons (by dsimp only; omega) (fun x y p hp => ?_) hs h
  obtain ⟨pts, hss, ch, -, -, hr⟩ := polygon_run hcoin (by dsimp only; nlinarith) hp
  exact hr.good

end

theorem Sample.coins_sums : Sums Sample.coins := by
  intro n h
  unfold Sample.coins
  split
  · rw [List.sum_replicate, smul_eq_mul]; omega
  · rw [if_neg (by omega), List.sum_append, List.sum_replicate, smul_eq_mul]
    simp; omega

/-- C47 applied to the border of `sample_polygons`. -/
example : GoodBorder ([⟨0, 0⟩, ⟨6, 1⟩, ⟨5, 4⟩, ⟨2, 4⟩] : List (Point ℤ)) := by
  obtain ⟨s, hs, h⟩ := sample_polygons
  exact C47_polygon_border _ Sample.coins_sums _ _ _ _ _ _ _ _ s hs _ h

end HG
