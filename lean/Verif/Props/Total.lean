import Verif.Delaunay.TotalPoly
import Verif.Lemmas.FuelMono
import Verif.Props.Feasible
import Verif.Props.Generic

/-!
# C48, C49, C50: no draw raises an exception, and every draw finishes

The loops of the library have a bound on the number of steps in the model, `env.fuel`; exceeding it
is the exception `.outOfFuel`, which stands for a loop that does not end.  Here: the geometric
constructions raise nothing else, and they do not exceed a bound of `(n + 2) ^ 2` steps per loop for
`n` points.
-/

set_option linter.unusedSectionVars false

namespace HG

open Strategy Spec

section
variable {K : Type} [CommRing K] [LinearOrder K] [IsStrictOrderedRing K]

/-! ## Specification -/

/-- The exception is not one of the library: a loop was stopped although it had less than
`(n + 2) ^ 2` steps for some number `n` of different points. -/
def Spec.OnlyStopped (env : Env K) (G : Point K → Prop) (e : Exc) : Prop :=
  e = .outOfFuel ∧ ∃ pts : List (Point K), pts.Nodup ∧ (∀ q ∈ pts, G q) ∧
    env.fuel < (pts.length + 2) * (pts.length + 2)

/-- The number of steps allowed for a loop suffices for all points. -/
def Spec.EnoughSteps (env : Env K) (G : Point K → Prop) : Prop :=
  ∀ pts : List (Point K), pts.Nodup → (∀ q ∈ pts, G q) →
    (pts.length + 2) * (pts.length + 2) ≤ env.fuel

theorem Spec.OnlyStopped.not {env : Env K} {G : Point K → Prop} {e : Exc}
    (h : OnlyStopped env G e) : ¬ EnoughSteps env G := by
  obtain ⟨-, pts, h1, h2, h3⟩ := h
  exact fun h => absurd (h pts h1 h2) (by omega)

/-- Finitely many points can be drawn if finitely many coordinates can. -/
theorem enoughSteps_of {env : Env K} {x : Strategy K} {y : Option (Strategy K)} {xs ys : List K}
    (hx : ∀ a, x.val a → a ∈ xs) (hy : ∀ b, (y.getD x).val b → b ∈ ys)
    (hf : (xs.length * ys.length + 2) * (xs.length * ys.length + 2) ≤ env.fuel) :
    EnoughSteps env (Drawn x y) := by
  intro pts hn hd
  have : pts.length ≤ xs.length * ys.length := by
    have h : (pts.map fun p => (p.x, p.y)).length ≤ (xs ×ˢ ys).length := by
      refine (List.Nodup.subperm (hn.map fun p q h => ?_) fun p hp => ?_).length_le
      · cases p; cases q; simpa using h
      · obtain ⟨q, hq, rfl⟩ := List.mem_map.1 hp
        have := drawn_iff.1 (hd q hq)
        exact List.mem_product.2 ⟨hx _ this.1, hy _ this.2⟩
    rwa [List.length_map, List.length_product] at h
  exact (Nat.mul_le_mul (by omega) (by omega)).trans hf

theorem scattered_noThree {G : Point K → Prop} {pts : List (Point K)} (h : Scattered G pts)
    (hgen : ∀ a b c, G a → G b → G c → a ≠ b → a ≠ c → b ≠ c → Collinear a b c →
      (a.x = b.x ∧ a.x = c.x) ∨ (a.y = b.y ∧ a.y = c.y)) : NoThree pts := by
  intro a ha b hb c hc hab hac hbc hcol
  rcases hgen a b c (h.sub a ha) (h.sub b hb) (h.sub c hc) hab hac hbc hcol with k | k
  · exact h.column a ha b hb c hc hab hac hbc k
  · exact h.row a ha b hb c hc hab hac hbc k

theorem Spec.Coins.sums {change : Nat → List Nat} (h : Coins change) : Sums change :=
  fun n hn => (h n hn).1

/-! ## Constructions -/

theorem contourFails_stopped {env : Env K} (hcoin : Coins env.coinChange) {G : Point K → Prop}
    (hgen : ∀ a b c, G a → G b → G c → a ≠ b → a ≠ c → b ≠ c → Collinear a b c →
      (a.x = b.x ∧ a.x = c.x) ∨ (a.y = b.y ∧ a.y = c.y)) {e : Exc}
    (h : ContourFails env G e) : OnlyStopped env G e := by
  obtain ⟨pts, n, hs, h3, hn, h⟩ := h
  obtain ⟨c1, c2⟩ := hcoin pts.length (by omega)
  have tot : ∀ f, (pts.length + 2) * (pts.length + 2) ≤ f →
      ∃ vs, toVertexSequence f env.coinChange env.edgeOrder pts n = .ok vs := fun f hf =>
    toVertexSequence_total n hs.nodup (by rintro rfl; simp at hn; omega) c1 c2
      (scattered_noThree hs hgen) hf
  refine ⟨?_, pts, hs.nodup, hs.sub, ?_⟩
  · obtain ⟨vs, hv⟩ := tot (max env.fuel ((pts.length + 2) * (pts.length + 2))) (le_max_right _ _)
    exact (toVertexSequence_sub (le_max_left _ _) _ _ _).err hv h
  · by_contra hlt
    obtain ⟨vs, hv⟩ := tot env.fuel (by omega)
    rw [hv] at h
    cases h

theorem not_allCol {pts : List (Point K)}
    (h : ∃ a ∈ pts, ∃ b ∈ pts, ∃ c ∈ pts, ¬ Collinear a b c) : ¬ AllCol pts := by
  obtain ⟨a, ha, b, hb, c, hc, h⟩ := h
  intro hall
  apply h
  have := hall a ha b hb c hc
  unfold cross at this
  unfold Collinear area2
  linarith

theorem stopped_of_total {env : Env K} {G : Point K → Prop} {pts : List (Point K)}
    (hn : pts.Nodup) (hs : ∀ q ∈ pts, G q) {b : Int} {holes : List Int} {ch : Nat → Bool}
    (tot : ∀ f, (pts.length + 2) * (pts.length + 2) ≤ f →
      ∃ p, toPolygon (env.withFuel f) pts b holes ch = .ok p) {e : Exc}
    (h : toPolygon env pts b holes ch = .error e) : OnlyStopped env G e := by
  refine ⟨?_, pts, hn, hs, ?_⟩
  · obtain ⟨p, hp⟩ := tot (max env.fuel ((pts.length + 2) * (pts.length + 2))) (le_max_right _ _)
    exact (toPolygon_sub (le_max_left _ _) _ _ _ _).err hp h
  · by_contra hlt
    obtain ⟨p, hp⟩ := tot env.fuel (by omega)
    have : env.withFuel env.fuel = env := rfl
    rw [this, h] at hp
    cases hp

theorem polygonFails_stopped {env : Env K} (hcoin : Coins env.coinChange)
    (hset : ∀ l, (env.setOrder l).Perm l) (hcheck : SoundCheck env.segmentsCrossOrOverlap)
    {G : Point K → Prop}
    (hgen : ∀ a b c, G a → G b → G c → a ≠ b → a ≠ c → b ≠ c → Collinear a b c →
      (a.x = b.x ∧ a.x = c.x) ∨ (a.y = b.y ∧ a.y = c.y)) {most : Option Int} {e : Exc}
    (h : PolygonFails env G most e) : OnlyStopped env G e := by
  obtain ⟨pts, b, holes, ch, hs, hc, h3, -, -, -, hh, hsum, h⟩ := h
  refine stopped_of_total hs.nodup hs.sub (fun f hf => ?_) h
  rw [toPolygon_check (env := env.withFuel f) hcoin.sums hset hcheck hs.nodup
    (scattered_noThree hs hgen)]
  exact toPolygon_total (env := { env.withFuel f with segmentsCrossOrOverlap := fun _ => false })
    hcoin hset (fun _ => rfl) hs.nodup (not_allCol hc) (scattered_noThree hs hgen) hf b holes ch hh
    hsum

theorem polygonFails_stopped_nil {env : Env K} (hcoin : Coins env.coinChange)
    {G : Point K → Prop} {m : Int} (hm : m ≤ 0) {e : Exc}
    (h : PolygonFails env G (some m) e) : OnlyStopped env G e := by
  obtain ⟨pts, b, holes, ch, hs, hc, h3, -, -, hmost, -, -, h⟩ := h
  have h0 : holes = [] := by
    have := hmost m rfl
    rw [max_eq_right hm] at this
    exact List.length_eq_zero_iff.1 (by omega)
  subst h0
  exact stopped_of_total hs.nodup hs.sub
    (fun f hf => toPolygon_total_nil (env := env.withFuel f) hcoin hs.nodup (not_allCol hc) hf b ch) h

/-! ## Strategies that never fail -/

/-- C48 for `points`, `segments`, `triangular_contours`. -/
theorem C48_points (x : Strategy K) (y : Option (Strategy K)) (hx : ∀ e, ¬ x.err e)
    (hy : ∀ e, ¬ (y.getD x).err e) (e : Exc) :
    (∀ s, points x y = .ok s → ¬ s.2.err e) ∧ (∀ s, segments x y = .ok s → ¬ s.2.err e) ∧
    ∀ s, triangularContours x y = .ok s → ¬ s.2.err e := by
  have rx : Rich x 0 := ⟨hx, [], by simp, by simp, by simp⟩
  have ry : Rich (y.getD x) 0 := ⟨hy, [], by simp, by simp, by simp⟩
  refine ⟨fun s hs => ?_, fun s hs => ?_, fun s hs => ?_⟩
  · simp only [points, exc_pure_ok] at hs
    subst hs
    exact point_err rx ry e
  · simp only [segments, exc_pure_ok] at hs
    subst hs
    exact segment_err rx ry e
  · simp only [triangularContours, exc_pure_ok] at hs
    subst hs
    rw [err_map]
    exact triangular_err rx ry e

/-- C48 for `boxes`, `rectangular_contours`: two values of either coordinate suffice. -/
theorem C48_boxes (x : Strategy K) (y : Option (Strategy K)) (hx : Rich x 2)
    (hy : Rich (y.getD x) 2) (e : Exc) :
    (∀ s, boxes x y = .ok s → ¬ s.2.err e) ∧ ∀ s, rectangularContours x y = .ok s → ¬ s.2.err e := by
  have h := rectangular_err hx hy e
  refine ⟨fun s hs => ?_, fun s hs => ?_⟩
  · simp only [boxes, exc_pure_ok] at hs
    subst hs
    simpa only [toRectangularStrategy, err_map] using h
  · simp only [rectangularContours, exc_pure_ok] at hs
    subst hs
    rwa [err_map]

/-- C48 for `convex_contours`. -/
theorem C48_convex_contours (env : Env K) (x : Strategy K) (y : Option (Strategy K)) (lo : Int)
    (hi : Option Int) (p : ℕ) (hp : p.Prime) (hp1 : 5 ≤ p ∧ max lo 3 ≤ p) (hx : Rich x p)
    (hy : Rich (y.getD x) p) (s : Made (Contour K)) (hs : convexContours env x y lo hi = .ok s)
    (e : Exc) : ¬ s.2.err e := by
  simp only [convexContours, exc_bind_ok, exc_pure_ok, validate_ok] at hs
  obtain ⟨w, ⟨hb, -⟩, rfl⟩ := hs
  rw [err_map]
  exact convexStrategy_err (le_max_right _ _) hp hp1.1 hp1.2 hx hy e

/-- C48 for `star_contours`. -/
theorem C48_star_contours (env : Env K) (x : Strategy K) (y : Option (Strategy K)) (lo : Int)
    (hi : Option Int) (p : ℕ) (hp : p.Prime) (hp1 : 5 ≤ p ∧ max lo 3 ≤ p) (hx : Rich x p)
    (hy : Rich (y.getD x) p) (s : Made (Contour K)) (hs : starContours env x y lo hi = .ok s)
    (e : Exc) : ¬ s.2.err e := by
  simp only [starContours, exc_bind_ok, exc_pure_ok, validate_ok] at hs
  obtain ⟨w, ⟨hb, -⟩, rfl⟩ := hs
  simp only [toStarStrategy, err_map, err_filter]
  exact generalPosition_err (le_max_right _ _) hp hp1.1 hp1.2 hx hy e

/-- C48 for `multipoints`: it is enough that sufficiently many different points can be drawn. -/
theorem C48_multipoints (x : Strategy K) (y : Option (Strategy K)) (lo : Int) (hi : Option Int)
    (hx : ∀ e, ¬ x.err e) (hy : ∀ e, ¬ (y.getD x).err e) (l : List (Point K)) (hl : l.Nodup)
    (hd : ∀ q ∈ l, Drawn x y q) (hlo : max lo 1 ≤ l.length) (s : Made (List (Point K)))
    (hs : multipoints x y lo hi = .ok s) (e : Exc) : ¬ s.2.err e := by
  simp only [multipoints, exc_bind_ok, exc_pure_ok, validate_ok] at hs
  obtain ⟨w, ⟨hb, -⟩, rfl⟩ := hs
  obtain ⟨-, b2⟩ := okBounds_of hb
  simp only [toMultipointStrategy, toUniquePointSequenceStrategy, err_uniqueLists]
  rintro (h | ⟨h, -⟩ | ⟨h, -⟩)
  · exact (C48_points x y hx hy e).1 _ rfl h
  · apply h
    cases hi with
    | none => trivial
    | some m => exact b2 m rfl
  · exact h ⟨l, fun q hq => ⟨(q.x, q.y), drawn_iff.1 (hd q hq), rfl⟩, hl, hlo⟩

/-! ## Strategies with triangulations -/

/-- C48 for `contours`: without slanted collinear triples, no draw raises an exception. -/
theorem C48_contours (env : Env K) (hcoin : Coins env.coinChange) (x : Strategy K)
    (y : Option (Strategy K)) (hgen : GenericCoords x y) (lo : Int)
    (hi : Option Int) (p : ℕ) (hp : p.Prime) (hp1 : 5 ≤ p ∧ max lo 3 ≤ p) (hx : Rich x p)
    (hy : Rich (y.getD x) p) (s : Made (Contour K)) (hs : contours env x y lo hi = .ok s)
    (e : Exc) (h : s.2.err e) : OnlyStopped env (Drawn x y) e :=
  contourFails_stopped hcoin hgen (C36_contours env x y lo hi p hp hp1 hx hy s hs e h)

/-- C48 for `concave_contours`. -/
theorem C48_concave_contours (env : Env K) (hcoin : Coins env.coinChange) (x : Strategy K)
    (y : Option (Strategy K)) (hgen : GenericCoords x y) (lo : Int)
    (hi : Option Int) (p : ℕ) (hp : p.Prime) (hp1 : 5 ≤ p ∧ max lo 4 ≤ p) (hx : Rich x p)
    (hy : Rich (y.getD x) p) (s : Made (Contour K)) (hs : concaveContours env x y lo hi = .ok s)
    (e : Exc) (h : s.2.err e) : OnlyStopped env (Drawn x y) e :=
  contourFails_stopped hcoin hgen (C36_concave_contours env x y lo hi p hp hp1 hx hy s hs e h)

/-- C48 for `multisegments`. -/
theorem C48_multisegments (env : Env K) (hcoin : Coins env.coinChange) (x : Strategy K)
    (y : Option (Strategy K)) (hgen : GenericCoords x y) (lo : Int)
    (hi : Option Int) (p : ℕ) (hp : p.Prime) (hp1 : 5 ≤ p ∧ max lo 2 < p) (hx : Rich x p)
    (hy : Rich (y.getD x) p) (s : Made (List (Segment K)))
    (hs : multisegments env x y lo hi = .ok s) (e : Exc) (h : s.2.err e) :
    OnlyStopped env (Drawn x y) e :=
  contourFails_stopped hcoin hgen (C36_multisegments env x y lo hi p hp hp1 hx hy s hs e h)

/-- C48 for `multicontours`. -/
theorem C48_multicontours (env : Env K) (hcoin : Coins env.coinChange) (x : Strategy K)
    (y : Option (Strategy K)) (hgen : GenericCoords x y) (lo : Int)
    (hi : Option Int) (clo : Int) (chi : Option Int) (p : ℕ) (hp : p.Prime)
    (hp1 : 5 ≤ p ∧ max lo 2 * max clo 3 ≤ p) (hx : Rich x p) (hy : Rich (y.getD x) p)
    (s : Made (List (Contour K))) (hs : multicontours env x y lo hi clo chi = .ok s) (e : Exc)
    (h : s.2.err e) : OnlyStopped env (Drawn x y) e :=
  contourFails_stopped hcoin hgen
    (C36_multicontours env x y lo hi clo chi p hp hp1 hx hy s hs e h)

/-- C48 for `polygons`. -/
theorem C48_polygons (env : Env K) (hcoin : Coins env.coinChange)
    (hset : ∀ l, (env.setOrder l).Perm l) (hcheck : SoundCheck env.segmentsCrossOrOverlap)
    (henv : ∀ pts, HullOk (env.convexHull pts) pts) (x : Strategy K)
    (y : Option (Strategy K)) (hgen : GenericCoords x y) (lo : Int) (hi : Option Int) (nlo : Int)
    (nhi : Option Int) (hlo : Int) (hhi : Option Int) (p : ℕ) (hp : p.Prime)
    (hp1 : 5 ≤ p ∧ max lo 3 + max hlo 3 * max nlo 0 ≤ p) (hx : Rich x p)
    (hy : Rich (y.getD x) p) (s : Made (Polygon K))
    (hs : polygons env x y lo hi nlo nhi hlo hhi = .ok s) (e : Exc) (h : s.2.err e) :
    OnlyStopped env (Drawn x y) e :=
  polygonFails_stopped hcoin hset hcheck hgen
    (C36_polygons env henv x y lo hi nlo nhi hlo hhi p hp hp1 hx hy s hs e h)

/-- C48 for `multipolygons`. -/
theorem C48_multipolygons (env : Env K) (hcoin : Coins env.coinChange)
    (hset : ∀ l, (env.setOrder l).Perm l) (hcheck : SoundCheck env.segmentsCrossOrOverlap)
    (henv : ∀ pts, HullOk (env.convexHull pts) pts)
    (x : Strategy K) (y : Option (Strategy K)) (hgen : GenericCoords x y) (lo : Int)
    (hi : Option Int) (blo : Int)
    (bhi : Option Int) (nlo : Int) (nhi : Option Int) (hlo : Int) (hhi : Option Int)
    (hnlo : 0 ≤ nlo) (p n : ℕ) (hp : p.Prime) (hp1 : 5 ≤ p ∧ max blo 3 + max hlo 3 * nlo ≤ p)
    (hn : n.Prime) (hn1 : max lo 2 * p ≤ n) (hx : Rich x n) (hy : Rich (y.getD x) n)
    (s : Made (List (Polygon K)))
    (hs : multipolygons env x y lo hi blo bhi nlo nhi hlo hhi = .ok s) (e : Exc)
    (h : s.2.err e) : OnlyStopped env (Drawn x y) e := by
  rcases C37_multipolygons env henv x y lo hi blo bhi nlo nhi hlo hhi hnlo p n hp hp1 hn hn1 hx hy
    s hs e h with h | h
  · exact contourFails_stopped hcoin hgen h
  · exact polygonFails_stopped hcoin hset hcheck hgen h

/-- C48 for `mixes`. -/
theorem C48_mixes (env : Env K) (hcoin : Coins env.coinChange)
    (hset : ∀ l, (env.setOrder l).Perm l) (hcheck : SoundCheck env.segmentsCrossOrOverlap)
    (henv : ∀ pts, HullOk (env.convexHull pts) pts)
    (x : Strategy K) (y : Option (Strategy K)) (hgen : GenericCoords x y) (a : MixArgs) (p : ℕ)
    (hp : p.Prime) (hp1 : 5 ≤ p ∧ max a.minPolygonBorderSize 3 +
      max a.minPolygonHoleSize 3 * max a.minPolygonHolesSize 0 ≤ p)
    (hx : Rich x (max a.minPointsSize 1 + 2 * max a.minSegmentsSize 1 +
      max a.minPolygonsSize 1 * p))
    (hxy : ∀ n, Rich x n ↔ Rich (y.getD x) n) (s : Made (Mix K))
    (hs : mixes env x y a = .ok s) (e : Exc) (h : s.2.err e) : OnlyStopped env (Drawn x y) e := by
  rcases C38_mixes env henv x y a p hp hp1 hx hxy s hs e h with h | h
  · exact contourFails_stopped hcoin hgen h
  · exact polygonFails_stopped hcoin hset hcheck hgen h

/-- C49: a polygon without holes is always constructed, whatever the coordinates are. -/
theorem C49_polygons_without_holes (env : Env K) (hcoin : Coins env.coinChange)
    (henv : ∀ pts, HullOk (env.convexHull pts) pts) (x : Strategy K)
    (y : Option (Strategy K)) (lo : Int) (hi : Option Int) (nlo : Int)
    (hlo : Int) (hhi : Option Int) (p : ℕ) (hp : p.Prime)
    (hp1 : 5 ≤ p ∧ max lo 3 + max hlo 3 * max nlo 0 ≤ p) (hx : Rich x p)
    (hy : Rich (y.getD x) p) (s : Made (Polygon K))
    (hs : polygons env x y lo hi nlo (some 0) hlo hhi = .ok s) (e : Exc) (h : s.2.err e) :
    OnlyStopped env (Drawn x y) e :=
  polygonFails_stopped_nil hcoin (le_refl 0)
    (C36_polygons env henv x y lo hi nlo (some 0) hlo hhi p hp hp1 hx hy s hs e h)

/-! ## Termination -/

/-- C50: with `(n + 2) ^ 2` steps per loop, where `n` is the number of points that can be drawn, no
draw of a contour or multicontour fails. -/
theorem C50_contours (env : Env K) (hcoin : Coins env.coinChange) (x : Strategy K)
    (y : Option (Strategy K)) (hgen : GenericCoords x y) (hsteps : EnoughSteps env (Drawn x y))
    (lo : Int) (hi : Option Int) (clo : Int) (chi : Option Int) (p : ℕ) (hp : p.Prime)
    (hp1 : 5 ≤ p ∧ max lo 4 ≤ p ∧ max lo 2 * max clo 3 ≤ p) (hx : Rich x p)
    (hy : Rich (y.getD x) p) (e : Exc) :
    (∀ s, contours env x y lo hi = .ok s → ¬ s.2.err e) ∧
    (∀ s, concaveContours env x y lo hi = .ok s → ¬ s.2.err e) ∧
    (∀ s, multisegments env x y lo hi = .ok s → ¬ s.2.err e) ∧
    ∀ s, multicontours env x y lo hi clo chi = .ok s → ¬ s.2.err e := by
  have h2 : 2 ≤ max lo 2 := le_max_right _ _
  have h3 : 3 ≤ max clo 3 := le_max_right _ _
  refine ⟨fun s hs h => ?_, fun s hs h => ?_, fun s hs h => ?_, fun s hs h => ?_⟩
  · exact (C48_contours env hcoin x y hgen lo hi p hp ⟨hp1.1, by omega⟩ hx hy s hs e h).not hsteps
  · exact (C48_concave_contours env hcoin x y hgen lo hi p hp ⟨hp1.1, hp1.2.1⟩ hx hy s hs e h).not
      hsteps
  · exact (C48_multisegments env hcoin x y hgen lo hi p hp ⟨hp1.1, by nlinarith⟩ hx hy s hs e h).not
      hsteps
  · exact (C48_multicontours env hcoin x y hgen lo hi clo chi p hp ⟨hp1.1, hp1.2.2⟩ hx hy s hs e
      h).not hsteps

/-- C50 for `polygons`. -/
theorem C50_polygons (env : Env K) (hcoin : Coins env.coinChange)
    (hset : ∀ l, (env.setOrder l).Perm l) (hcheck : SoundCheck env.segmentsCrossOrOverlap)
    (henv : ∀ pts, HullOk (env.convexHull pts) pts) (x : Strategy K)
    (y : Option (Strategy K)) (hsteps : EnoughSteps env (Drawn x y)) (lo : Int)
    (hi : Option Int) (nlo : Int)
    (nhi : Option Int) (hgen : nhi = some 0 ∨ GenericCoords x y) (hlo : Int) (hhi : Option Int)
    (p : ℕ) (hp : p.Prime)
    (hp1 : 5 ≤ p ∧ max lo 3 + max hlo 3 * max nlo 0 ≤ p) (hx : Rich x p)
    (hy : Rich (y.getD x) p) (s : Made (Polygon K))
    (hs : polygons env x y lo hi nlo nhi hlo hhi = .ok s) (e : Exc) : ¬ s.2.err e := by
  intro h
  rcases hgen with rfl | hgen
  · exact (C49_polygons_without_holes env hcoin henv x y lo hi nlo hlo hhi p hp hp1 hx hy s hs e
      h).not hsteps
  · exact (C48_polygons env hcoin hset hcheck henv x y hgen lo hi nlo nhi hlo hhi p hp hp1 hx hy
      s hs e h).not hsteps

/-- C50 for `multipolygons`. -/
theorem C50_multipolygons (env : Env K) (hcoin : Coins env.coinChange)
    (hset : ∀ l, (env.setOrder l).Perm l) (hcheck : SoundCheck env.segmentsCrossOrOverlap)
    (henv : ∀ pts, HullOk (env.convexHull pts) pts)
    (x : Strategy K) (y : Option (Strategy K)) (hgen : GenericCoords x y)
    (hsteps : EnoughSteps env (Drawn x y)) (lo : Int)
    (hi : Option Int) (blo : Int)
    (bhi : Option Int) (nlo : Int) (nhi : Option Int) (hlo : Int) (hhi : Option Int)
    (hnlo : 0 ≤ nlo) (p n : ℕ) (hp : p.Prime) (hp1 : 5 ≤ p ∧ max blo 3 + max hlo 3 * nlo ≤ p)
    (hn : n.Prime) (hn1 : max lo 2 * p ≤ n) (hx : Rich x n) (hy : Rich (y.getD x) n)
    (s : Made (List (Polygon K)))
    (hs : multipolygons env x y lo hi blo bhi nlo nhi hlo hhi = .ok s) (e : Exc) :
    ¬ s.2.err e := fun h =>
  (C48_multipolygons env hcoin hset hcheck henv x y hgen lo hi blo bhi nlo nhi hlo hhi hnlo p n hp
    hp1 hn hn1 hx hy s hs e h).not hsteps

/-- C50 for `mixes`. -/
theorem C50_mixes (env : Env K) (hcoin : Coins env.coinChange)
    (hset : ∀ l, (env.setOrder l).Perm l) (hcheck : SoundCheck env.segmentsCrossOrOverlap)
    (henv : ∀ pts, HullOk (env.convexHull pts) pts)
    (x : Strategy K) (y : Option (Strategy K)) (hgen : GenericCoords x y)
    (hsteps : EnoughSteps env (Drawn x y)) (a : MixArgs) (p : ℕ)
    (hp : p.Prime) (hp1 : 5 ≤ p ∧ max a.minPolygonBorderSize 3 +
      max a.minPolygonHoleSize 3 * max a.minPolygonHolesSize 0 ≤ p)
    (hx : Rich x (max a.minPointsSize 1 + 2 * max a.minSegmentsSize 1 +
      max a.minPolygonsSize 1 * p))
    (hxy : ∀ n, Rich x n ↔ Rich (y.getD x) n) (s : Made (Mix K))
    (hs : mixes env x y a = .ok s) (e : Exc) : ¬ s.2.err e := fun h =>
  (C48_mixes env hcoin hset hcheck henv x y hgen a p hp hp1 hx hxy s hs e h).not hsteps

end
end HG
