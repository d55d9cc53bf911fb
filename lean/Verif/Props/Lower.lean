import Verif.Lemmas.Lower
import Verif.Props.Loosen
import Verif.Props.NonEmptySamples

/-!
# C59: looser lower bounds lose no values if the upper bounds leave room for a prime

Two calls of the same constructor with the same coordinates and the same upper bounds are compared.
If the lower bounds of the second one are not stricter, then every value of the first strategy is a
value of the second one, provided that the upper bound on the number of points is absent or there
is a prime from 5 on between the bounds of the first call.  Without such a prime the claim is false
(`C56_lower_bound`).
-/

set_option linter.unusedSectionVars false

namespace HG

open Strategy Spec

section

variable {K : Type} [LinearOrder K] [Zero K] [Add K] [_root_.Sub K] [Predicates K]

variable {x : Strategy K} {y : Option (Strategy K)}

/-- C59 for `multipoints`, with any upper bound. -/
theorem C59_multipoints {lo lo' : Int} (hlo : lo' ≤ lo) (hi : Option Int)
    (s s' : Made (List (Point K))) (h1 : multipoints x y lo hi = .ok s)
    (h2 : multipoints x y lo' hi = .ok s') (v : List (Point K)) (hv : s.2.val v) : s'.2.val v := by
  simp only [multipoints, exc_bind_ok, exc_pure_ok, validate_ok] at h1 h2
  obtain ⟨_, _, rfl⟩ := h1
  obtain ⟨_, _, rfl⟩ := h2
  exact Strategy.Within.uniqueLists_lower _ (max_le_max hlo le_rfl) .rfl' v hv

theorem room_max {lo : Int} {hi : Option Int} (hr : PrimeRoom lo hi ∨ lo ≤ 5) {k : Int}
    (hk : k ≤ 5) : PrimeRoom (max lo k) hi ∨ max lo k ≤ 5 :=
  hr.imp (fun h => h.max_three hk) fun h => max_le h hk

/-- C59 for the contours. -/
theorem C59_contours (env : Env K) {lo lo' : Int} (hlo : lo' ≤ lo) (hi : Option Int)
    (hr : PrimeRoom lo hi ∨ lo ≤ 5) :
    (∀ s s', contours env x y lo hi = .ok s → contours env x y lo' hi = .ok s' →
      ∀ v, s.2.val v → s'.2.val v) ∧
    (∀ s s', convexContours env x y lo hi = .ok s → convexContours env x y lo' hi = .ok s' →
      ∀ v, s.2.val v → s'.2.val v) ∧
    (∀ s s', concaveContours env x y lo hi = .ok s → concaveContours env x y lo' hi = .ok s' →
      ∀ v, s.2.val v → s'.2.val v) ∧
    ∀ s s', starContours env x y lo hi = .ok s → starContours env x y lo' hi = .ok s' →
      ∀ v, s.2.val v → s'.2.val v := by
  have h3 := room_max hr (k := 3) (by norm_num)
  have h4 := room_max hr (k := 4) (by norm_num)
  refine ⟨fun s s' h1 h2 => ?_, fun s s' h1 h2 => ?_, fun s s' h1 h2 => ?_, fun s s' h1 h2 => ?_⟩
  · simp only [contours, exc_bind_ok, exc_pure_ok, validate_ok] at h1 h2
    obtain ⟨_, _, rfl⟩ := h1
    obtain ⟨_, _, rfl⟩ := h2
    exact (vertexSequence_lower (le_max_right _ _) (max_le_max hlo le_rfl) h3).map _
  · simp only [convexContours, exc_bind_ok, exc_pure_ok, validate_ok] at h1 h2
    obtain ⟨_, _, rfl⟩ := h1
    obtain ⟨_, _, rfl⟩ := h2
    exact (convex_lower (le_max_right _ _) (max_le_max hlo le_rfl) h3).map _
  · simp only [concaveContours, exc_bind_ok, exc_pure_ok, validate_ok] at h1 h2
    obtain ⟨_, _, rfl⟩ := h1
    obtain ⟨_, _, rfl⟩ := h2
    exact (concave_lower (by omega) (max_le_max hlo le_rfl) h4).map _
  · simp only [starContours, exc_bind_ok, exc_pure_ok, validate_ok] at h1 h2
    obtain ⟨_, _, rfl⟩ := h1
    obtain ⟨_, _, rfl⟩ := h2
    exact (star_lower (le_max_right _ _) (max_le_max hlo le_rfl) h3).map _

/-- C59 for `multisegments`. -/
theorem C59_multisegments (env : Env K) {lo lo' : Int} (hlo : lo' ≤ lo) (hi : Option Int)
    (hr : PrimeRoom lo hi ∨ lo ≤ 5) (s s' : Made (List (Segment K)))
    (h1 : multisegments env x y lo hi = .ok s) (h2 : multisegments env x y lo' hi = .ok s')
    (v : List (Segment K)) (hv : s.2.val v) : s'.2.val v := by
  simp only [multisegments, exc_bind_ok, exc_pure_ok, validate_ok] at h1 h2
  obtain ⟨_, _, rfl⟩ := h1
  obtain ⟨_, _, rfl⟩ := h2
  exact segmentSequence_lower (max_le_max hlo le_rfl) (room_max hr (by norm_num)) v hv

theorem primeRoom_mul {lo : Int} {hi chi : Option Int}
    (h : ∀ m c, hi = some m → chi = some c → PrimeRoom lo (some (m * c))) :
    PrimeRoom lo (optMul hi chi) := by
  unfold optMul
  split
  · exact h _ _ rfl rfl
  · intro m hm
    cases hm

/-- C59 for `multicontours`: the numbers of contours and of their vertices are multiplied. -/
theorem C59_multicontours (env : Env K) {lo lo' clo clo' : Int} (hlo : lo' ≤ lo) (hc : clo' ≤ clo)
    (hi chi : Option Int)
    (hr : ∀ m c, hi = some m → chi = some c → PrimeRoom (max lo 2 * max clo 3) (some (m * c)))
    (s s' : Made (List (Contour K))) (h1 : multicontours env x y lo hi clo chi = .ok s)
    (h2 : multicontours env x y lo' hi clo' chi = .ok s') (v : List (Contour K))
    (hv : s.2.val v) : s'.2.val v := by
  simp only [multicontours, exc_bind_ok, exc_pure_ok, validate_ok] at h1 h2
  obtain ⟨_, _, _, _, rfl⟩ := h1
  obtain ⟨_, _, _, _, rfl⟩ := h2
  exact multicontour_lower (by omega) (max_le_max hlo le_rfl) (by omega) (max_le_max hc le_rfl)
    (primeRoom_mul hr) v hv

theorem primeRoom_count {z : PolygonSizes}
    (h : ∀ a b c, z.maxSize = some a → z.maxHoleCount = some b → z.maxHoleSize = some c →
      PrimeRoom (z.minSize + z.minHoleSize * z.minHoleCount) (some (a + c * b))) :
    PrimeRoom (z.minSize + z.minHoleSize * z.minHoleCount) z.maxPointCount := by
  unfold PolygonSizes.maxPointCount
  split
  · rename_i a b c ha hb hc
    exact h a b c ha hb hc
  · intro m hm
    cases hm

/-- C59 for `polygons`: the numbers of vertices of the border and of all holes are added. -/
theorem C59_polygons (env : Env K) {lo lo' nlo nlo' hlo hlo' : Int} (h : lo' ≤ lo) (hn : nlo' ≤ nlo)
    (hh : hlo' ≤ hlo) (hi nhi hhi : Option Int)
    (hr : ∀ a b c, hi = some a → nhi = some b → hhi = some c →
      PrimeRoom (max lo 3 + max hlo 3 * max nlo 0) (some (a + c * b))) (s s' : Made (Polygon K))
    (h1 : polygons env x y lo hi nlo nhi hlo hhi = .ok s)
    (h2 : polygons env x y lo' hi nlo' nhi hlo' hhi = .ok s') (v : Polygon K)
    (hv : s.2.val v) : s'.2.val v := by
  simp only [polygons, exc_bind_ok, exc_pure_ok, validate_ok] at h1 h2
  obtain ⟨_, _, _, ⟨hb', -⟩, _, _, rfl⟩ := h1
  obtain ⟨_, _, _, _, _, _, rfl⟩ := h2
  have hz : LowerSizes ⟨max lo 3, hi, max nlo 0, nhi, max hlo 3, hhi⟩
      ⟨max lo' 3, hi, max nlo' 0, nhi, max hlo' 3, hhi⟩ :=
    ⟨max_le_max h le_rfl, max_le_max hn le_rfl, max_le_max hh le_rfl, rfl, rfl,
      rfl, le_max_right _ _, le_max_right _ _, le_max_right _ _,
      okBounds_nonneg (least := 0) (by decide) hb', primeRoom_count hr⟩
  exact polygon_lower hz v hv

/-- C59 for `multipolygons`; a negative bound on the number of holes is excluded. -/
theorem C59_multipolygons (env : Env K) {lo lo' blo blo' nlo nlo' hlo hlo' : Int} (h : lo' ≤ lo)
    (hb : blo' ≤ blo) (hn : nlo' ≤ nlo) (hn0 : 0 ≤ nlo') (hh : hlo' ≤ hlo)
    (hi bhi nhi hhi : Option Int)
    (hr : ∀ a b c, bhi = some a → nhi = some b → hhi = some c →
      PrimeRoom (max blo 3 + max hlo 3 * nlo) (some (a + c * b)))
    (hr' : ∀ m c, hi = some m → bhi = some c → nlo = 0 →
      PrimeRoom (max lo 2 * max blo 3) (some (m * c))) (s s' : Made (List (Polygon K)))
    (h1 : multipolygons env x y lo hi blo bhi nlo nhi hlo hhi = .ok s)
    (h2 : multipolygons env x y lo' hi blo' bhi nlo' nhi hlo' hhi = .ok s')
    (v : List (Polygon K)) (hv : s.2.val v) : s'.2.val v := by
  simp only [multipolygons, exc_bind_ok, exc_pure_ok, validate_ok] at h1 h2
  obtain ⟨_, ⟨b1, -⟩, _, _, _, ⟨b3, -⟩, _, _, t, ht, rfl⟩ := h1
  obtain ⟨_, _, _, _, _, _, _, _, t', ht', rfl⟩ := h2
  have hz : LowerSizes ⟨max blo 3, bhi, nlo, nhi, max hlo 3, hhi⟩
      ⟨max blo' 3, bhi, nlo', nhi, max hlo' 3, hhi⟩ :=
    ⟨max_le_max hb le_rfl, hn, max_le_max hh le_rfl, rfl, rfl, rfl, le_max_right _ _, hn0,
      le_max_right _ _, okBounds_nonneg (least := 0) (by decide) b3, primeRoom_count hr⟩
  refine multipolygon_lower (by omega) (max_le_max h le_rfl) (fun m hm => ?_) hz
    (fun h0 => primeRoom_mul fun m c e1 e2 => hr' m c e1 e2 h0) ht ht' v hv
  exact (okBounds_of b1).2 m hm

/-- The arguments of `mixes` with lower lower bounds. -/
structure Spec.LowerArgs (a a' : MixArgs) : Prop where
  points : a'.minPointsSize ≤ a.minPointsSize
  segments : a'.minSegmentsSize ≤ a.minSegmentsSize
  polygons : a'.minPolygonsSize ≤ a.minPolygonsSize
  borders : a'.minPolygonBorderSize ≤ a.minPolygonBorderSize
  holes : a'.minPolygonHolesSize ≤ a.minPolygonHolesSize
  hole : a'.minPolygonHoleSize ≤ a.minPolygonHoleSize
  maxPoints : a'.maxPointsSize = a.maxPointsSize
  maxSegments : a'.maxSegmentsSize = a.maxSegmentsSize
  maxPolygons : a'.maxPolygonsSize = a.maxPolygonsSize
  maxBorders : a'.maxPolygonBorderSize = a.maxPolygonBorderSize
  maxHoles : a'.maxPolygonHolesSize = a.maxPolygonHolesSize
  maxHole : a'.maxPolygonHoleSize = a.maxPolygonHoleSize

/-- C59 for `mixes`. -/
theorem C59_mixes (env : Env K) {a a' : MixArgs} (h : LowerArgs a a')
    (hr : ∀ k b c, a.maxPolygonBorderSize = some k → a.maxPolygonHolesSize = some b →
      a.maxPolygonHoleSize = some c → PrimeRoom (max a.minPolygonBorderSize 3 +
        max a.minPolygonHoleSize 3 * max a.minPolygonHolesSize 0) (some (k + c * b)))
    (s s' : Made (Mix K)) (h1 : mixes env x y a = .ok s) (h2 : mixes env x y a' = .ok s')
    (v : Mix K) (hv : s.2.val v) : s'.2.val v := by
  obtain ⟨l1, l2, l3, l4, l5, l6, e1, e2, e3, e4, e5, e6⟩ := h
  simp only [mixes, exc_bind_ok, validate_ok] at h1 h2
  obtain ⟨_, _, _, _, _, _, _, _, _, ⟨b5, -⟩, _, _, h1⟩ := h1
  obtain ⟨_, _, _, _, _, _, _, _, _, _, _, _, h2⟩ := h2
  split at h1
  · simp only [exc_throw_ok] at h1
  · rename_i hc
    rw [e1, e2, e3, if_neg hc] at h2
    simp only [exc_bind_ok, exc_pure_ok] at h1 h2
    obtain ⟨t, ht, rfl⟩ := h1
    obtain ⟨t', ht', rfl⟩ := h2
    have key : ∀ {p p' q q' g g' : Int}, p' ≤ p → q' ≤ q → g' ≤ g → 0 ≤ g' →
        LowerMix (a.sizes p q g) (a'.sizes p' q' g') := fun hp hq hg h0 =>
      ⟨hp, hq, hg, e1, e2, e3, h0, ⟨max_le_max l4 le_rfl, max_le_max l5 le_rfl,
        max_le_max l6 le_rfl, e4, e5, e6, le_max_right _ _, le_max_right _ _, le_max_right _ _,
        okBounds_nonneg (least := 0) (by decide) b5, primeRoom_count hr⟩⟩
    have m1 := max_le_max l1 (le_refl (0 : Int))
    have m2 := max_le_max l2 (le_refl (0 : Int))
    have m3 := max_le_max l3 (le_refl (0 : Int))
    refine unionMixes_lower (l := a.branches) (l' := a'.branches) ?_ ht ht' v hv
    unfold MixArgs.branches
    dsimp only
    rw [e1, e2, e3]
    have k1 := key (max_le_max m1 (le_refl (1 : Int))) (max_le_max m2 (le_refl (1 : Int))) m3
      (le_max_right _ _)
    have k2 := key (max_le_max m1 (le_refl (1 : Int))) m2 (max_le_max m3 (le_refl (1 : Int)))
      (zero_le_one.trans (le_max_right _ _))
    have k3 := key m1 (max_le_max m2 (le_refl (1 : Int))) (max_le_max m3 (le_refl (1 : Int)))
      (zero_le_one.trans (le_max_right _ _))
    split
    · split
      · split
        · exact .cons k1 (.cons k2 (.cons k3 .nil))
        · exact .cons k1 .nil
      · exact .cons k2 .nil
    · exact .cons k3 .nil

end

open Sample

/-- Non-vacuity for C59: with `max_size=7` the hexagon generated for `min_size=6` is generated for
`min_size=4`, too; for `max_size=6` this is false (`C56_lower_bound`). -/
example : ∃ s c, concaveContours env (sampledFrom genXs) (some (sampledFrom genYs)) 4 (some 7) =
    .ok s ∧ s.2.val c ∧ c.vertices.length = 6 := by
  refine ⟨_, ⟨[⟨0, 1⟩, ⟨6, 10⟩, ⟨4, 100⟩, ⟨5, 10000⟩, ⟨2, 10000⟩, ⟨3, 100⟩]⟩, rfl, ?_, rfl⟩
  refine (C59_contours env (lo := 6) (lo' := 4) (by norm_num) (some 7) (.inl fun m hm => ?_)).2.2.1
    _ _ rfl rfl _ ⟨_, ⟨.inr ⟨?_, by decide⟩, by decide +kernel⟩, rfl⟩
  · cases hm
    exact ⟨7, by norm_num, by norm_num, by norm_num, by norm_num⟩
  · rw [val_mapE]
    exact ⟨(genPoints, 6), ⟨genPoints, genPoints_drawn _ (some 7) 7 (by decide +kernel)
      (by norm_num) (by simp [leOpt, maxOpt]), rfl, by decide, by decide⟩, by decide +kernel⟩

end HG
