import Verif.Lemmas.Loosen
import Verif.Props.Sizes

/-!
# C55: more coordinates and looser upper bounds never lose values

Two calls of the same constructor with the same lower bounds are compared.  If the second one has
coordinate strategies with at least the values of those of the first one, and upper bounds that are
not stricter, then every value of the first strategy is a value of the second one.
-/

set_option linter.unusedSectionVars false

namespace HG

open Strategy Spec

section

variable {K : Type} [LinearOrder K] [Zero K] [Add K] [_root_.Sub K] [Predicates K]

/-- Coordinate strategies with at least the values of other ones. -/
structure Spec.MoreCoords (x : Strategy K) (y : Option (Strategy K)) (x' : Strategy K)
    (y' : Option (Strategy K)) : Prop where
  xs : ∀ a, x.val a → x'.val a
  ys : ∀ b, (y.getD x).val b → (y'.getD x').val b

variable {x x' : Strategy K} {y y' : Option (Strategy K)}

/-- C55 for strategies without bounds. -/
theorem C55_simple (h : MoreCoords x y x' y') :
    (∀ s s', points x y = .ok s → points x' y' = .ok s' → ∀ v, s.2.val v → s'.2.val v) ∧
    (∀ s s', segments x y = .ok s → segments x' y' = .ok s' → ∀ v, s.2.val v → s'.2.val v) ∧
    (∀ s s', boxes x y = .ok s → boxes x' y' = .ok s' → ∀ v, s.2.val v → s'.2.val v) ∧
    (∀ s s', triangularContours x y = .ok s → triangularContours x' y' = .ok s' →
      ∀ v, s.2.val v → s'.2.val v) ∧
    ∀ s s', rectangularContours x y = .ok s → rectangularContours x' y' = .ok s' →
      ∀ v, s.2.val v → s'.2.val v := by
  refine ⟨fun s s' h1 h2 => ?_, fun s s' h1 h2 => ?_, fun s s' h1 h2 => ?_, fun s s' h1 h2 => ?_,
    fun s s' h1 h2 => ?_⟩
  · simp only [points, exc_pure_ok] at h1 h2
    subst h1 h2
    exact point_within h.xs h.ys
  · simp only [segments, exc_pure_ok] at h1 h2
    subst h1 h2
    exact segment_within h.xs h.ys
  · simp only [boxes, exc_pure_ok] at h1 h2
    subst h1 h2
    exact box_within h.xs h.ys
  · simp only [triangularContours, exc_pure_ok] at h1 h2
    subst h1 h2
    exact (triangular_within h.xs h.ys).map _
  · simp only [rectangularContours, exc_pure_ok] at h1 h2
    subst h1 h2
    exact ((box_within h.xs h.ys).map _).map _

/-- C55 for `multipoints`. -/
theorem C55_multipoints (h : MoreCoords x y x' y') (lo : Int) {hi hi' : Option Int}
    (hh : Looser hi hi') (s s' : Made (List (Point K))) (h1 : multipoints x y lo hi = .ok s)
    (h2 : multipoints x' y' lo hi' = .ok s') (v : List (Point K)) (hv : s.2.val v) : s'.2.val v := by
  simp only [multipoints, exc_bind_ok, exc_pure_ok, validate_ok] at h1 h2
  obtain ⟨_, _, rfl⟩ := h1
  obtain ⟨_, _, rfl⟩ := h2
  exact (point_within h.xs h.ys).uniqueLists _ hh v hv

/-- C55 for the contours. -/
theorem C55_contours (env : Env K) (h : MoreCoords x y x' y') (lo : Int) {hi hi' : Option Int}
    (hh : Looser hi hi') :
    (∀ s s', contours env x y lo hi = .ok s → contours env x' y' lo hi' = .ok s' →
      ∀ v, s.2.val v → s'.2.val v) ∧
    (∀ s s', convexContours env x y lo hi = .ok s → convexContours env x' y' lo hi' = .ok s' →
      ∀ v, s.2.val v → s'.2.val v) ∧
    (∀ s s', concaveContours env x y lo hi = .ok s → concaveContours env x' y' lo hi' = .ok s' →
      ∀ v, s.2.val v → s'.2.val v) ∧
    ∀ s s', starContours env x y lo hi = .ok s → starContours env x' y' lo hi' = .ok s' →
      ∀ v, s.2.val v → s'.2.val v := by
  refine ⟨fun s s' h1 h2 => ?_, fun s s' h1 h2 => ?_, fun s s' h1 h2 => ?_, fun s s' h1 h2 => ?_⟩
  · simp only [contours, exc_bind_ok, exc_pure_ok, validate_ok] at h1 h2
    obtain ⟨_, ⟨hb, -⟩, rfl⟩ := h1
    obtain ⟨_, _, rfl⟩ := h2
    exact (vertexSequence_within h.xs h.ys hh (.inr ⟨le_max_right _ _, (okBounds_of hb).2⟩)).map _
  · simp only [convexContours, exc_bind_ok, exc_pure_ok, validate_ok] at h1 h2
    obtain ⟨_, ⟨hb, -⟩, rfl⟩ := h1
    obtain ⟨_, _, rfl⟩ := h2
    exact (convex_within h.xs h.ys hh (.inr ⟨le_max_right _ _, (okBounds_of hb).2⟩)).map _
  · simp only [concaveContours, exc_bind_ok, exc_pure_ok, validate_ok] at h1 h2
    obtain ⟨_, _, rfl⟩ := h1
    obtain ⟨_, _, rfl⟩ := h2
    exact (concave_within h.xs h.ys _ hh).map _
  · simp only [starContours, exc_bind_ok, exc_pure_ok, validate_ok] at h1 h2
    obtain ⟨_, _, rfl⟩ := h1
    obtain ⟨_, _, rfl⟩ := h2
    exact (star_within h.xs h.ys _ hh).map _

/-- C55 for `multisegments`. -/
theorem C55_multisegments (env : Env K) (h : MoreCoords x y x' y') (lo : Int)
    {hi hi' : Option Int} (hh : Looser hi hi') (s s' : Made (List (Segment K)))
    (h1 : multisegments env x y lo hi = .ok s) (h2 : multisegments env x' y' lo hi' = .ok s')
    (v : List (Segment K)) (hv : s.2.val v) : s'.2.val v := by
  simp only [multisegments, exc_bind_ok, exc_pure_ok, validate_ok] at h1 h2
  obtain ⟨_, ⟨hb, -⟩, rfl⟩ := h1
  obtain ⟨_, _, rfl⟩ := h2
  exact segmentSequence_within h.xs h.ys hh (.inr ⟨le_max_right _ _, (okBounds_of hb).2⟩) v hv

theorem okBounds_nonneg {lo least : Int} {hi : Option Int} (h0 : 0 ≤ least)
    (h : ¬ BadBounds lo hi least) : ∀ m, hi = some m → 0 ≤ m := fun m hm => by
  have := (okBounds_of h).2 m hm
  omega

/-- C55 for `multicontours`. -/
theorem C55_multicontours (env : Env K) (h : MoreCoords x y x' y') (lo clo : Int)
    {hi hi' chi chi' : Option Int} (hh : Looser hi hi') (hc : Looser chi chi')
    (s s' : Made (List (Contour K))) (h1 : multicontours env x y lo hi clo chi = .ok s)
    (h2 : multicontours env x' y' lo hi' clo chi' = .ok s') (v : List (Contour K))
    (hv : s.2.val v) : s'.2.val v := by
  simp only [multicontours, exc_bind_ok, exc_pure_ok, validate_ok] at h1 h2
  obtain ⟨_, ⟨hb, -⟩, _, ⟨hb', -⟩, rfl⟩ := h1
  obtain ⟨_, _, _, _, rfl⟩ := h2
  exact multicontour_within h.xs h.ys hh hc (okBounds_nonneg (by decide) hb)
    (okBounds_nonneg (by decide) hb') v hv

/-- C55 for `polygons`. -/
theorem C55_polygons (env : Env K) (h : MoreCoords x y x' y') (lo nlo hlo : Int)
    {hi hi' nhi nhi' hhi hhi' : Option Int} (hh : Looser hi hi') (hn : Looser nhi nhi')
    (hhh : Looser hhi hhi') (s s' : Made (Polygon K))
    (h1 : polygons env x y lo hi nlo nhi hlo hhi = .ok s)
    (h2 : polygons env x' y' lo hi' nlo nhi' hlo hhi' = .ok s') (v : Polygon K)
    (hv : s.2.val v) : s'.2.val v := by
  simp only [polygons, exc_bind_ok, exc_pure_ok, validate_ok] at h1 h2
  obtain ⟨_, ⟨hb, -⟩, _, ⟨hb', -⟩, _, ⟨hb2, -⟩, rfl⟩ := h1
  obtain ⟨_, _, _, _, _, _, rfl⟩ := h2
  have hz : LooserSizes ⟨max lo 3, hi, max nlo 0, nhi, max hlo 3, hhi⟩
      ⟨max lo 3, hi', max nlo 0, nhi', max hlo 3, hhi'⟩ := ⟨rfl, rfl, rfl, hh, hn, hhh,
    okBounds_nonneg (least := 0) (by decide) hb', okBounds_nonneg (least := 3) (by decide) hb2⟩
  exact polygon_within h.xs h.ys hz v hv

/-- C55 for `multipolygons`. -/
theorem C55_multipolygons (env : Env K) (h : MoreCoords x y x' y') (lo blo nlo hlo : Int)
    {hi hi' bhi bhi' nhi nhi' hhi hhi' : Option Int} (hh : Looser hi hi') (hb : Looser bhi bhi')
    (hn : Looser nhi nhi') (hhh : Looser hhi hhi') (s s' : Made (List (Polygon K)))
    (h1 : multipolygons env x y lo hi blo bhi nlo nhi hlo hhi = .ok s)
    (h2 : multipolygons env x' y' lo hi' blo bhi' nlo nhi' hlo hhi' = .ok s')
    (v : List (Polygon K)) (hv : s.2.val v) : s'.2.val v := by
  simp only [multipolygons, exc_bind_ok, exc_pure_ok, validate_ok] at h1 h2
  obtain ⟨_, ⟨b1, -⟩, _, ⟨b2, -⟩, _, ⟨b3, -⟩, _, ⟨b4, -⟩, t, ht, rfl⟩ := h1
  obtain ⟨_, _, _, _, _, _, _, _, t', ht', rfl⟩ := h2
  have hz : LooserSizes ⟨max blo 3, bhi, nlo, nhi, max hlo 3, hhi⟩
      ⟨max blo 3, bhi', nlo, nhi', max hlo 3, hhi'⟩ := ⟨rfl, rfl, rfl, hb, hn, hhh,
    okBounds_nonneg (least := 0) (by decide) b3, okBounds_nonneg (least := 3) (by decide) b4⟩
  exact multipolygon_within h.xs h.ys hh hz (okBounds_nonneg (by decide) b1)
    (okBounds_nonneg (least := 3) (by decide) b2) ht ht' v hv

theorem unionMixes_mem {env : Env K} {x : Strategy K} {y : Option (Strategy K)}
    {l : List MixSizes} {s : Strategy (Mix K)} (hs : unionMixes env x y l = .ok s) {z : MixSizes}
    (hz : z ∈ l) : ∃ t, toMixStrategy env x y z = .ok t ∧ ∀ v, t.val v → s.val v := by
  induction l generalizing s with
  | nil => simp at hz
  | cons w l ih =>
    cases l with
    | nil =>
      rw [List.mem_singleton] at hz
      subst hz
      exact ⟨s, hs, fun _ h => h⟩
    | cons w' l =>
      simp only [unionMixes, exc_bind_ok, exc_pure_ok] at hs
      obtain ⟨t, ht, r, hr, rfl⟩ := hs
      rcases List.mem_cons.1 hz with rfl | hz
      · exact ⟨t, ht, fun _ h => .inl h⟩
      · obtain ⟨t', ht', h⟩ := ih hr hz
        exact ⟨t', ht', fun v hv => .inr (h v hv)⟩

/-- The arguments of `mixes` with looser upper bounds on everything but the number of points. -/
structure Spec.LooserArgs (a a' : MixArgs) : Prop where
  points : a'.minPointsSize = a.minPointsSize
  segments : a'.minSegmentsSize = a.minSegmentsSize
  polygons : a'.minPolygonsSize = a.minPolygonsSize
  borders : a'.minPolygonBorderSize = a.minPolygonBorderSize
  holes : a'.minPolygonHolesSize = a.minPolygonHolesSize
  hole : a'.minPolygonHoleSize = a.minPolygonHoleSize
  maxPoints : a'.maxPointsSize = a.maxPointsSize
  maxSegments : Looser a.maxSegmentsSize a'.maxSegmentsSize
  maxPolygons : Looser a.maxPolygonsSize a'.maxPolygonsSize
  maxBorders : Looser a.maxPolygonBorderSize a'.maxPolygonBorderSize
  maxHoles : Looser a.maxPolygonHolesSize a'.maxPolygonHolesSize
  maxHole : Looser a.maxPolygonHoleSize a'.maxPolygonHoleSize

theorem mayBeNonEmpty_looser {hi hi' : Option Int} (h : Looser hi hi')
    (h0 : ∀ m, hi = some m → 0 ≤ m) (hm : mayBeNonEmpty hi = true) : mayBeNonEmpty hi' = true := by
  cases hi' with
  | none => rfl
  | some m' =>
    obtain ⟨m, rfl, hle⟩ := h m' rfl
    have := h0 m rfl
    simp only [mayBeNonEmpty, decide_eq_true_eq] at hm ⊢
    omega

/-- C55 for `mixes`: the upper bound on the number of points is kept. -/
theorem C55_mixes (env : Env K) (h : MoreCoords x y x' y') {a a' : MixArgs} (ha : LooserArgs a a')
    (s s' : Made (Mix K)) (h1 : mixes env x y a = .ok s) (h2 : mixes env x' y' a' = .ok s')
    (v : Mix K) (hv : s.2.val v) : s'.2.val v := by
  obtain ⟨e1, e2, e3, e4, e5, e6, e7, l2, l3, l4, l5, l6⟩ := ha
  simp only [mixes, exc_bind_ok, validate_ok] at h1 h2
  obtain ⟨_, _, _, ⟨b2, -⟩, _, ⟨b3, -⟩, _, _, _, ⟨b5, -⟩, _, ⟨b6, -⟩, h1⟩ := h1
  obtain ⟨_, _, _, _, _, _, _, _, _, _, _, _, h2⟩ := h2
  split at h1
  · simp only [exc_throw_ok] at h1
  · rename_i hcount
    split at h2
    · simp only [exc_throw_ok] at h2
    simp only [exc_bind_ok, exc_pure_ok] at h1 h2
    obtain ⟨t, ht, rfl⟩ := h1
    obtain ⟨t', ht', rfl⟩ := h2
    have key : ∀ {p q g : Int}, LooserMix (a.sizes p q g) (a'.sizes p q g) := fun {p q g} =>
      ⟨rfl, e7.symm, rfl, rfl, l2, l3, ⟨by simp only [MixArgs.sizes, e4], by
        simp only [MixArgs.sizes, e5], by simp only [MixArgs.sizes, e6], l4, l5, l6,
        okBounds_nonneg (least := 0) (by decide) b5, okBounds_nonneg (least := 3) (by decide) b6⟩⟩
    obtain ⟨z, hz, u, hu, huv⟩ := unionMixes_val ht hv
    obtain ⟨z', hz', hzz⟩ : ∃ z' ∈ a'.branches, LooserMix z z' := by
      have n2 := mayBeNonEmpty_looser l2 (okBounds_nonneg (least := 0) (by decide) b2)
      have n3 := mayBeNonEmpty_looser l3 (okBounds_nonneg (least := 0) (by decide) b3)
      unfold MixArgs.branches at hz ⊢
      rw [e1, e2, e3, e7]
      dsimp only at hz ⊢
      split at hz
      · rename_i c1
        rw [if_pos c1]
        split at hz
        · rename_i c2
          rw [if_pos (n2 c2)]
          split at hz
          · rename_i c3
            rw [if_pos (n3 c3)]
            simp only [List.mem_cons, List.not_mem_nil, or_false] at hz ⊢
            rcases hz with rfl | rfl | rfl
            · exact ⟨_, .inl rfl, key⟩
            · exact ⟨_, .inr (.inl rfl), key⟩
            · exact ⟨_, .inr (.inr rfl), key⟩
          · rw [List.mem_singleton] at hz
            subst hz
            split
            · exact ⟨_, List.mem_cons_self, key⟩
            · exact ⟨_, List.mem_cons_self, key⟩
        · rename_i c2
          rw [List.mem_singleton] at hz
          subst hz
          have c3 : mayBeNonEmpty a.maxPolygonsSize = true := by
            rw [Bool.not_eq_true] at c2
            by_contra c3
            rw [Bool.not_eq_true] at c3
            rw [c1, c2, c3] at hcount
            exact hcount (by decide)
          rw [if_pos (n3 c3)]
          split
          · exact ⟨_, by simp, key⟩
          · exact ⟨_, by simp, key⟩
      · rename_i c1
        rw [if_neg c1, List.mem_singleton] at *
        subst hz
        exact ⟨_, by simp, key⟩
    obtain ⟨u', hu', hsub⟩ := unionMixes_mem ht' hz'
    exact hsub v (mix_within h.xs h.ys hzz hu hu' v huv)

/-- Non-vacuity for C55: more integers and no upper bound. -/
example : MoreCoords (sampledFrom [(0 : ℤ), 1, 2]) none (integersFrom 0)
      (some (sampledFrom [(0 : ℤ), 1, 2, 3])) ∧ Looser (some 3) (some 4) ∧ Looser (some 3) none := by
  refine ⟨⟨fun a h => ?_, fun b h => ?_⟩, fun m h => ⟨3, rfl, ?_⟩, fun m h => by cases h⟩
  · have : a = 0 ∨ a = 1 ∨ a = 2 := by simpa [sampledFrom] using h
    show 0 ≤ a
    omega
  · have : b = 0 ∨ b = 1 ∨ b = 2 := by simpa [sampledFrom] using h
    show b ∈ [(0 : ℤ), 1, 2, 3]
    simp only [List.mem_cons, List.not_mem_nil, or_false]
    omega
  · cases h; decide

/-- Non-vacuity for C55 of `mixes`: polygons become allowed and more segments. -/
example : LooserArgs { maxSegmentsSize := some 2, maxPolygonsSize := some 0 }
    { maxSegmentsSize := some 4, maxPolygonsSize := none } :=
  ⟨rfl, rfl, rfl, rfl, rfl, rfl, rfl, fun m h => ⟨2, rfl, by cases h; decide⟩, (fun _ h => by cases h),
    .rfl', .rfl', .rfl'⟩

end
end HG
