import Verif.Spec.Similarity
import Verif.Spec.Sample
import Verif.Lemmas.FrameStrat
import Verif.Props.SetOrder
import Mathlib.Tactic.Linarith
import Mathlib.Tactic.Ring
import Mathlib.Tactic.NormNum

/-!
# Shifting, scaling and changing the number type (C58)
-/

set_option linter.unusedSectionVars false

namespace HG

open Strategy Spec

section
variable {K L : Type} [CommRing K] [LinearOrder K] [IsStrictOrderedRing K]
  [CommRing L] [LinearOrder L] [IsStrictOrderedRing L]

theorem signOrientation_pos {a b : L} (h : 0 < a) : signOrientation (a * b) = signOrientation b := by
  unfold signOrientation
  have e : a * b < 0 ↔ b < 0 :=
    ⟨fun hab => by
      by_contra hb
      exact absurd (mul_nonneg h.le (not_lt.1 hb)) (not_le.2 hab), mul_neg_of_pos_of_neg h⟩
  simp only [e, mul_eq_zero, h.ne', false_or]

theorem signOrientation_hom {f : K →+* L} (h : StrictMono f) (a : K) :
    signOrientation (f a) = signOrientation a := by
  unfold signOrientation
  have e1 : f a < 0 ↔ a < 0 := by rw [← map_zero f, h.lt_iff_lt]
  have e2 : f a = 0 ↔ a = 0 := by rw [← map_zero f, h.injective.eq_iff]
  simp only [e1, e2]

namespace Spec.Similarity

variable (S : Similarity K L)

theorem x_mono : StrictMono S.x := fun a b h => by
  unfold x
  have := mul_lt_mul_of_pos_left (S.mono h) S.pos
  linarith

theorem y_mono : StrictMono S.y := fun a b h => by
  unfold y
  have := mul_lt_mul_of_pos_left (S.mono h) S.pos
  linarith

theorem d_mono : StrictMono S.d := fun _ _ h => mul_lt_mul_of_pos_left (S.mono h) S.pos

/-- A similarity as a change of coordinates. -/
def frame : Frame K L where
  fx := S.x
  fy := S.y
  g := S.d
  monoX := S.x_mono
  monoY := S.y_mono
  monoG := S.d_mono
  orient_eq a b c := by
    rw [orient_def, orient_def, ← signOrientation_hom S.mono (cross a b c),
      ← signOrientation_pos (b := S.ι (cross a b c)) (mul_pos S.pos S.pos)]
    congr 1
    simp only [cross, x, y, map_sub, map_mul]
    ring
  inCircle_eq p a b c := by
    rw [inCircle_def, inCircle_def]
    apply decide_eq_decide.2
    have e : inCircleDet (⟨S.x p.x, S.y p.y⟩ : Point L) ⟨S.x a.x, S.y a.y⟩ ⟨S.x b.x, S.y b.y⟩
        ⟨S.x c.x, S.y c.y⟩ = S.c * S.c * (S.c * S.c) * S.ι (inCircleDet p a b c) := by
      simp only [inCircleDet, x, y, map_sub, map_mul, map_add]
      ring
    rw [e, mul_pos_iff_of_pos_left (mul_pos (mul_pos S.pos S.pos) (mul_pos S.pos S.pos)),
      ← map_zero S.ι, S.mono.lt_iff_lt]
  subX a b := by simp only [x, d, map_sub]; ring
  subY a b := by simp only [y, d, map_sub]; ring
  zeroG := by simp [d]
  addG a b := by simp only [d, map_add]; ring
  shiftX p m c := by simp only [x, d, map_sub, map_add]; ring
  shiftY p m c := by simp only [y, d, map_sub, map_add]; ring

theorem frame_mix : S.frame.mix = S.mix := by
  funext ⟨d, l, s⟩
  cases d <;> cases l <;> cases s <;> rfl

end Spec.Similarity

section
variable {S : Similarity K L} {env : Env K} {env' : Env L}

/-- The images of the axes. -/
theorem axes_image {x : Strategy K} {y : Option (Strategy K)} (hy : y = none → S.tx = S.ty) :
    S.frame.Axes x y (x.map S.x) (y.map fun s => s.map S.y) := by
  refine ⟨rfl, ?_⟩
  cases y with
  | some y => rfl
  | none =>
    have e : S.x = S.y := by
      funext a
      unfold Similarity.x Similarity.y
      rw [hy rfl]
    show x.map S.x = x.map S.y
    rw [e]

/-- The environment in the new coordinates with sets ordered as in the old ones. -/
theorem compat_of_same (h : SameTools S env env') :
    S.frame.Compat (withOrder env id) (withOrder env' id) where
  fuel := h.fuel
  coin := h.coins
  order := h.edges
  hull := h.hull
  scross := h.cross
  nearest := h.nearest
  mcent := h.mean
  rcent := h.centroid
  atan := h.angle
  set _ := rfl

end

/-! ## Constructors without third-party functions -/

section
variable (S : Similarity K L) (x : Strategy K) (y : Option (Strategy K))
  (hy : y = none → S.tx = S.ty)
include hy

/-- C58 for `points`: the values for shifted, scaled or converted coordinates are the shifted,
scaled or converted values. -/
theorem C58_points : points (x.map S.x) (y.map fun s => s.map S.y) = Image S.point (points x y) :=
  congrArg (fun s => Except.ok (([] : List SizeWarning), s)) (Frame.points_eq (axes_image hy))

/-- C58 for `multipoints`. -/
theorem C58_multipoints (lo : Int) (hi : Option Int) :
    multipoints (x.map S.x) (y.map fun s => s.map S.y) lo hi =
      Image (List.map S.point) (multipoints x y lo hi) :=
  exc_nat' fun w => congrArg (fun s => Except.ok (w, s))
    (Frame.uniquePoints_eq (axes_image hy) _ _)

/-- C58 for `segments`. -/
theorem C58_segments : segments (x.map S.x) (y.map fun s => s.map S.y) = Image S.segment (segments x y) :=
  congrArg (fun s => Except.ok (([] : List SizeWarning), s)) (Frame.segments_eq (axes_image hy))

/-- C58 for `boxes`. -/
theorem C58_boxes : boxes (x.map S.x) (y.map fun s => s.map S.y) = Image S.box (boxes x y) :=
  congrArg (fun s => Except.ok (([] : List SizeWarning), s)) (Frame.boxes_eq (axes_image hy))

/-- C58 for `triangular_contours`. -/
theorem C58_triangular_contours :
    triangularContours (x.map S.x) (y.map fun s => s.map S.y) =
      Image S.contour (triangularContours x y) := by
  unfold triangularContours
  rw [Frame.tri_eq (axes_image hy)]
  exact congrArg (fun s => Except.ok (([] : List SizeWarning), s)) (map_nat fun _ => rfl)

/-- C58 for `rectangular_contours`. -/
theorem C58_rectangular_contours :
    rectangularContours (x.map S.x) (y.map fun s => s.map S.y) =
      Image S.contour (rectangularContours x y) := by
  unfold rectangularContours
  rw [Frame.rect_eq (axes_image hy)]
  exact congrArg (fun s => Except.ok (([] : List SizeWarning), s)) (map_nat fun _ => rfl)

/-! ## Contours -/

variable {env : Env K} {env' : Env L} (hE : SameTools S env env') (lo : Int) (hi : Option Int)
include hE

/-- C58 for `contours`. -/
theorem C58_contours :
    contours env' (x.map S.x) (y.map fun s => s.map S.y) lo hi =
      Image S.contour (contours env x y lo hi) := by
  refine exc_nat' fun w => congrArg (fun s => Except.ok (w, s)) ?_
  have := Frame.contourS_eq (axes_image (S := S) (x := x) hy) (compat_of_same hE) (max lo 3) hi
  rw [toVertexSequenceStrategy_order, toVertexSequenceStrategy_order] at this
  rw [this]
  exact map_nat fun _ => rfl

/-- C58 for `convex_contours`. -/
theorem C58_convex_contours :
    convexContours env' (x.map S.x) (y.map fun s => s.map S.y) lo hi =
      Image S.contour (convexContours env x y lo hi) := by
  refine exc_nat' fun w => congrArg (fun s => Except.ok (w, s)) ?_
  have : toConvexStrategy env' _ _ (max lo 3) hi = (toConvexStrategy env _ _ (max lo 3) hi).map _ :=
    Frame.convexS_eq (axes_image (S := S) (x := x) hy) (compat_of_same hE) (max lo 3) hi
  rw [this]
  exact map_nat fun _ => rfl

/-- C58 for `star_contours`. -/
theorem C58_star_contours :
    starContours env' (x.map S.x) (y.map fun s => s.map S.y) lo hi =
      Image S.contour (starContours env x y lo hi) := by
  refine exc_nat' fun w => congrArg (fun s => Except.ok (w, s)) ?_
  have := Frame.starS_eq (axes_image (S := S) (x := x) hy) (compat_of_same hE) (max lo 3) hi
  rw [toStarStrategy_order, toStarStrategy_order] at this
  rw [this]
  exact map_nat fun _ => rfl

/-- C58 for `concave_contours`. -/
theorem C58_concave_contours :
    concaveContours env' (x.map S.x) (y.map fun s => s.map S.y) lo hi =
      Image S.contour (concaveContours env x y lo hi) := by
  refine exc_nat' fun w => congrArg (fun s => Except.ok (w, s)) ?_
  have := Frame.concaveS_eq (axes_image (S := S) (x := x) hy) (compat_of_same hE) (max lo 4) hi
  unfold toConcaveStrategy toVertexSequences at this
  rw [toStarStrategy_order, toStarStrategy_order] at this
  have e : toConcaveStrategy env' (x.map S.x) (y.map fun s => s.map S.y) (max lo 4) hi =
      (toConcaveStrategy env x y (max lo 4) hi).map (List.map S.point) := this
  rw [e]
  exact map_nat fun _ => rfl

/-! ## Compound geometries -/

/-- C58 for `multisegments`. -/
theorem C58_multisegments :
    multisegments env' (x.map S.x) (y.map fun s => s.map S.y) lo hi =
      Image (List.map S.segment) (multisegments env x y lo hi) := by
  refine exc_nat' fun w => congrArg (fun s => Except.ok (w, s)) ?_
  have := Frame.segmentSeq_eq (axes_image (S := S) (x := x) hy) (compat_of_same hE) (max lo 2) hi
  rw [toSegmentSequenceStrategy_order, toSegmentSequenceStrategy_order] at this
  exact this

/-- C58 for `multicontours`. -/
theorem C58_multicontours (clo : Int) (chi : Option Int) :
    multicontours env' (x.map S.x) (y.map fun s => s.map S.y) lo hi clo chi =
      Image (List.map S.contour) (multicontours env x y lo hi clo chi) := by
  refine exc_nat' fun w => exc_nat' fun w' => congrArg (fun s => Except.ok (w ++ w', s)) ?_
  have := Frame.multicontourS_eq (axes_image (S := S) (x := x) hy) (compat_of_same hE) (max lo 2) hi
    (max clo 3) chi
  rw [toMulticontourStrategy_order, toMulticontourStrategy_order] at this
  exact this

/-- C58 for `polygons`. -/
theorem C58_polygons (nlo : Int) (nhi : Option Int) (hlo : Int) (hhi : Option Int) :
    polygons env' (x.map S.x) (y.map fun s => s.map S.y) lo hi nlo nhi hlo hhi =
      Image S.polygon (polygons env x y lo hi nlo nhi hlo hhi) := by
  refine exc_nat' fun w => exc_nat' fun w' => exc_nat' fun w'' =>
    congrArg (fun s => Except.ok (w ++ w' ++ w'', s)) ?_
  have := Frame.polygonS_eq (axes_image (S := S) (x := x) hy) (compat_of_same hE)
    { minSize := max lo 3, maxSize := hi, minHoleCount := max nlo 0, maxHoleCount := nhi
      minHoleSize := max hlo 3, maxHoleSize := hhi }
  rw [toPolygonStrategy_order _ _ hE.sets fun l => List.Perm.refl (id l),
    toPolygonStrategy_order _ _ hE.sets' fun l => List.Perm.refl (id l)] at this
  exact this

/-- C58 for `multipolygons`. -/
theorem C58_multipolygons (blo : Int) (bhi : Option Int) (nlo : Int) (nhi : Option Int) (hlo : Int)
    (hhi : Option Int) :
    multipolygons env' (x.map S.x) (y.map fun s => s.map S.y) lo hi blo bhi nlo nhi hlo hhi =
      Image (List.map S.polygon) (multipolygons env x y lo hi blo bhi nlo nhi hlo hhi) := by
  refine exc_nat' fun w => exc_nat' fun w' => exc_nat' fun w'' => exc_nat' fun w3 => ?_
  have := Frame.multipolygonS_eq (axes_image (S := S) (x := x) hy) (compat_of_same hE) (max lo 2) hi
    { minSize := max blo 3, maxSize := bhi, minHoleCount := nlo, maxHoleCount := nhi
      minHoleSize := max hlo 3, maxHoleSize := hhi }
  rw [toMultipolygonStrategy_order _ _ hE.sets fun l => List.Perm.refl (id l),
    toMultipolygonStrategy_order _ _ hE.sets' fun l => List.Perm.refl (id l)] at this
  exact exc_nat2 this fun _ => rfl

omit lo hi in
/-- C58 for `mixes`. -/
theorem C58_mixes (a : MixArgs) :
    mixes env' (x.map S.x) (y.map fun s => s.map S.y) a = Image S.mix (mixes env x y a) := by
  refine exc_nat' fun w1 => exc_nat' fun w2 => exc_nat' fun w3 => exc_nat' fun w4 =>
    exc_nat' fun w5 => exc_nat' fun w6 => ?_
  split
  · rfl
  have := Frame.unionMixes_eq (axes_image (S := S) (x := x) hy) (compat_of_same hE) a.branches
  rw [unionMixes_order _ _ hE.sets fun l => List.Perm.refl (id l),
    unionMixes_order _ _ hE.sets' fun l => List.Perm.refl (id l), S.frame_mix] at this
  exact exc_nat2 this fun _ => rfl

end

end

/-! ## A concrete case -/

namespace Sample

/-- Shift of integer coordinates. -/
def shift (a b : ℤ) : Similarity ℤ ℤ := ⟨RingHom.id ℤ, fun _ _ h => h, 1, one_pos, a, b⟩

theorem shift_x (a b c : ℤ) : (shift a b).x c = c + a := by simp [Similarity.x, shift]

theorem shift_y (a b c : ℤ) : (shift a b).y c = c + b := by simp [Similarity.y, shift]

theorem shift_d (a b c : ℤ) : (shift a b).d c = c := by simp [Similarity.d, shift]

variable (S : Similarity ℤ ℤ)

theorem cross_pos_point (a b p : Point ℤ) :
    0 < cross (S.point a) (S.point b) (S.point p) ↔ 0 < cross a b p := by
  have h := S.frame.orient_eq a b p
  rw [orient_def, orient_def] at h
  change signOrientation (cross (S.point a) (S.point b) (S.point p)) = _ at h
  generalize cross (S.point a) (S.point b) (S.point p) = u at h ⊢
  generalize cross a b p = v at h ⊢
  unfold signOrientation at h
  split_ifs at h <;> omega

theorem cross_zero_point (a b p : Point ℤ) :
    cross (S.point a) (S.point b) (S.point p) = 0 ↔ cross a b p = 0 := by
  have h := S.frame.orient_eq a b p
  rw [orient_def, orient_def] at h
  change signOrientation (cross (S.point a) (S.point b) (S.point p)) = _ at h
  generalize cross (S.point a) (S.point b) (S.point p) = u at h ⊢
  generalize cross a b p = v at h ⊢
  unfold signOrientation at h
  split_ifs at h <;> omega

theorem chainPop_point (p : Point ℤ) (l : List (Point ℤ)) :
    chainPop (S.point p) (l.map S.point) = (chainPop p l).map S.point := by
  induction l with
  | nil => rfl
  | cons b l ih =>
    cases l with
    | nil => rfl
    | cons a l =>
      simp only [List.map_cons, chainPop, cross_pos_point] at ih ⊢
      split
      · rfl
      · exact ih

theorem chain_point (l : List (Point ℤ)) : chain (l.map S.point) = (chain l).map S.point := by
  unfold chain
  rw [List.map_reverse]
  congr 1
  have : ∀ acc : List (Point ℤ), (l.map S.point).foldl (fun acc p => p :: chainPop p acc) (acc.map S.point) =
      (l.foldl (fun acc p => p :: chainPop p acc) acc).map S.point := by
    induction l with
    | nil => intro acc; rfl
    | cons a l ih =>
      intro acc
      simp only [List.map_cons, List.foldl_cons, chainPop_point]
      exact ih (a :: chainPop a acc)
  exact this []

theorem hull_point (l : List (Point ℤ)) : hull (l.map S.point) = (hull l).map S.point := by
  unfold hull
  have e1 : pySort Point.leB (l.map S.point) = (pySort Point.leB l).map S.point := S.frame.sort_pt l
  have e2 : ((pySort Point.leB l).map S.point).dedup = (pySort Point.leB l).dedup.map S.point :=
    List.dedup_map_of_injective S.frame.pt_inj _
  simp only [e1, e2, ← List.map_reverse, chain_point, ← List.map_dropLast, ← List.map_append]

theorem crossOrOverlap_point (l : List (Segment ℤ)) :
    crossOrOverlap (l.map S.segment) = crossOrOverlap l := by
  induction l with
  | nil => rfl
  | cons s l ih =>
    simp only [List.map_cons, crossOrOverlap, ih, List.any_map]
    congr 2
    funext t
    exact S.frame.pair_eq s t

theorem onSegment_point (s : Segment ℤ) (p : Point ℤ) :
    onSegment (S.segment s) (S.point p) = onSegment s p := by
  unfold onSegment
  have e : ∀ a b c : ℤ, (min (S.x a) (S.x b) ≤ S.x c ↔ min a b ≤ c) ∧
      (S.x c ≤ max (S.x a) (S.x b) ↔ c ≤ max a b) ∧ (min (S.y a) (S.y b) ≤ S.y c ↔ min a b ≤ c) ∧
      (S.y c ≤ max (S.y a) (S.y b) ↔ c ≤ max a b) := by
    intro a b c
    rw [← S.x_mono.monotone.map_min, ← S.x_mono.monotone.map_max, ← S.y_mono.monotone.map_min,
      ← S.y_mono.monotone.map_max]
    exact ⟨S.x_mono.le_iff_le, S.x_mono.le_iff_le, S.y_mono.le_iff_le, S.y_mono.le_iff_le⟩
  congr 1
  · exact decide_eq_decide.2 (cross_zero_point S _ _ _)
  · apply decide_eq_decide.2
    simp only [Similarity.segment, Similarity.point, (e _ _ _).1, (e _ _ _).2.1, (e _ _ _).2.2.1,
      (e _ _ _).2.2.2]

theorem meet_point (s t : Segment ℤ) : meet (S.segment s) (S.segment t) = meet s t := by
  have e : segmentsProperCross (S.segment s) (S.segment t) = segmentsProperCross s t := by
    unfold segmentsProperCross
    have h : ∀ a b c, orient (S.point a) (S.point b) (S.point c) = orient a b c := S.frame.orient_eq
    simp only [Similarity.segment, h]
  have o1 : ∀ s t : Segment ℤ, onSegment (S.segment s) (S.segment t).start = onSegment s t.start :=
    fun s t => onSegment_point S s t.start
  have o2 : ∀ s t : Segment ℤ, onSegment (S.segment s) (S.segment t).stop = onSegment s t.stop :=
    fun s t => onSegment_point S s t.stop
  unfold meet
  simp only [e, o1, o2]

theorem nearest_point (l : List (Segment ℤ)) (s : Segment ℤ) :
    nearest (l.map S.segment) (S.segment s) = S.segment (nearest l s) := by
  unfold nearest
  have e1 : (l.map S.segment).find? (meet (S.segment s)) = (l.find? (meet s)).map S.segment := by
    rw [List.find?_map]
    congr 2
    funext t
    exact meet_point S s t
  have e2 : (l.map S.segment).headD (S.segment s) = S.segment (l.headD s) := by cases l <;> rfl
  rw [e1, e2]
  cases l.find? (meet s) <;> rfl

theorem mean_point (a b : ℤ) (l : List (Point ℤ)) (h : 2 < l.length) :
    mean (l.map (shift a b).point) = (shift a b).point (mean l) := by
  have s : ∀ (f : Point ℤ → ℤ) (t : ℤ) (l : List (Point ℤ)),
      (l.map fun p => f p + t).sum = (l.map f).sum + t * l.length := by
    intro f t l
    induction l with
    | nil => simp
    | cons p l ih => simp only [List.map_cons, List.sum_cons, ih, List.length_cons]; push_cast; ring
  have hx : (l.map (shift a b).point).map Point.x = l.map fun p => p.x + a := by
    simp [List.map_map, Function.comp_def, Similarity.point, shift_x]
  have hy : (l.map (shift a b).point).map Point.y = l.map fun p => p.y + b := by
    simp [List.map_map, Function.comp_def, Similarity.point, shift_y]
  have hn : (l.length : ℤ) ≠ 0 := by omega
  unfold mean
  rw [hx, hy, s, s, List.length_map, Int.add_mul_ediv_right _ _ hn, Int.add_mul_ediv_right _ _ hn]
  simp only [Similarity.point, shift_x, shift_y]

/-- The sample environment does the same in shifted coordinates. -/
theorem sameTools (a b : ℤ) : SameTools (shift a b) env env where
  fuel := rfl
  coins := rfl
  edges := rfl
  hull := hull_point _
  cross := crossOrOverlap_point _
  nearest l s _ := nearest_point _ l s
  mean := mean_point a b
  centroid := mean_point a b
  angle y x := by rw [shift_d, shift_d]
  sets _ := List.Perm.refl _
  sets' _ := List.Perm.refl _

/-- Polygons with abscissas `10, ..., 16` and ordinates `-3, ..., 3` are the shifted polygons with
coordinates `0, ..., 6`. -/
example : polygons env (sampledFrom [10, 11, 12, 13, 14, 15, 16])
      (some (sampledFrom [-3, -2, -1, 0, 1, 2, 3])) =
    Image (shift 10 (-3)).polygon (polygons env (sampledFrom (coords 7)) (some (sampledFrom (coords 7)))) := by
  rw [← C58_polygons (shift 10 (-3)) (sampledFrom (coords 7)) (some (sampledFrom (coords 7)))
    (by simp) (sameTools 10 (-3)) 3 none 0 none 3 none]
  have ex : (sampledFrom (coords 7)).map (shift 10 (-3)).x =
      sampledFrom [10, 11, 12, 13, 14, 15, 16] := by
    rw [← sampledFrom_nat]
    rfl
  have ey : (sampledFrom (coords 7)).map (shift 10 (-3)).y = sampledFrom [-3, -2, -1, 0, 1, 2, 3] := by
    rw [← sampledFrom_nat]
    rfl
  rw [ex, Option.map_some, ey]

/-- Integers as fractions, in units of one third. -/
example : ∃ S : Similarity ℤ ℚ, S.x 2 = 2 / 3 ∧
    boxes ((sampledFrom [0, 1, 2]).map S.x) none = Image S.box (boxes (sampledFrom [0, 1, 2]) none) := by
  refine ⟨⟨Int.castRingHom ℚ, fun a b h => by simpa using h, 1 / 3, by norm_num, 0, 0⟩, ?_, ?_⟩
  · norm_num [Similarity.x]
  · exact C58_boxes _ _ none fun _ => rfl

end Sample

end HG
