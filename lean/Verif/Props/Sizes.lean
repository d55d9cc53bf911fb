import Verif.Lemmas.Sizes
import Verif.Props.Validation
import Verif.Props.Simple
import Verif.Spec.Sample

/-!
# Sizes of generated geometries (C10, C17, C19, C21, C25, C27, C28)
-/

set_option linter.unusedSectionVars false

namespace HG

open Strategy Spec

section
variable {K : Type} [LinearOrder K] [Zero K] [Add K] [Sub K] [Predicates K]

theorem okBounds_of {lo : Int} {hi : Option Int} {least : Int} (h : ¬ BadBounds lo hi least) :
    OkBounds least (max lo least) hi := by
  refine ⟨le_max_right _ _, fun m e => ?_⟩
  by_contra hc
  apply h
  refine ⟨m, e, ?_⟩
  have : ¬ (lo ≤ m ∧ least ≤ m) := fun h' => hc (max_le h'.1 h'.2)
  omega

/-- C10: the number of vertices of a contour. -/
theorem C10_contour_sizes (env : Env K) (x : Strategy K) (y : Option (Strategy K)) (lo : Int)
    (hi : Option Int) (c : Contour K) :
    (∀ s, contours env x y lo hi = .ok s → s.2.val c →
      SizeIn (max lo 3) hi c.vertices.length) ∧
    (∀ s, convexContours env x y lo hi = .ok s → s.2.val c →
      SizeIn (max lo 3) hi c.vertices.length) ∧
    (∀ s, starContours env x y lo hi = .ok s → s.2.val c →
      SizeIn (max lo 3) hi c.vertices.length) ∧
    (∀ s, concaveContours env x y lo hi = .ok s → s.2.val c →
      SizeIn (max lo 4) hi c.vertices.length) := by
  refine ⟨?_, ?_, ?_, ?_⟩ <;> intro s h hc
  all_goals
    simp only [contours, convexContours, starContours, concaveContours, exc_bind_ok, exc_pure_ok,
      validate_ok] at h
    obtain ⟨w, ⟨hb, rfl⟩, rfl⟩ := h
    obtain ⟨vs, hvs, rfl⟩ := hc
  · exact vertexSequence_size (okBounds_of hb) hvs
  · exact convex_size (okBounds_of hb) hvs
  · exact star_size hvs
  · exact concave_size hvs

/-- C17: the number of segments of a multisegment. -/
theorem C17_multisegment_sizes (env : Env K) (x : Strategy K) (y : Option (Strategy K)) (lo : Int)
    (hi : Option Int) (s : Made (List (Segment K))) (hs : multisegments env x y lo hi = .ok s)
    (l : List (Segment K)) (h : s.2.val l) : SizeIn (max lo 2) hi l.length := by
  simp only [multisegments, exc_bind_ok, exc_pure_ok, validate_ok] at hs
  obtain ⟨w, ⟨hb, rfl⟩, rfl⟩ := hs
  obtain ⟨h1, h2⟩ := okBounds_of hb
  exact segmentSequence_size ⟨by omega, h2⟩ h

/-- C19: sizes of multicontours. -/
theorem C19_multicontour_sizes (env : Env K) (x : Strategy K) (y : Option (Strategy K)) (lo : Int)
    (hi : Option Int) (clo : Int) (chi : Option Int) (s : Made (List (Contour K)))
    (hs : multicontours env x y lo hi clo chi = .ok s) (l : List (Contour K)) (h : s.2.val l) :
    SizeIn (max lo 2) hi l.length ∧ ∀ c ∈ l, SizeIn (max clo 3) chi c.vertices.length := by
  simp only [multicontours, exc_bind_ok, exc_pure_ok, validate_ok] at hs
  obtain ⟨w, ⟨hb, rfl⟩, w', ⟨hb', rfl⟩, rfl⟩ := hs
  exact multicontour_sizes h

/-- The border and the holes of a polygon have sizes in the given ranges. -/
def Spec.PolygonSizeIn (lo : Int) (hi : Option Int) (nlo : Int) (nhi : Option Int) (hlo : Int)
    (hhi : Option Int) (p : Polygon K) : Prop :=
  SizeIn lo hi p.border.vertices.length ∧ SizeIn nlo nhi p.holes.length ∧
    ∀ c ∈ p.holes, SizeIn hlo hhi c.vertices.length

/-- C21: sizes of polygons. -/
theorem C21_polygon_sizes (env : Env K) (x : Strategy K) (y : Option (Strategy K)) (lo : Int)
    (hi : Option Int) (nlo : Int) (nhi : Option Int) (hlo : Int) (hhi : Option Int)
    (s : Made (Polygon K)) (hs : polygons env x y lo hi nlo nhi hlo hhi = .ok s) (p : Polygon K)
    (h : s.2.val p) :
    PolygonSizeIn (max lo 3) hi (max nlo 0) nhi (max hlo 3) hhi p := by
  simp only [polygons, exc_bind_ok, exc_pure_ok, validate_ok] at hs
  obtain ⟨w, ⟨hb, rfl⟩, w', ⟨hb', rfl⟩, w'', ⟨hb'', rfl⟩, rfl⟩ := hs
  exact polygon_sizes h

/-- C25: sizes of multipolygons; the lower bound of the number of holes is the given one (see
`C32_multipolygons_negative`). -/
theorem C25_multipolygon_sizes (env : Env K) (x : Strategy K) (y : Option (Strategy K)) (lo : Int)
    (hi : Option Int) (blo : Int) (bhi : Option Int) (nlo : Int) (nhi : Option Int) (hlo : Int)
    (hhi : Option Int) (s : Made (List (Polygon K)))
    (hs : multipolygons env x y lo hi blo bhi nlo nhi hlo hhi = .ok s) (l : List (Polygon K))
    (h : s.2.val l) : SizeIn (max lo 2) hi l.length ∧
      ∀ p ∈ l, PolygonSizeIn (max blo 3) bhi (max nlo 0) nhi (max hlo 3) hhi p := by
  simp only [multipolygons, exc_bind_ok, exc_pure_ok, validate_ok] at hs
  obtain ⟨w, ⟨hb, rfl⟩, w', ⟨hb', rfl⟩, w'', ⟨hb'', rfl⟩, w''', ⟨_, rfl⟩, s, hs, rfl⟩ := hs
  obtain ⟨h1, h2⟩ := multipolygon_sizes (by simp) (fun m e => by
    by_contra hc
    exact hb'' ⟨m, e, Or.inr (Or.inl (not_le.1 hc))⟩) hs h
  refine ⟨h1, fun p hp => ?_⟩
  obtain ⟨h3, h4, h5⟩ := h2 p hp
  exact ⟨h3, ⟨max_le h4.1 (by simp), h4.2⟩, h5⟩

/-! ## Mixes -/

/-- Points of the discrete component. -/
def Spec.mixPoints (g : Mix K) : List (Point K) :=
  match g.discrete with
  | .empty => []
  | .multipoint l => l

/-- Segments of the linear component. -/
def Spec.mixSegments (g : Mix K) : List (Segment K) :=
  match g.linear with
  | .empty => []
  | .segment s => [s]
  | .multisegment l => l

/-- Polygons of the shaped component. -/
def Spec.mixPolygons (g : Mix K) : List (Polygon K) :=
  match g.shaped with
  | .empty => []
  | .polygon p => [p]
  | .multipolygon l => l

/-- Components are packed as tightly as possible: no empty multipoints, multisegments of at least
two segments, multipolygons of at least two polygons. -/
def Spec.Packed (g : Mix K) : Prop :=
  (∀ l, g.discrete = .multipoint l → 1 ≤ l.length) ∧
  (∀ l, g.linear = .multisegment l → 2 ≤ l.length) ∧
  (∀ l, g.shaped = .multipolygon l → 2 ≤ l.length)

theorem unpackPoints_spec (l : List (Point K)) (a : Linear K) (b : Shaped K) :
    mixPoints ⟨unpackPoints l, a, b⟩ = l := by
  cases l <;> rfl

theorem unpackSegments_spec (l : List (Segment K)) (a : Discrete K) (b : Shaped K) :
    mixSegments ⟨a, unpackSegments l, b⟩ = l := by
  match l with
  | [] => rfl
  | [s] => rfl
  | s :: t :: l => rfl

theorem unpackPolygons_spec (l : List (Polygon K)) (a : Discrete K) (b : Linear K) :
    mixPolygons ⟨a, b, unpackPolygons l⟩ = l := by
  match l with
  | [] => rfl
  | [s] => rfl
  | s :: t :: l => rfl

theorem unpack_packed (p : List (Point K)) (s : List (Segment K)) (g : List (Polygon K)) :
    Packed ⟨unpackPoints p, unpackSegments s, unpackPolygons g⟩ := by
  refine ⟨?_, ?_, ?_⟩
  · intro l h
    match p with
    | [] => simp [unpackPoints] at h
    | a :: p => simp only [unpackPoints, Discrete.multipoint.injEq] at h; subst h; simp
  · intro l h
    match s with
    | [] => simp [unpackSegments] at h
    | [a] => simp [unpackSegments] at h
    | a :: b :: s => simp only [unpackSegments, Linear.multisegment.injEq] at h; subst h; simp
  · intro l h
    match g with
    | [] => simp [unpackPolygons] at h
    | [a] => simp [unpackPolygons] at h
    | a :: b :: s => simp only [unpackPolygons, Shaped.multipolygon.injEq] at h; subst h; simp

/-- What is known of a mix drawn with given sizes. -/
def MixSizesOk (z : MixSizes) (g : Mix K) : Prop :=
  SizeIn z.minPoints z.maxPoints (mixPoints g).length ∧
  SizeIn z.minSegments z.maxSegments (mixSegments g).length ∧
  SizeIn z.minPolygons z.maxPolygons (mixPolygons g).length ∧
  (∀ p ∈ mixPolygons g, PolySizesOk z.polygon p) ∧ Packed g

theorem coordsToMix_sizes {env : Env K} {alongX : Bool} {other : Strategy K} {z : MixSizes}
    {mp : Int} {coords : List K} (hmp : 0 ≤ mp) (hg : 0 ≤ z.minPolygons)
    (hp : ∀ m, z.maxPoints = some m → z.minPoints ≤ m) {g : Mix K}
    (h : (coordsToMix env alongX other z mp coords).val g) : MixSizesOk z g := by
  simp only [coordsToMix, val_bind, val_permutations, val_pure] at h
  obtain ⟨c, hc, drawers, hd, s, hs, rfl⟩ := h
  obtain ⟨⟨h1, h2, h3⟩, ⟨sp, h4, h5, h6, h7⟩, h8, h9, _⟩ := pointCounts_sizes hg hp hc
  have hmem : ∀ p ∈ drawers, (p.1 = .points ∧ p.2 ∈ c.1) ∨ (p.1 = .segments ∧ p.2 ∈ c.2.1) ∨
      (p.1 = .polygon ∧ p.2 ∈ c.2.2) := by
    intro p hp
    have := (hd.mem_iff).1 hp
    simp only [List.mem_append, List.mem_map] at this
    rcases this with (⟨a, ha, rfl⟩ | ⟨a, ha, rfl⟩) | ⟨a, ha, rfl⟩ <;> simp [ha]
  obtain ⟨k1, k2, k3, k4⟩ := mixLoop_sizes drawers (fun p hp => by
      rcases hmem p hp with ⟨_, h⟩ | ⟨_, h⟩ | ⟨_, h⟩
      · exact le_trans (by norm_num) (h3 _ h)
      · rw [h4] at h
        obtain ⟨a, ha, h⟩ := List.mem_map.1 h
        have := h5 a ha
        omega
      · exact le_trans hmp (h9 _ h))
    (fun p hp he => by
      rcases hmem p hp with ⟨h', h⟩ | ⟨h', h⟩ | ⟨h', h⟩
      · rw [he] at h'; cases h'
      · rw [h4] at h
        obtain ⟨a, ha, h⟩ := List.mem_map.1 h
        omega
      · rw [he] at h'; cases h') _ _ _ hs
  have hdouble : (sp.map (2 * ·)).sum = 2 * sp.sum := by
    clear h4 h5 h6 h7
    induction sp with
    | nil => rfl
    | cons a l ih => simp only [List.map_cons, List.sum_cons, ih]; ring
  rw [pieceSum_perm _ hd, pieceSum_append, pieceSum_append, pieceSum_map, pieceSum_map,
    pieceSum_map] at k1 k2
  have k3' : s.polygons.length = c.2.2.length := by
    rw [(hd.filter _).length_eq] at k3
    simpa [List.filter_append, List.filter_map, Function.comp_def] using k3
  simp only [reduceCtorEq, if_true, if_false, List.length_nil] at k1 k2
  rw [h4, hdouble] at k2
  refine ⟨?_, ?_, ?_, ?_, unpack_packed _ _ _⟩
  · rw [unpackPoints_spec]
    exact ⟨by omega, fun m e => by have := h2 m e; omega⟩
  · rw [unpackSegments_spec]
    exact ⟨by omega, fun m e => by have := h7 m e; omega⟩
  · rw [unpackPolygons_spec, k3']
    exact h8
  · rw [unpackPolygons_spec]
    exact k4 (by simp)

theorem toMix_sizes {env : Env K} {x : Strategy K} {y : Option (Strategy K)} {z : MixSizes}
    (h3 : 3 ≤ z.polygon.minSize) (hn : 0 ≤ z.polygon.minHoleCount)
    (hh : 0 ≤ z.polygon.minHoleSize) (hg : 0 ≤ z.minPolygons)
    (hp : ∀ m, z.maxPoints = some m → z.minPoints ≤ m) {s : Strategy (Mix K)}
    (hs : toMixStrategy env x y z = .ok s) {g : Mix K} (h : s.val g) : MixSizesOk z g := by
  simp only [toMixStrategy, exc_bind_ok, exc_pure_ok] at hs
  obtain ⟨mp, hmp, rfl⟩ := hs
  obtain ⟨p, hp', _⟩ := toNextPrime_spec
    (z.polygon.minSize + z.polygon.minHoleCount * z.polygon.minHoleSize) (by nlinarith)
  rw [hp'] at hmp
  cases hmp
  rcases h with ⟨c, _, h⟩ | ⟨c, _, h⟩ <;> exact coordsToMix_sizes (by positivity) hg hp h

theorem unionMixes_val {env : Env K} {x : Strategy K} {y : Option (Strategy K)}
    {l : List MixSizes} {s : Strategy (Mix K)} (hs : unionMixes env x y l = .ok s) {g : Mix K}
    (h : s.val g) : ∃ z ∈ l, ∃ t, toMixStrategy env x y z = .ok t ∧ t.val g := by
  induction l generalizing s with
  | nil =>
    simp only [unionMixes, exc_pure_ok] at hs
    subst hs
    exact absurd h (by simp)
  | cons z l ih =>
    cases l with
    | nil => exact ⟨z, by simp, s, hs, h⟩
    | cons z' l =>
      simp only [unionMixes, exc_bind_ok, exc_pure_ok] at hs
      obtain ⟨t, ht, r, hr, rfl⟩ := hs
      rcases h with h | h
      · exact ⟨z, by simp, t, ht, h⟩
      · obtain ⟨z'', hz, rest⟩ := ih hr h
        exact ⟨z'', by simp [hz], rest⟩

/-- Number of non-empty components. -/
def Spec.nonEmptyComponents (g : Mix K) : Nat :=
  (if mixPoints g = [] then 0 else 1) + (if mixSegments g = [] then 0 else 1) +
    (if mixPolygons g = [] then 0 else 1)

/-- The shape of the branches of `mixes`. -/
theorem branches_spec (a : MixArgs) (z : MixSizes) (hz : z ∈ a.branches) :
    z.maxPoints = a.maxPointsSize ∧ z.maxSegments = a.maxSegmentsSize ∧
    z.maxPolygons = a.maxPolygonsSize ∧ z.polygon = (a.sizes 0 0 0).polygon ∧
    (z.minPoints = max a.minPointsSize 0 ∨
      (z.minPoints = max (max a.minPointsSize 0) 1 ∧ a.maxPointsSize ≠ some 0)) ∧
    max a.minSegmentsSize 0 ≤ z.minSegments ∧ max a.minPolygonsSize 0 ≤ z.minPolygons ∧
    ((1 ≤ z.minPoints ∧ 1 ≤ z.minSegments) ∨ (1 ≤ z.minPoints ∧ 1 ≤ z.minPolygons) ∨
      (1 ≤ z.minSegments ∧ 1 ≤ z.minPolygons)) := by
  have hp := a.branches_polygon z hz
  unfold MixArgs.branches at hz
  simp only at hz
  split at hz
  · rename_i hd
    rw [mayBeNonEmpty_iff] at hd
    split at hz
    · split at hz
      · simp only [List.mem_cons, List.not_mem_nil, or_false] at hz
        rcases hz with rfl | rfl | rfl <;> simp [MixArgs.sizes, hd] <;> omega
      · simp only [List.mem_cons, List.not_mem_nil, or_false] at hz
        subst hz; simp [MixArgs.sizes, hd]; omega
    · simp only [List.mem_cons, List.not_mem_nil, or_false] at hz
      subst hz; simp [MixArgs.sizes, hd]; omega
  · simp only [List.mem_cons, List.not_mem_nil, or_false] at hz
    subst hz; simp [MixArgs.sizes]; omega

theorem mixes_val {env : Env K} {x : Strategy K} {y : Option (Strategy K)} {a : MixArgs}
    {s : Made (Mix K)} (hs : mixes env x y a = .ok s) {g : Mix K} (h : s.2.val g) :
    ¬ MixBadBounds a ∧ ∃ z ∈ a.branches, MixSizesOk z g ∧ ∃ t, toMixStrategy env x y z = .ok t ∧
      t.val g := by
  simp only [mixes, exc_bind_ok, validate_ok] at hs
  obtain ⟨w1, ⟨b1, rfl⟩, w2, ⟨b2, rfl⟩, w3, ⟨b3, rfl⟩, w4, ⟨b4, rfl⟩, w5, ⟨b5, rfl⟩, w6, ⟨b6, rfl⟩,
      hs⟩ := hs
  split at hs
  · simp [exc_throw_ok] at hs
  · simp only [exc_bind_ok, exc_pure_ok] at hs
    obtain ⟨t, ht, rfl⟩ := hs
    refine ⟨by simp [MixBadBounds, b1, b2, b3, b4, b5, b6], ?_⟩
    obtain ⟨z, hz, t, ht, hg⟩ := unionMixes_val ht h
    obtain ⟨e1, e2, e3, e4, e5, e6, e7, e8⟩ := branches_spec a z hz
    refine ⟨z, hz, toMix_sizes ?_ ?_ ?_ ?_ ?_ ht hg, t, ht, hg⟩
    · rw [e4]; exact le_max_right _ _
    · rw [e4]; exact le_max_right _ _
    · rw [e4]; exact le_trans (by norm_num) (le_max_right _ _)
    · exact le_trans (le_max_right _ _) e7
    · intro m e
      rw [e1] at e
      have hm := (okBounds_of b1).2 m e
      rcases e5 with h | ⟨h, h'⟩
      · rw [h]; exact hm
      · rw [h]
        rw [e] at h'
        have : m ≠ 0 := fun hc => h' (by rw [hc])
        have : 0 ≤ m := le_trans (le_max_right _ _) hm
        exact max_le hm (by omega)

/-- C27: sizes of mixes. -/
theorem C27_mix_sizes (env : Env K) (x : Strategy K) (y : Option (Strategy K)) (a : MixArgs)
    (s : Made (Mix K)) (hs : mixes env x y a = .ok s) (g : Mix K) (h : s.2.val g) :
    SizeIn (max a.minPointsSize 0) a.maxPointsSize (mixPoints g).length ∧
    SizeIn (max a.minSegmentsSize 0) a.maxSegmentsSize (mixSegments g).length ∧
    SizeIn (max a.minPolygonsSize 0) a.maxPolygonsSize (mixPolygons g).length ∧
    ∀ p ∈ mixPolygons g, PolygonSizeIn (max a.minPolygonBorderSize 3) a.maxPolygonBorderSize
      (max a.minPolygonHolesSize 0) a.maxPolygonHolesSize (max a.minPolygonHoleSize 3)
      a.maxPolygonHoleSize p := by
  obtain ⟨_, z, hz, ⟨h1, h2, h3, h4, h5⟩, _⟩ := mixes_val hs h
  obtain ⟨e1, e2, e3, e4, e5, e6, e7, e8⟩ := branches_spec a z hz
  rw [e1] at h1
  rw [e2] at h2
  rw [e3] at h3
  refine ⟨⟨le_trans ?_ h1.1, h1.2⟩, ⟨le_trans e6 h2.1, h2.2⟩, ⟨le_trans e7 h3.1, h3.2⟩, ?_⟩
  · rcases e5 with h | ⟨h, _⟩ <;> rw [h]
    exact le_max_left _ _
  · intro p hp
    have := h4 p hp
    rw [e4] at this
    exact this

/-- C28: at least two components of a mix are non-empty, and components are unpacked. -/
theorem C28_mix_components (env : Env K) (x : Strategy K) (y : Option (Strategy K)) (a : MixArgs)
    (s : Made (Mix K)) (hs : mixes env x y a = .ok s) (g : Mix K) (h : s.2.val g) :
    2 ≤ nonEmptyComponents g ∧ Packed g := by
  obtain ⟨_, z, hz, ⟨h1, h2, h3, h4, h5⟩, _⟩ := mixes_val hs h
  obtain ⟨e1, e2, e3, e4, e5, e6, e7, e8⟩ := branches_spec a z hz
  refine ⟨?_, h5⟩
  have k1 := h1.1
  have k2 := h2.1
  have k3 := h3.1
  have ne : ∀ {α : Type} {l : List α} {n : Int}, 1 ≤ n → n ≤ l.length → l ≠ [] := by
    rintro α l n h1 h2 rfl
    simp at h2
    omega
  unfold nonEmptyComponents
  rcases e8 with ⟨a, b⟩ | ⟨a, b⟩ | ⟨a, b⟩
  · rw [if_neg (ne a k1), if_neg (ne b k2)]; omega
  · rw [if_neg (ne a k1), if_neg (ne b k3)]; omega
  · rw [if_neg (ne a k2), if_neg (ne b k3)]; omega

/-! ## Concrete cases -/

section
open Sample

/-- Non-vacuity for C10: a triangle of `contours`. -/
example : ∃ s, contours env (sampledFrom [0, 1]) none 3 none = .ok s ∧
    s.2.val ⟨[⟨0, 0⟩, ⟨1, 0⟩, ⟨0, 1⟩]⟩ := by
  refine ⟨_, rfl, _, Or.inl (Or.inl ?_), rfl⟩
  refine ⟨(⟨0, 0⟩, ⟨1, 0⟩, ⟨0, 1⟩), ⟨?_, by decide⟩, by decide⟩
  simp [toPointStrategy, yOr]

/-- Non-vacuity for C17: three collinear segments of `multisegments`. -/
example : ∃ s, multisegments env (sampledFrom [0, 1, 5]) none 1 none = .ok s ∧
    s.2.val [⟨⟨0, 0⟩, ⟨0, 1⟩⟩, ⟨⟨0, 1⟩, ⟨0, 5⟩⟩] := by
  refine ⟨_, rfl, Or.inl (Or.inl (Or.inl ?_))⟩
  refine ⟨(0, [5, 0, 1]), ?_, by decide⟩
  simp [yOr]

/-- Non-vacuity for C19: two triangles of `multicontours`. -/
theorem sample_multicontours : ∃ s, multicontours env (sampledFrom (coords 7)) none = .ok s ∧
    s.2.val [⟨[⟨0, 0⟩, ⟨1, 1⟩, ⟨2, 4⟩]⟩, ⟨[⟨3, 2⟩, ⟨4, 2⟩, ⟨5, 4⟩]⟩] := by
  refine ⟨_, rfl, ⟨parab 7, generalPosition7 _ _ rfl trivial, ?_⟩, by decide⟩
  simp only [val_mapE, val_prod]
  refine ⟨([3, 3], fun _ => true), ⟨⟨2, ⟨by decide, by decide⟩, ?_⟩, trivial⟩, by decide +kernel⟩
  simp only [toSizes, val_bind, val_ofExcept, val_bind', val_sequence, val_permutations]
  exact ⟨[4, 3], by decide +kernel, [3, 3], by
    simp only [List.map_cons, List.map_nil, List.forall₂_cons, val_sampledFrom,
      List.forall₂_nil_left_iff]
    decide, List.Perm.refl _⟩

/-- Non-vacuity for C21: a polygon with a hole. -/
theorem sample_polygons : ∃ s, polygons env (sampledFrom (coords 7)) none (minHolesSize := 1) =
      .ok s ∧
    s.2.val ⟨⟨[⟨0, 0⟩, ⟨6, 1⟩, ⟨5, 4⟩, ⟨2, 4⟩]⟩, [⟨[⟨1, 1⟩, ⟨3, 2⟩, ⟨4, 2⟩]⟩]⟩ := by
  refine ⟨_, rfl, ⟨parab 7, ⟨generalPosition7 _ _ rfl trivial, by decide +kernel⟩, ?_⟩, by decide⟩
  simp only [pointsToPolygonStrategy, val_mapE, val_prod]
  refine ⟨(4, [3], fun _ => true), ⟨by simp only [val_integers]; decide +kernel, ?_, trivial⟩,
    by decide +kernel⟩
  have h3 : ((parab 7).length : Int) - ((toMaxConvexHull (parab 7)).length : Nat) = 3 := by
    decide +kernel
  simp only [toHoleSizes, h3]
  rw [if_pos (by decide)]
  refine ⟨1, by simp only [val_integers]; decide +kernel, ?_⟩
  simp only [toHoleSizesAux]
  rw [if_neg (by decide)]
  simp only [val_bind, val_ofExcept, val_permutations, val_sequence]
  exact ⟨[3], by decide +kernel, [[3]], by decide +kernel, by
    simp only [List.map_cons, List.map_nil, List.forall₂_cons, val_sampledFrom,
      List.forall₂_nil_left_iff]
    decide⟩

/-- Non-vacuity for C27 and C28: a mix of one point and one segment. -/
theorem sample_mixes : ∃ s, mixes env (sampledFrom (coords 3)) none { maxPolygonsSize := some 0 }
      = .ok s ∧
    s.2.val ⟨.multipoint [⟨0, 0⟩], .segment ⟨⟨1, 0⟩, ⟨2, 2⟩⟩, .empty⟩ := by
  refine ⟨_, rfl, ?_⟩
  refine Or.inl ⟨coords 3, ⟨fun a h => h, by decide, by decide, trivial⟩, ?_⟩
  simp only [coordsToMix, val_bind, val_permutations, val_pure]
  refine ⟨([1], [2], []), ?_, [(.points, 1), (.segments, 2)], by decide, ?_⟩
  · simp only [toPointCounts, val_bind, val_sampledFrom, val_pure]
    refine ⟨0, ⟨by decide, by decide⟩, 0, by simp, [], by simp, 2, by decide, [1], ?_, [1], ?_, rfl⟩
    · exact ⟨1, ⟨by decide, by decide⟩, [], rfl, rfl⟩
    · exact ⟨1, ⟨by decide, by decide⟩, [], rfl, rfl⟩
  · refine ⟨⟨[⟨0, 0⟩], [⟨⟨1, 0⟩, ⟨2, 2⟩⟩], []⟩, ?_, rfl⟩
    simp only [mixLoop, val_bind]
    refine ⟨⟨[⟨0, 0⟩], [], []⟩, ?_, false, rfl, ⟨[⟨0, 0⟩], [⟨⟨1, 0⟩, ⟨2, 2⟩⟩], []⟩, ?_, false,
      rfl, rfl⟩
    · simp only [runDrawer, drawPoints, val_bind, val_pure]
      refine ⟨[⟨0, 0⟩], ⟨?_, by decide, by decide, by simp⟩, rfl⟩
      simp [toPointStrategy, yOr]
      decide
    · simp only [runDrawer, drawSegments, val_bind, val_pure]
      refine ⟨[⟨⟨1, 0⟩, ⟨2, 2⟩⟩], ⟨⟨⟨1, 0⟩, ⟨2, 2⟩⟩, ⟨(⟨1, 0⟩, ⟨2, 2⟩), ⟨?_, by decide⟩, rfl⟩, rfl⟩, rfl⟩
      simp [toPointStrategy, yOr]
      decide

end

end
end HG
