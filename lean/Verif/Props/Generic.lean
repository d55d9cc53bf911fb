import Verif.Delaunay.VertexSeq
import Verif.Lemmas.GoodContour

/-!
# C14, C15, C18, C22 for coordinates without slanted collinear triples

The vertex sequences of the library may cross themselves when three of the drawn points are on a
line (`Props/Simplicity.lean`).  Here: if three different points with drawn coordinates are never
on one line unless it is vertical or horizontal, then all of this cannot happen.
-/

set_option linter.unusedSectionVars false

namespace HG

open Strategy Spec

section
variable {K : Type} [CommRing K] [LinearOrder K] [IsStrictOrderedRing K] {o : EdgeOrder}

/-- Coordinate strategies such that three different points with drawn coordinates are on one line
only if this line is vertical or horizontal. -/
def Spec.GenericCoords (x : Strategy K) (y : Option (Strategy K)) : Prop :=
  ∀ a b c, Drawn x y a → Drawn x y b → Drawn x y c → a ≠ b → a ≠ c → b ≠ c → Collinear a b c →
    (a.x = b.x ∧ a.x = c.x) ∨ (a.y = b.y ∧ a.y = c.y)

/-! ## Vertex sequences -/

theorem toVertexSequence_noStall {fuel : Nat} {coins : Nat → List Nat} {pts : List (Point K)}
    {size : Int} {vs : List (Point K)} (h : toVertexSequence fuel coins o pts size = .ok vs)
    (h3 : 3 ≤ vs.length) : NoStall vs := by
  simp only [toVertexSequence, exc_bind_ok] at h
  obtain ⟨⟨m, t⟩, -, es, -, h⟩ := h
  unfold toVertexSequence' at h
  dsimp only at h
  split at h
  · rename_i hs
    simp only [exc_pure_ok] at h
    subst h
    omega
  · simp only [exc_bind_ok] at h
    obtain ⟨b, -, s, -, ec, -, eb, -, s', -, h⟩ := h
    simp only [triToBorderVertices, exc_bind_ok, exc_pure_ok] at h
    obtain ⟨es', -, rfl⟩ := h
    rcases compressContour_noStall (es'.map s'.mesh.start) with k | k
    · omega
    · exact k

theorem toVertexSequence_two {fuel : Nat} {coins : Nat → List Nat} {pts : List (Point K)}
    {size : Int} {vs : List (Point K)} (h : toVertexSequence fuel coins o pts size = .ok vs)
    (h3 : 3 ≤ vs.length) : 2 ≤ pts.length := by
  have hm := toVertexSequence_mem h
  have h1 := hm _ (cyc_mem (show 0 < vs.length by omega) 0)
  have h2 := hm _ (cyc_mem (show 0 < vs.length by omega) 1)
  have hne := toVertexSequence_noStall h h3 0 (by omega)
  rcases pts with _ | ⟨a, _ | ⟨b, l⟩⟩
  · simp at h1
  · simp only [List.mem_singleton] at h1 h2
    exact absurd (h1.trans h2.symm) hne
  · simp

/-- The vertex sequence of points no three of which are on a line is a simple, strict,
counterclockwise contour. -/
theorem toVertexSequence_good {fuel : Nat} {coins : Nat → List Nat} (hcoin : Sums coins)
    {pts : List (Point K)} {size : Int} {vs : List (Point K)} (hn : pts.Nodup) (hg : NoThree pts)
    (h : toVertexSequence fuel coins o pts size = .ok vs) (h3 : 3 ≤ vs.length) : GoodBorder vs := by
  obtain ⟨m, D, B, hB, rfl⟩ :=
    toVertexSequence_bord hn (hcoin _ (toVertexSequence_two h h3)) hg h h3
  have sc := hB.sc
  have sc' := sc.compress
  refine ⟨sc'.nodup, sc'.simple, sc'.noProperCross, ?_, ?_⟩
  · rcases compressContour_strict _ sc.nodup with h | h
    · omega
    · exact h
  · rw [shoelace_compress]; exact hB.area_pos

theorem noThree_mono {l m : List (Point K)} (h : NoThree l) (hs : ∀ p ∈ m, p ∈ l) : NoThree m :=
  fun a ha b hb c hc => h a (hs a ha) b (hs b hb) c (hs c hc)

/-- Drawn points of generic coordinates. -/
theorem generalPosition_noThree {x : Strategy K} {y : Option (Strategy K)} {lo : Int}
    {hi : Option Int} (hgen : GenericCoords x y) (hlo : 3 ≤ lo) {pts : List (Point K)}
    (h : (toGeneralPositionStrategy x y lo hi).val pts) : NoThree pts := by
  have hd := generalPosition_drawn hlo h
  obtain ⟨xs, ys, idx, hg, hn, -, -, h3, -⟩ := C34_general_position x y lo hi hlo pts h
  intro a ha b hb c hc hab hac hbc hcol
  have key := hgen a b c (hd a ha) (hd b hb) (hd c hc) hab hac hbc hcol
  rw [hg.points] at ha hb hc
  obtain ⟨i, hi, rfl⟩ := List.mem_map.1 ha
  obtain ⟨j, hj, rfl⟩ := List.mem_map.1 hb
  obtain ⟨k, hk, rfl⟩ := List.mem_map.1 hc
  have hij : i ≠ j := fun e => hab (by rw [e])
  have hik : i ≠ k := fun e => hac (by rw [e])
  have hjk : j ≠ k := fun e => hbc (by rw [e])
  obtain ⟨i1, i2, i3, i4⟩ := hg.range i hi
  obtain ⟨j1, j2, j3, j4⟩ := hg.range j hj
  obtain ⟨k1, k2, k3, k4⟩ := hg.range k hk
  apply h3 i hi j hj k hk hij hik hjk
  dsimp only at key
  rcases key with ⟨e1, e2⟩ | ⟨e1, e2⟩
  · have := getD_injOn hg.xs_lt (by omega) (by omega) e1
    have := getD_injOn hg.xs_lt (by omega) (by omega) e2
    rw [show j.1 = i.1 by omega, show k.1 = i.1 by omega]; ring
  · have := getD_injOn hg.ys_lt (by omega) (by omega) e1
    have := getD_injOn hg.ys_lt (by omega) (by omega) e2
    rw [show j.2 = i.2 by omega, show k.2 = i.2 by omega]; ring

/-! ## Multicontours -/

/-- Contours of a multicontour come from vertex sequences. -/
theorem multicontourLoop_from {env : Env K} (l : List (Int × Bool)) {pts : List (Point K)}
    {prior : Option Bool} (hn : pts.Nodup) {cs : List (Contour K)}
    (h : multicontourLoop env pts prior l = .ok cs) :
    ∀ c ∈ cs, ∃ (ps : List (Point K)) (n : Int), ps.Nodup ∧ (∀ p ∈ ps, p ∈ pts) ∧
      toVertexSequence env.fuel env.coinChange env.edgeOrder ps n = .ok c.vertices ∧ 3 ≤ c.vertices.length := by
  induction l generalizing pts prior cs with
  | nil =>
    simp only [multicontourLoop, exc_pure_ok] at h
    subst h; simp
  | cons a l ih =>
    obtain ⟨size, key⟩ := a
    simp only [multicontourLoop, exc_bind_ok] at h
    obtain ⟨vs, hvs, h⟩ := h
    have hperm : (if prior ≠ some key then sortByKey key pts else pts).Perm pts := by
      split
      · exact sortByKey_perm _ _
      · exact List.Perm.refl _
    generalize (if prior ≠ some key then sortByKey key pts else pts) = ps at hperm h hvs
    have hps : ps.Nodup := hperm.nodup_iff.2 hn
    split at h
    · rename_i h3
      simp only [exc_bind_ok, exc_pure_ok] at h
      obtain ⟨b, -, r, hr, rfl⟩ := h
      intro c hc
      rcases List.mem_cons.1 hc with rfl | hc
      · exact ⟨_, _, hps.sublist (List.take_sublist _ _),
          fun p hp => hperm.mem_iff.1 (List.mem_of_mem_take hp), hvs, h3⟩
      · obtain ⟨qs, n, h1, h2, h4⟩ := ih (hps.sublist (List.drop_sublist _ _)) hr c hc
        exact ⟨qs, n, h1, fun p hp => hperm.mem_iff.1 (List.mem_of_mem_drop (h2 p hp)), h4⟩
    · intro c hc
      obtain ⟨qs, n, h1, h2, h4⟩ := ih hps h c hc
      exact ⟨qs, n, h1, fun p hp => hperm.mem_iff.1 (h2 p hp), h4⟩

theorem multicontour_good {env : Env K} (hcoin : Sums env.coinChange) {x : Strategy K}
    {y : Option (Strategy K)} (hgen : GenericCoords x y) {lo : Int} {hi : Option Int} {clo : Int}
    {chi : Option Int} (h3 : 3 ≤ lo * clo) {cs : List (Contour K)}
    (h : (toMulticontourStrategy env x y lo hi clo chi).val cs) :
    ∀ c ∈ cs, GoodBorder c.vertices := by
  obtain ⟨h, -⟩ := h
  simp only [val_bind', val_mapE] at h
  obtain ⟨pts, hp, r, -, h⟩ := h
  have hno := generalPosition_noThree hgen h3 hp
  intro c hc
  obtain ⟨ps, n, hn, hsub, hv, hl⟩ :=
    multicontourLoop_from _ (C35_distinct x y _ _ h3 pts hp).1 h c hc
  exact toVertexSequence_good hcoin hn (noThree_mono hno hsub) hv hl

/-- C14, C15 for `multicontours`, without slanted collinear triples: every contour is simple,
strict and counterclockwise. -/
theorem C15_multicontours_partial (env : Env K) (hcoin : Sums env.coinChange) (x : Strategy K)
    (y : Option (Strategy K)) (hgen : GenericCoords x y) (lo : Int)
    (hi : Option Int) (clo : Int) (chi : Option Int) (s : Made (List (Contour K)))
    (hs : multicontours env x y lo hi clo chi = .ok s) (l : List (Contour K)) (h : s.2.val l) :
    ∀ c ∈ l, GoodBorder c.vertices := by
  simp only [multicontours, exc_bind_ok, exc_pure_ok, validate_ok] at hs
  obtain ⟨w, -, w', -, rfl⟩ := hs
  have h1 : 2 ≤ max lo 2 := le_max_right _ _
  have h2 : 3 ≤ max clo 3 := le_max_right _ _
  exact multicontour_good hcoin hgen (by nlinarith) h

/-! ## Contours -/

theorem vertexSequences_good {env : Env K} (hcoin : Sums env.coinChange) {x : Strategy K}
    {y : Option (Strategy K)} (hgen : GenericCoords x y) {lo : Int} {hi : Option Int}
    (h3 : 3 ≤ lo) {vs : List (Point K)} (h : (toVertexSequences env x y lo hi).val vs) :
    (toStarStrategy env x y lo hi).val vs ∨ GoodBorder vs := by
  rcases h with h | ⟨h, hsz⟩
  · exact .inl h
  · right
    rw [val_mapE] at h
    obtain ⟨⟨pts, n⟩, ⟨pts', hp, rfl, -⟩, h⟩ := h
    have hl : 3 ≤ vs.length := by
      have := ((hasValidSize_iff _ _ _).1 hsz).1
      omega
    exact toVertexSequence_good hcoin (C35_distinct x y _ _ h3 _ hp).1
      (generalPosition_noThree hgen h3 hp) h hl

theorem starContours_ok {env : Env K} {x : Strategy K} {y : Option (Strategy K)} {lo : Int}
    {hi : Option Int} (h3 : 3 ≤ lo) (hb : ∀ m, hi = some m → lo ≤ m) :
    starContours env x y lo hi = .ok ([], (toStarStrategy env x y lo hi).map Contour.mk) := by
  have := validate_max (lo := lo) (hi := hi) (least := 3) (by norm_num)
    (by rw [max_eq_left h3]; exact hb)
  rw [max_eq_left h3] at this
  unfold starContours
  rw [this, max_eq_left h3]
  rfl

/-- C14, C15 for `concave_contours`, without slanted collinear triples: a contour that is not a
star contour is simple, strict and counterclockwise. -/
theorem C15_concave_contours_partial (env : Env K) (hcoin : Sums env.coinChange) (x : Strategy K)
    (y : Option (Strategy K)) (hgen : GenericCoords x y) (lo : Int) (hi : Option Int)
    (s : Made (Contour K)) (hs : concaveContours env x y lo hi = .ok s) (c : Contour K)
    (h : s.2.val c) :
    (∃ r, starContours env x y (max lo 4) hi = .ok r ∧ r.2.val c) ∨ GoodBorder c.vertices := by
  simp only [concaveContours, exc_bind_ok, exc_pure_ok, validate_ok] at hs
  obtain ⟨w, ⟨hb, -⟩, rfl⟩ := hs
  obtain ⟨vs, ⟨h, -⟩, rfl⟩ := h
  obtain ⟨b1, b2⟩ := okBounds_of hb
  have h3 : 3 ≤ max lo 4 := by have := le_max_right lo 4; omega
  rcases vertexSequences_good hcoin hgen h3 h with h | h
  · exact .inl ⟨_, starContours_ok h3 b2, vs, h, rfl⟩
  · exact .inr h

/-- C14, C15 for `contours`, without slanted collinear triples: a contour that is not a
star contour is simple, strict and counterclockwise. -/
theorem C15_contours_partial (env : Env K) (hcoin : Sums env.coinChange)
    (henv : ∀ pts, HullOk (env.convexHull pts) pts) (x : Strategy K)
    (y : Option (Strategy K)) (hgen : GenericCoords x y) (lo : Int) (hi : Option Int)
    (s : Made (Contour K)) (hs : contours env x y lo hi = .ok s) (c : Contour K)
    (h : s.2.val c) :
    (∃ r, starContours env x y (max lo 3) hi = .ok r ∧ r.2.val c) ∨ GoodBorder c.vertices := by
  simp only [contours, exc_bind_ok, exc_pure_ok, validate_ok] at hs
  obtain ⟨w, ⟨hb, -⟩, rfl⟩ := hs
  obtain ⟨vs, h, rfl⟩ := h
  obtain ⟨b1, b2⟩ := okBounds_of hb
  have h3 : 3 ≤ max lo 3 := le_max_right lo 3
  rcases h with h | h
  · right
    have hok := convexContours_ok (env := env) (x := x) (y := y) b2
    rw [max_eq_left h3] at hok
    have hc := C15_convex_contours env henv x y _ hi _ hok ⟨vs⟩ ⟨vs, h, rfl⟩
    exact strictlyConvex_good hc.2 hc.1.1
  · rcases vertexSequences_good hcoin hgen h3 h with h | h
    · exact .inl ⟨_, starContours_ok h3 b2, vs, h, rfl⟩
    · exact .inr h

/-- C18 without slanted collinear triples: two segments of a multisegment may cross or overlap
only if all segments are edges of one star contour that crosses itself. -/
theorem C18_multisegments_generic_partial (env : Env K) (hcoin : Sums env.coinChange)
    (henv : ∀ pts, HullOk (env.convexHull pts) pts)
    (hcross : ∀ l : List (Segment K), (∀ t ∈ l, t.start ≠ t.stop) →
      env.segmentsCrossOrOverlap l = false → l.Pairwise NoCross)
    (x : Strategy K) (y : Option (Strategy K)) (hgen : GenericCoords x y) (lo : Int)
    (hi : Option Int) (s : Made (List (Segment K))) (hs : multisegments env x y lo hi = .ok s)
    (l : List (Segment K)) (h : s.2.val l) :
    l.Pairwise NoCross ∨
      ∃ r c, starContours env x (some (y.getD x)) (max lo 3) hi = .ok r ∧ r.2.val c ∧
        ¬ SimpleContour c.vertices ∧ ∀ t ∈ l, ∃ i < c.vertices.length, t = edge c.vertices i := by
  rcases C18_multisegments_partial env hcross x y lo hi s hs l h with h | ⟨r, c, hr, hc, h1, h2, h3⟩
  · exact .inl h
  · have hgen' : GenericCoords x (some (y.getD x)) := by
      intro a b c ha hb hc
      have : ∀ p, Drawn x (some (y.getD x)) p → Drawn x y p := by
        intro p hp; cases y <;> exact hp
      exact hgen a b c (this a ha) (this b hb) (this c hc)
    rcases C15_contours_partial env hcoin henv x _ hgen' _ hi r hr c hc with ⟨r', hr', h⟩ | h
    · rw [max_eq_left (le_max_right _ _)] at hr'
      exact .inr ⟨r', c, hr', h, h1, h3⟩
    · exact absurd h.simple h1

/-! ## Holes -/

/-- A well-formed hole: like a well-formed border, with the interior of the hole to the right. -/
structure Spec.GoodHole (l : List (Point K)) : Prop where
  nodup : l.Nodup
  simple : SimpleContour l
  nocross : NoProperCross l
  strict : StrictContour l
  cw : shoelace l < 0

theorem Spec.GoodBorder.reverse {l : List (Point K)} (h : GoodBorder l) : GoodHole (reverseVertices l) :=
  ⟨nodup_reverse h.nodup, simple_reverse h.simple, noProperCross_reverse h.nocross,
    strict_reverse h.strict, by rw [shoelace_reverse, neg_lt_zero]; exact h.ccw⟩

/-- Holes come from vertex sequences. -/
theorem holeLoop_from {env : Env K} (l : List (Int × Bool)) {s s' : HoleState K}
    {prior : Option Bool} {pts : List (Point K)} (hn : s.innerPoints.Nodup)
    (hsub : ∀ p ∈ s.innerPoints, p ∈ pts)
    (h0 : ∀ c ∈ s.holes, ∃ (ps : List (Point K)) (n : Int) (vs : List (Point K)), ps.Nodup ∧
      (∀ p ∈ ps, p ∈ pts) ∧ toVertexSequence env.fuel env.coinChange env.edgeOrder ps n = .ok vs ∧
      3 ≤ vs.length ∧ c.vertices = reverseVertices vs)
    (h : holeLoop env s prior l = .ok s') :
    ∀ c ∈ s'.holes, ∃ (ps : List (Point K)) (n : Int) (vs : List (Point K)), ps.Nodup ∧
      (∀ p ∈ ps, p ∈ pts) ∧ toVertexSequence env.fuel env.coinChange env.edgeOrder ps n = .ok vs ∧
      3 ≤ vs.length ∧ c.vertices = reverseVertices vs := by
  induction l generalizing s prior with
  | nil =>
    simp only [holeLoop, exc_pure_ok] at h
    exact h ▸ h0
  | cons a l ih =>
    obtain ⟨size, key⟩ := a
    simp only [holeLoop, exc_bind_ok] at h
    obtain ⟨vs, hvs, h⟩ := h
    have hperm : (if prior ≠ some key then sortByKey key s.innerPoints else s.innerPoints).Perm
        s.innerPoints := by
      split
      · exact sortByKey_perm _ _
      · exact List.Perm.refl _
    generalize (if prior ≠ some key then sortByKey key s.innerPoints else s.innerPoints) = ps
      at hperm h hvs
    have hps : ps.Nodup := hperm.nodup_iff.2 hn
    have hin : ∀ p ∈ ps, p ∈ pts := fun p hp => hsub p (hperm.mem_iff.1 hp)
    split at h
    · rename_i h3
      split at h
      · simp only [exc_throw_ok] at h
      · simp only [exc_bind_ok] at h
        obtain ⟨b, -, h⟩ := h
        refine ih (by exact hps.sublist (List.drop_sublist _ _))
          (by exact fun p hp => hin p (List.mem_of_mem_drop hp)) ?_ h
        intro c hc
        rcases List.mem_append.1 hc with hc | hc
        · exact h0 c hc
        · rw [List.mem_singleton.1 hc]
          exact ⟨_, _, vs, hps.sublist (List.take_sublist _ _),
            fun p hp => hin p (List.mem_of_mem_take hp), hvs, h3, rfl⟩
    · exact ih (by exact hps) (by exact hin) (by exact h0) h

theorem toPolygon_good_holes {env : Env K} (hcoin : Sums env.coinChange)
    (hset : ∀ l, (env.setOrder l).Perm l) {pts : List (Point K)} (hn : pts.Nodup)
    (hno : NoThree pts) {bs : Int} {hss : List Int} {ch : Nat → Bool} {p : Polygon K}
    (h : toPolygon env pts bs hss ch = .ok p) : ∀ c ∈ p.holes, GoodHole c.vertices := by
  simp only [toPolygon, exc_bind_ok] at h
  obtain ⟨⟨m, t⟩, hd, es, hes, hst, hh, cs, hcs, s, hs, bd, hbd, h⟩ := h
  split at h
  · simp only [exc_pure_ok] at h
    subst h
    intro c hc
    obtain ⟨ps, n, vs, h1, h2, h3, h4, h5⟩ := holeLoop_from (pts := pts) _
      (by exact (hset _).nodup_iff.2 (hn.filter _))
      (by exact fun p hp => (List.mem_filter.1 ((hset _).mem_iff.1 hp)).1) (by simp) hh c hc
    rw [h5]
    exact (toVertexSequence_good hcoin h1 (noThree_mono hno h2) h3 h4).reverse
  · simp only [exc_throw_ok] at h

/-- C14, C15 for the holes of `polygons`, without slanted collinear triples: every hole is a
simple, strict, clockwise contour. -/
theorem C15_holes_partial (env : Env K) (hcoin : Sums env.coinChange)
    (hset : ∀ l, (env.setOrder l).Perm l) (x : Strategy K) (y : Option (Strategy K))
    (hgen : GenericCoords x y) (lo : Int) (hi : Option Int) (nlo : Int) (nhi : Option Int)
    (hlo : Int) (hhi : Option Int) (s : Made (Polygon K))
    (hs : polygons env x y lo hi nlo nhi hlo hhi = .ok s) (p : Polygon K) (h : s.2.val p) :
    ∀ c ∈ p.holes, GoodHole c.vertices := by
  simp only [polygons, exc_bind_ok, exc_pure_ok, validate_ok] at hs
  obtain ⟨w, -, w', -, w'', -, rfl⟩ := hs
  have h1 : 3 ≤ max lo 3 := le_max_right _ _
  have h2 : 0 ≤ max nlo 0 := le_max_right _ _
  have h3 : 3 ≤ max hlo 3 := le_max_right _ _
  have h4 : 3 ≤ max lo 3 + max hlo 3 * max nlo 0 := by nlinarith
  obtain ⟨h, -⟩ := h
  simp only [val_bind', val_filter] at h
  obtain ⟨pts, ⟨hp, -⟩, h⟩ := h
  simp only [pointsToPolygonStrategy, val_mapE] at h
  obtain ⟨r, -, h⟩ := h
  exact toPolygon_good_holes hcoin hset (C35_distinct x y _ _ h4 pts hp).1
    (generalPosition_noThree hgen h4 hp) h

/-! ## The internal check -/

theorem ok_bind {α β : Type} (a : α) (f : α → Except Exc β) : (Except.ok a >>= f) = f a := rfl

/-- What a search for crossing or overlapping segments is expected not to do: report something for
proper segments no two of which cross or overlap. -/
def Spec.SoundCheck (check : List (Segment K) → Bool) : Prop :=
  ∀ l, (∀ t ∈ l, t.start ≠ t.stop) → l.Pairwise (fun s t => NoCross s t ∧ ¬ ProperCross s t) →
    check l = false

theorem noCross_symm {s t : Segment K} (h : NoCross s t ∧ ¬ ProperCross s t) :
    NoCross t s ∧ ¬ ProperCross t s := ⟨NoCross.symm h.1, fun hp => h.2 hp.symm⟩

theorem Spec.GoodHole.edges {l : List (Point K)} (h : GoodHole l) :
    (contourEdges l).Pairwise (fun s t => NoCross s t ∧ ¬ ProperCross s t) ∧
      ∀ t ∈ contourEdges l, t.start ≠ t.stop := by
  refine ⟨contourEdges_pairwise (fun s t => noCross_symm) fun i j hij hj =>
    ⟨simple_noCross h.simple hij hj, h.nocross i j hij hj⟩, fun t ht => ?_⟩
  obtain ⟨i, hi, rfl⟩ := contourEdges_edge ht
  intro e
  apply h.strict i hi
  unfold edge at e
  unfold Collinear
  dsimp only at e
  rw [e]; unfold area2; ring

/-- The check of the hole loop never fails. -/
theorem holeLoop_check {env : Env K} (hcoin : Sums env.coinChange)
    (hcheck : SoundCheck env.segmentsCrossOrOverlap) (l : List (Int × Bool)) {s : HoleState K}
    {prior : Option Bool} (hn : s.innerPoints.Nodup) (hno : NoThree s.innerPoints)
    (hp : ∀ k', prior = some k' → s.innerPoints.Pairwise (keyOrder k'))
    (hg : ∀ c ∈ s.holes, GoodHole c.vertices)
    (hh : s.holes.Pairwise fun a b => Separated a.vertices b.vertices)
    (hx : ∀ c ∈ s.holes, ∀ m : List (Point K), (∀ v ∈ m, v ∈ s.innerPoints) →
      Separated c.vertices m) :
    holeLoop env s prior l =
      holeLoop { env with segmentsCrossOrOverlap := fun _ => false } s prior l := by
  induction l generalizing s prior with
  | nil => rfl
  | cons a l ih =>
    obtain ⟨size, key⟩ := a
    simp only [holeLoop]
    obtain ⟨hs, hnd⟩ := keyOrder_sortedBy (k := key) hn hp
    have hmem : ∀ v ∈ (if prior ≠ some key then sortByKey key s.innerPoints else s.innerPoints),
        v ∈ s.innerPoints := by
      intro v hv
      split at hv
      · exact (sortByKey_perm key _).mem_iff.1 hv
      · exact hv
    generalize (if prior ≠ some key then sortByKey key s.innerPoints else s.innerPoints) = ps
      at hs hnd hmem
    cases hvs : toVertexSequence env.fuel env.coinChange env.edgeOrder (List.take size.toNat ps) size with
    | error e => rfl
    | ok vs =>
      have hv := toVertexSequence_mem hvs
      rw [ok_bind, ok_bind]
      by_cases h3 : 3 ≤ vs.length
      · rw [if_pos h3, if_pos h3]
        have hpos : 0 < size.toNat := by
          rcases Nat.eq_zero_or_pos size.toNat with h0 | h0
          · exfalso
            obtain ⟨v, hvm⟩ := List.exists_mem_of_length_pos (l := vs) (by omega)
            have := hv v hvm
            rw [h0] at this
            simp at this
          · exact h0
        have good : GoodHole (reverseVertices vs) := by
          refine (toVertexSequence_good hcoin (hnd.sublist (List.take_sublist _ _))
            (noThree_mono hno fun p hp => ?_) hvs h3).reverse
          exact hmem p (List.mem_of_mem_take hp)
        have hg' : ∀ c ∈ s.holes ++ [(⟨reverseVertices vs⟩ : Contour K)],
            GoodHole c.vertices := by
          intro c hc
          rcases List.mem_append.1 hc with hc | hc
          · exact hg c hc
          · rw [List.mem_singleton.1 hc]; exact good
        have hh' : (s.holes ++ [(⟨reverseVertices vs⟩ : Contour K)]).Pairwise
            fun a b => Separated a.vertices b.vertices := by
          refine List.pairwise_append.2 ⟨hh, by simp, ?_⟩
          intro c hc d hd
          rw [List.mem_singleton.1 hd]
          refine hx c hc _ fun v hvm => hmem v ?_
          exact List.mem_of_mem_take (hv v (mem_reverseVertices.1 hvm))
        have hfalse : env.segmentsCrossOrOverlap ((s.holes ++
            [(⟨reverseVertices vs⟩ : Contour K)]).flatMap fun c => contourEdges c.vertices) =
            false := by
          apply hcheck
          · intro t ht
            obtain ⟨c, hc, ht⟩ := List.mem_flatMap.1 ht
            exact (hg' c hc).edges.2 t ht
          · rw [List.pairwise_flatMap]
            refine ⟨fun c hc => (hg' c hc).edges.1, hh'.imp ?_⟩
            intro a b hab u hu w hw
            exact hab.edges hu hw
        rw [if_neg (by rw [hfalse]; simp), if_neg (by simp)]
        cases hb : touchPredicate key (contourEdges (reverseVertices vs)) with
        | error e => rfl
        | ok b =>
          rw [ok_bind, ok_bind]
          have hb := b2i_cases b
          have cut : ∀ m : List (Point K),
              (∀ v ∈ m, v ∈ ps.drop (((ps.take size.toNat).length : Int) - b2i b).toNat) →
              Separated (reverseVertices vs) m := by
            intro m hm
            have hpl : 0 < (ps.take size.toNat).length := by
              obtain ⟨v, hvm⟩ := List.exists_mem_of_length_pos (l := vs) (by omega)
              exact List.length_pos_of_mem (hv v hvm)
            have ht : ps.take (ps.take size.toNat).length = ps.take size.toNat := by
              rw [List.length_take]
              rcases le_total size.toNat ps.length with hle | hle
              · rw [min_eq_left hle]
              · rw [min_eq_right hle, List.take_length, List.take_of_length_le hle]
            refine (sorted_cut hs hpl (j := (((ps.take size.toNat).length : Int) - b2i b).toNat)
              (by omega)).mono ?_ hm
            intro v hvm
            rw [ht]
            exact hv v (mem_reverseVertices.1 hvm)
          refine ih (by exact hnd.sublist (List.drop_sublist _ _))
            (by exact noThree_mono hno fun p hp => hmem p (List.mem_of_mem_drop hp)) ?_
            (by exact hg') (by exact hh') ?_
          · intro k' hk'
            cases hk'
            exact hs.sublist (List.drop_sublist _ _)
          · intro c hc m hm
            rcases List.mem_append.1 hc with hc | hc
            · exact hx c hc m fun v hvm => hmem v (List.mem_of_mem_drop (hm v hvm))
            · rw [List.mem_singleton.1 hc]
              exact cut m hm
      · rw [if_neg h3, if_neg h3]
        refine ih (by exact hnd) (by exact noThree_mono hno hmem) ?_ hg hh ?_
        · intro k' hk'
          cases hk'
          exact hs
        · intro c hc m hm
          exact hx c hc m fun v hvm => hmem v (hm v hvm)

theorem borderLoop_check (env : Env K) (c : List (Segment K) → Bool) (he : List (Segment K))
    (n : Int) (fuel : Nat) (s : BorderState K) :
    borderLoop { env with segmentsCrossOrOverlap := c } he n fuel s = borderLoop env he n fuel s := by
  induction fuel generalizing s with
  | zero => rfl
  | succ fuel ih =>
    simp only [borderLoop, ih]
    rfl

theorem toPolygon_check {env : Env K} (hcoin : Sums env.coinChange)
    (hset : ∀ l, (env.setOrder l).Perm l) (hcheck : SoundCheck env.segmentsCrossOrOverlap)
    {pts : List (Point K)} (hn : pts.Nodup) (hno : NoThree pts) (bs : Int) (hss : List Int)
    (ch : Nat → Bool) :
    toPolygon env pts bs hss ch =
      toPolygon { env with segmentsCrossOrOverlap := fun _ => false } pts bs hss ch := by
  simp only [toPolygon]
  cases hd : delaunay env.fuel (env.coinChange pts.length) pts with
  | error e => rfl
  | ok r =>
    rw [ok_bind, ok_bind]
    cases hes : boundaryEdges env.fuel r.1 r.2 with
    | error e => rfl
    | ok es =>
      simp only [borderLoop_check]
      rw [ok_bind, ok_bind, holeLoop_check hcoin hcheck]
      · rfl
      · exact (hset _).nodup_iff.2 (hn.filter _)
      · exact noThree_mono hno fun p hp => (List.mem_filter.1 ((hset _).mem_iff.1 hp)).1
      · simp
      · simp
      · simp
      · simp

/-- C22 without slanted collinear triples: the internal check of the polygon construction never
fails.  `polygons` generates the same polygons, and fails in the same ways, as it would with a
check that always succeeds. -/
theorem C22_check_partial (env : Env K) (hcoin : Sums env.coinChange)
    (hset : ∀ l, (env.setOrder l).Perm l) (hcheck : SoundCheck env.segmentsCrossOrOverlap)
    (x : Strategy K) (y : Option (Strategy K)) (hgen : GenericCoords x y) (lo : Int)
    (hi : Option Int) (nlo : Int) (nhi : Option Int) (hlo : Int) (hhi : Option Int)
    (s : Made (Polygon K)) (hs : polygons env x y lo hi nlo nhi hlo hhi = .ok s) :
    ∃ s', polygons { env with segmentsCrossOrOverlap := fun _ => false } x y lo hi nlo nhi hlo hhi =
      .ok s' ∧ (∀ p, s.2.val p ↔ s'.2.val p) ∧ ∀ e, s.2.err e ↔ s'.2.err e := by
  simp only [polygons, exc_bind_ok, exc_pure_ok, validate_ok] at hs
  obtain ⟨w, hw, w', hw', w'', hw'', rfl⟩ := hs
  have h1 : 3 ≤ max lo 3 := le_max_right _ _
  have h2 : 0 ≤ max nlo 0 := le_max_right _ _
  have h3 : 3 ≤ max hlo 3 := le_max_right _ _
  have h4 : 3 ≤ max lo 3 + max hlo 3 * max nlo 0 := by nlinarith
  refine ⟨_, by
    simp only [polygons, exc_bind_ok, exc_pure_ok, validate_ok]
    exact ⟨w, hw, w', hw', w'', hw'', rfl⟩, fun p => ?_, fun e => ?_⟩
  · simp only [toPolygonStrategy, val_filter, val_bind', pointsToPolygonStrategy, val_mapE]
    refine and_congr_left fun _ => exists_congr fun pts => and_congr_right fun hp =>
      exists_congr fun r => and_congr_right fun _ => ?_
    rw [toPolygon_check hcoin hset hcheck (C35_distinct x y _ _ h4 pts hp.1).1
      (generalPosition_noThree hgen h4 hp.1)]
  · simp only [toPolygonStrategy, err_filter, err_bind', val_filter, pointsToPolygonStrategy,
      err_mapE]
    refine or_congr Iff.rfl (exists_congr fun pts => and_congr_right fun hp =>
      or_congr Iff.rfl (exists_congr fun r => and_congr_right fun _ => ?_))
    rw [toPolygon_check hcoin hset hcheck (C35_distinct x y _ _ h4 pts hp.1).1
      (generalPosition_noThree hgen h4 hp.1)]

end
end HG
