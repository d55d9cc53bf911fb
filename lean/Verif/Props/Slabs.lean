import Verif.Lemmas.Slab
import Verif.Props.Separation

/-!
# C26, C29, C30: pieces of multipolygons and mixes do not cross or overlap
-/

set_option linter.unusedSectionVars false

namespace HG

open Strategy Spec

section
variable {K : Type} [CommRing K] [LinearOrder K] [IsStrictOrderedRing K]

/-! ## Specification -/

/-- A line has the first points on one side (or on it) and the second points on the other side (or
on it). -/
def Spec.SplitByLine (l m : List (Point K)) : Prop :=
  ∃ a b c : K, (a ≠ 0 ∨ b ≠ 0) ∧ (∀ v ∈ l, a * v.x + b * v.y ≤ c) ∧ ∀ v ∈ m, c ≤ a * v.x + b * v.y

/-- Two segments meet at most in one point, which is an endpoint of the first. -/
def Spec.MeetAtEnd (s t : Segment K) : Prop :=
  ∀ p, OnSeg s p → OnSeg t p → IsEnd s p ∧ ∀ q, OnSeg s q → OnSeg t q → q = p

/-- Two polygons are on different sides of a line, and their borders meet only in vertices of the
first. -/
structure Spec.PolygonsApart (p q : Polygon K) : Prop where
  line : SplitByLine (polygonVertices p) (polygonVertices q)
  edges : ∀ i j, MeetAtEnd (edge p.border.vertices i) (edge q.border.vertices j)

/-! ## Auxiliary -/

end

section
variable {K : Type} [LinearOrder K] [Zero K] [Add K] [Sub K] [Predicates K]

theorem mem_contourEdges {vs : List (Point K)} (hne : vs ≠ []) (i : Nat) :
    edge vs i ∈ contourEdges vs := by
  have hl : 0 < vs.length := List.length_pos_of_ne_nil hne
  unfold contourEdges
  refine List.mem_map.2 ⟨(i + 1) % vs.length, List.mem_range.2 (Nat.mod_lt _ hl), ?_⟩
  have e2 : pyAt vs (((i + 1) % vs.length : Nat) : Int) = cyc vs (i + 1) := by
    rw [pyAt_nonneg]; rfl
  have e1 : pyAt vs ((((i + 1) % vs.length : Nat) : Int) - 1) = cyc vs i := by
    rcases Nat.eq_zero_or_pos ((i + 1) % vs.length) with h | h
    · rw [h, show ((0 : Nat) : Int) - 1 = -((1 : Nat) : Int) by rfl, pyAt_neg _ _ (by omega) (by omega)]
      unfold cyc
      congr 1
      have : (vs.length : Nat) ∣ i + 1 := Nat.dvd_of_mod_eq_zero h
      obtain ⟨k, hk⟩ := this
      cases k with
      | zero => omega
      | succ k =>
        have : i = (vs.length - 1) + vs.length * k := by
          rw [Nat.mul_succ] at hk; omega
        rw [this, Nat.add_mul_mod_self_left, Nat.mod_eq_of_lt (by omega)]
    · have : (((i + 1) % vs.length : Nat) : Int) - 1 = (((i + 1) % vs.length - 1 : Nat) : Int) := by
        omega
      rw [this, pyAt_nonneg]
      unfold cyc
      congr 1
      have h1 : (i + 1) % vs.length = i % vs.length + 1 := by
        rcases Nat.lt_or_ge (i % vs.length + 1) vs.length with h2 | h2
        · rw [Nat.add_mod, Nat.mod_eq_of_lt (a := 1) (by omega), Nat.mod_eq_of_lt h2]
        · have h3 : i % vs.length < vs.length := Nat.mod_lt _ hl
          exfalso
          have h4 : i % vs.length + 1 = vs.length := by omega
          rw [← Nat.mod_add_mod, h4, Nat.mod_self] at h
          omega
      omega
  rw [e1, e2]
  rfl

theorem contourEdges_mem {vs : List (Point K)} {s : Segment K} (h : s ∈ contourEdges vs) :
    s.start ∈ vs ∧ s.stop ∈ vs := by
  unfold contourEdges at h
  obtain ⟨i, hi, rfl⟩ := List.mem_map.1 h
  rw [List.mem_range] at hi
  constructor
  · dsimp only
    cases i with
    | zero =>
      rw [show ((0 : Nat) : Int) - 1 = -((1 : Nat) : Int) by rfl, pyAt_neg _ _ (by omega) (by omega),
        List.getD_eq_getElem _ _ (by omega)]
      exact List.getElem_mem _
    | succ i =>
      rw [show ((i + 1 : Nat) : Int) - 1 = (i : Int) by omega, pyAt_nonneg,
        List.getD_eq_getElem _ _ (by omega)]
      exact List.getElem_mem _
  · dsimp only
    rw [pyAt_nonneg, List.getD_eq_getElem _ _ (by omega)]
    exact List.getElem_mem _

theorem exists_upper (f : Point K → K) (l : List (Point K)) (hne : l ≠ []) :
    ∃ v ∈ l, ∀ w ∈ l, f w ≤ f v := by
  obtain ⟨v, hv⟩ : ∃ v, v ∈ List.argmax f l := by
    cases h : List.argmax f l with
    | none => exact absurd (List.argmax_eq_none.1 h) hne
    | some v => exact ⟨v, rfl⟩
  exact ⟨v, List.argmax_mem hv, fun w hw => List.le_of_mem_argmax hw hv⟩

end

section
variable {K : Type} [CommRing K] [LinearOrder K] [IsStrictOrderedRing K]

theorem splitByLine_axis (a : Bool) {l m : List (Point K)} (c : K) (hl : ∀ v ∈ l, axis a v ≤ c)
    (hm : ∀ v ∈ m, c ≤ axis a v) : SplitByLine l m := by
  cases a
  · exact ⟨0, 1, c, Or.inr one_ne_zero, fun v hv => by simpa [axis] using hl v hv,
      fun v hv => by simpa [axis] using hm v hv⟩
  · exact ⟨1, 0, c, Or.inl one_ne_zero, fun v hv => by simpa [axis] using hl v hv,
      fun v hv => by simpa [axis] using hm v hv⟩

/-- Pieces whose coordinates are ordered are on different sides of a line. -/
theorem splitByLine_of_le (a : Bool) {l m : List (Point K)}
    (h : ∀ v ∈ l, ∀ w ∈ m, axis a v ≤ axis a w) : SplitByLine l m := by
  cases l with
  | nil =>
    cases m with
    | nil => exact splitByLine_axis a 0 (by simp) (by simp)
    | cons w m =>
      obtain ⟨v, hv, hmin⟩ := exists_upper (fun p => - axis a p) (w :: m) (by simp)
      exact splitByLine_axis a (axis a v) (by simp) fun u hu => neg_le_neg_iff.1 (hmin u hu)
  | cons v l =>
    obtain ⟨u, hu, hmax⟩ := exists_upper (axis a) (v :: l) (by simp)
    exact splitByLine_axis a (axis a u) hmax fun w hw => h u hu w hw

theorem Separated.splitByLine {l m : List (Point K)} (h : Separated l m) : SplitByLine l m := by
  rcases h with rfl | rfl | ⟨k, q, h1, h2⟩
  · exact splitByLine_of_le true (by simp)
  · exact splitByLine_of_le true (by simp)
  · obtain ⟨A, B, hf⟩ := exists_functional_key k (⟨0, 0⟩ :: ⟨1, 1⟩ :: q :: l ++ m)
    have hne : A ≠ 0 ∨ B ≠ 0 := by
      by_contra hc
      push Not at hc
      have : keyOrder k (⟨0, 0⟩ : Point K) ⟨1, 1⟩ := by
        unfold keyOrder; split <;> exact Or.inl zero_lt_one
      have := hf _ (by simp) _ (by simp) this
      simp [lin, hc.1, hc.2] at this
    refine ⟨A, B, lin A B q, hne, fun v hv => ?_, fun v hv => ?_⟩
    · rcases h1 v hv with rfl | hlt
      · exact le_refl _
      · exact (hf v (by simp [hv]) q (by simp) hlt).le
    · rcases h2 v hv with rfl | hlt
      · exact le_refl _
      · exact (hf q (by simp) v (by simp [hv]) hlt).le

/-! ## C26 -/

end

section
variable {K : Type} [LinearOrder K] [Zero K] [Add K] [Sub K] [Predicates K]

theorem mem_polygonVertices {p : Polygon K} {v : Point K} : v ∈ polygonVertices p ↔
    v ∈ p.border.vertices ∨ ∃ c ∈ p.holes, v ∈ c.vertices := by
  simp [polygonVertices]

theorem slabPolygon_axis {env : Env K} (hset : ∀ l, (env.setOrder l).Perm l) {a : Bool}
    {R : List K} {other : Strategy K} {z : PolygonSizes}
    (h3 : 3 ≤ z.minSize + z.minHoleSize * z.minHoleCount) {p : Polygon K}
    (h : (slabPolygon env a R other z).val p) : ∀ v ∈ polygonVertices p, axis a v ∈ R := by
  intro v hv
  unfold slabPolygon at h
  cases a
  · have := polygon_drawn hset h3 (by simpa using h)
    rcases mem_polygonVertices.1 hv with hv | ⟨c, hc, hv⟩
    · exact (this.1 v hv).2
    · exact (this.2 c hc v hv).2
  · have := polygon_drawn hset h3 (by simpa using h)
    rcases mem_polygonVertices.1 hv with hv | ⟨c, hc, hv⟩
    · exact (this.1 v hv).1
    · exact (this.2 c hc v hv).1

theorem slabPolygon_border {env : Env K} {a : Bool} {R : List K} {other : Strategy K}
    {z : PolygonSizes} (hz : 3 ≤ z.minSize) {p : Polygon K}
    (h : (slabPolygon env a R other z).val p) : p.border.vertices ≠ [] := by
  intro hnil
  have := (slabPolygon_sizes h).1.1
  rw [hnil] at this
  simp at this
  omega

theorem toPriorPrime_le {n p : Int} (h : toPriorPrime n = .ok p) : p ≤ n := by
  have key : ∀ (fuel : Nat) (k : Int), priorLoop fuel k = .ok p → p ≤ k := by
    intro fuel
    induction fuel with
    | zero => intro k h; simp [priorLoop, exc_throw_ok] at h
    | succ f ih =>
      intro k h
      unfold priorLoop at h
      split at h
      · simp only [exc_pure_ok] at h; omega
      · have := ih _ h; omega
  unfold toPriorPrime at h
  split at h
  · have := key _ _ h; omega
  · simp [exc_throw_ok] at h

/-- The border of a polygon before the coordinates of the later pieces. -/
theorem ordered_of_segLe {a : Bool} {R : List K} {p q : Polygon K}
    (hp : p.border.vertices ≠ []) (hq : q.border.vertices ≠ [])
    (hpl : ∀ v ∈ polygonVertices p, ∀ c ∈ R, axis a v ≤ c)
    (hs : ∀ s ∈ contourEdges p.border.vertices, SegLe a s R)
    (hqR : ∀ v ∈ polygonVertices q, axis a v ∈ R) : PolygonsOrdered a p q := by
  refine ⟨fun v hv w hw => hpl v hv _ (hqR w hw), fun i j => ?_⟩
  have hw : ∀ k, Within R (axis a (cyc q.border.vertices k)) := fun k =>
    .of_mem (hqR _ (mem_polygonVertices.2 (Or.inl (cyc_mem (List.length_pos_of_ne_nil hq) k))))
  exact (hs _ (mem_contourEdges hp i)).before (hw _) (hw _)

theorem slabLoop_ordered {env : Env K} (hset : ∀ l, (env.setOrder l).Perm l) {a : Bool}
    {coords : List K} (hR : coords.Pairwise (· < ·)) {other : Strategy K} {z : PolygonSizes}
    {mp : Int} (hmp : 1 ≤ mp) (hz : 3 ≤ z.minSize)
    (h3 : 3 ≤ z.minSize + z.minHoleSize * z.minHoleCount) (n : Nat) (start : Int)
    (h0 : 0 ≤ start) {l : List (Polygon K)}
    (h : (slabLoop env a coords other z mp n start).val l) :
    (∀ p ∈ l, p.border.vertices ≠ [] ∧ ∀ v ∈ polygonVertices p, axis a v ∈ coords.drop start.toNat) ∧
    l.Pairwise (PolygonsOrdered a) := by
  induction n generalizing start l with
  | zero =>
    simp only [slabLoop, val_map] at h
    obtain ⟨p, hp, rfl⟩ := h
    simp only [List.mem_cons, List.not_mem_nil, or_false, forall_eq, List.pairwise_cons,
      IsEmpty.forall_iff, implies_true, List.Pairwise.nil, and_true]
    exact ⟨slabPolygon_border hz hp, slabPolygon_axis hset h3 hp⟩
  | succ n ih =>
    simp only [slabLoop, val_bind, val_pure, val_ofExcept, val_integers] at h
    obtain ⟨cnt, ⟨hc1, hc2⟩, pr, hpr, p, hp, ex, hex, rest, hr, rfl⟩ := h
    have hb := b2i_cases (!ex)
    have hle := toPriorPrime_le hpr
    obtain ⟨ih1, ih2⟩ := ih (start + cnt - b2i (!ex)) (by omega) hr
    have hdrop : coords.drop (start + cnt - b2i (!ex)).toNat =
        (coords.drop start.toNat).drop (cnt - b2i (!ex)).toNat := by
      rw [List.drop_drop]; congr 1; omega
    have hR' : (coords.drop start.toNat).Pairwise (· < ·) := hR.sublist (List.drop_sublist _ _)
    have hpa : ∀ v ∈ polygonVertices p, axis a v ∈ (coords.drop start.toNat).take cnt.toNat := by
      intro v hv
      have := slabPolygon_axis hset h3 hp v hv
      unfold slice at this
      rw [show start + pr - start = pr by ring] at this
      exact List.take_subset_take_left _ (by omega) this
    have hpb := slabPolygon_border hz hp
    have hlater : ∀ v ∈ polygonVertices p,
        ∀ c ∈ (coords.drop start.toNat).drop (cnt - b2i (!ex)).toNat, axis a v ≤ c :=
      fun v hv c hc => (take_drop_lt hR' (hpa v hv) hc).1 (by omega)
    have hseg : ∀ s ∈ contourEdges p.border.vertices,
        SegLe a s ((coords.drop start.toNat).drop (cnt - b2i (!ex)).toNat) := by
      refine segLe_step (n := cnt.toNat) hR' (fun s hs => ?_) (T := contourEdges p.border.vertices) ?_
      · obtain ⟨e1, e2⟩ := contourEdges_mem hs
        exact ⟨.of_mem (hpa _ (mem_polygonVertices.2 (Or.inl e1))),
          .of_mem (hpa _ (mem_polygonVertices.2 (Or.inl e2)))⟩
      · cases ex with
        | true => left; simp [b2i]
        | false =>
          right
          refine ⟨by omega, hex, fun _ h => h, fun u hu c hc => ?_⟩
          exact hlater _ (mem_polygonVertices.2 (Or.inl (contourEdges_mem hu).1)) c hc
    refine ⟨fun q hq => ?_, List.pairwise_cons.2 ⟨fun q hq => ?_, ih2⟩⟩
    · rcases List.mem_cons.1 hq with rfl | hq
      · exact ⟨hpb, fun v hv => List.mem_of_mem_take (hpa v hv)⟩
      · refine ⟨(ih1 q hq).1, fun v hv => ?_⟩
        have := (ih1 q hq).2 v hv
        rw [hdrop] at this
        exact List.mem_of_mem_drop this
    · refine ordered_of_segLe hpb (ih1 q hq).1 hlater hseg ?_
      rw [← hdrop]
      exact (ih1 q hq).2

/-- The polygons of a multipolygon are ordered along an axis, or they have no holes and are ordered
lexicographically. -/
theorem multipolygon_ordered {env : Env K} (hset : ∀ l, (env.setOrder l).Perm l) {x : Strategy K}
    {y : Option (Strategy K)} {lo : Int} {hi : Option Int} {z : PolygonSizes}
    (h2 : 2 ≤ lo) (hz : 3 ≤ z.minSize)
    {s : Strategy (List (Polygon K))} (hs : toMultipolygonStrategy env x y lo hi z = .ok s)
    {l : List (Polygon K)} (h : s.val l) : (∃ a, l.Pairwise (PolygonsOrdered a)) ∨
      ((∀ p ∈ l, p.border.vertices ≠ [] ∧ p.holes = []) ∧
        l.Pairwise fun p q => Separated p.border.vertices q.border.vertices) := by
  simp only [toMultipolygonStrategy, exc_bind_ok] at hs
  obtain ⟨mp, hmp, hs⟩ := hs
  have h3' : 3 ≤ z.minSize + z.minHoleCount * z.minHoleSize := by
    unfold toNextPrime at hmp
    split at hmp
    · omega
    · simp only [exc_throw_ok] at hmp
  have h3 : 3 ≤ z.minSize + z.minHoleSize * z.minHoleCount := by rw [mul_comm]; exact h3'
  have hmp1 : 1 ≤ mp := by
    obtain ⟨p, hp', hpp, _⟩ := toNextPrime_spec _ h3'
    rw [hp'] at hmp
    cases hmp
    have := hpp.pos
    omega
  have slabs : ∀ {a b : Int} {c d : Option Int},
      ((uniqueLists x a c).bind (coordsToPolygons env true (yOr x y) z mp lo hi)
        ||| (uniqueLists (yOr x y) b d).bind (coordsToPolygons env false x z mp lo hi)).val l →
      ∃ a, l.Pairwise (PolygonsOrdered a) := by
    intro a b c d h
    rcases h with ⟨cs, hcs, h⟩ | ⟨cs, hcs, h⟩
    all_goals
      simp only [coordsToPolygons, val_bind] at h
      obtain ⟨n, -, h⟩ := h
      exact ⟨_, (slabLoop_ordered hset (sortCoords_lt cs hcs.2.1) hmp1 hz h3 _ _ le_rfl h).2⟩
  split at hs
  · simp only [exc_pure_ok] at hs
    subst hs
    rcases h with h | h
    · obtain ⟨cs, hcs, rfl⟩ := h
      have hne : ∀ c ∈ cs, c.vertices ≠ [] := by
        intro c hc hnil
        have := ((multicontour_sizes hcs).2 c hc).1
        rw [hnil] at this
        simp at this
        omega
      refine Or.inr ⟨?_, ?_⟩
      · intro p hp
        obtain ⟨c, hc, rfl⟩ := List.mem_map.1 hp
        exact ⟨hne c hc, rfl⟩
      · rw [List.pairwise_map]
        exact multicontour_separated (by nlinarith) hcs
    · exact Or.inl (slabs h)
  · simp only [exc_pure_ok] at hs
    subst hs
    exact Or.inl (slabs h)

end

section
variable {K : Type} [CommRing K] [LinearOrder K] [IsStrictOrderedRing K]

theorem PolygonsOrdered.apart {a : Bool} {p q : Polygon K} (h : PolygonsOrdered a p q) :
    PolygonsApart p q :=
  ⟨splitByLine_of_le a h.vertices, fun i j _ h1 h2 => (h.edges i j).meet h1 h2⟩

theorem multipolygon_apart {env : Env K} (hset : ∀ l, (env.setOrder l).Perm l) {x : Strategy K}
    {y : Option (Strategy K)} {lo : Int} {hi : Option Int} {z : PolygonSizes}
    (h2 : 2 ≤ lo) (hz : 3 ≤ z.minSize)
    {s : Strategy (List (Polygon K))} (hs : toMultipolygonStrategy env x y lo hi z = .ok s)
    {l : List (Polygon K)} (h : s.val l) : l.Pairwise PolygonsApart := by
  rcases multipolygon_ordered hset h2 hz hs h with ⟨a, ha⟩ | ⟨hne, hl⟩
  · exact ha.imp PolygonsOrdered.apart
  · refine hl.imp_of_mem fun {p q} hp hq hpq => ⟨?_, fun i j u h1 h2 => ?_⟩
    · simpa [polygonVertices, (hne p hp).2, (hne q hq).2] using hpq.splitByLine
    · obtain ⟨k1, -, k2⟩ := hpq.noCross (hne p hp).1 (hne q hq).1 i j u h1 h2
      exact ⟨k1, k2⟩

/-- C26: of two polygons of a multipolygon the earlier one lies on one side of a line and the later
one on the other side, and the borders meet only in vertices of the earlier one. -/
theorem C26_multipolygons (env : Env K) (hset : ∀ l, (env.setOrder l).Perm l) (x : Strategy K)
    (y : Option (Strategy K)) (lo : Int) (hi : Option Int) (blo : Int) (bhi : Option Int)
    (nlo : Int) (nhi : Option Int) (hlo : Int) (hhi : Option Int)
    (s : Made (List (Polygon K)))
    (hs : multipolygons env x y lo hi blo bhi nlo nhi hlo hhi = .ok s) (l : List (Polygon K))
    (h : s.2.val l) : l.Pairwise PolygonsApart := by
  simp only [multipolygons, exc_bind_ok, exc_pure_ok, validate_ok] at hs
  obtain ⟨w, -, w', -, w'', -, w''', -, s, hs, rfl⟩ := hs
  exact multipolygon_apart hset (le_max_right _ _) (le_max_right _ _) hs h

/-- Non-vacuity for C26: the two triangles of `sample_multicontours` as a multipolygon. -/
example : ∃ s, multipolygons Sample.env (sampledFrom (Sample.coords 7)) none = .ok s ∧
    s.2.val [⟨⟨[⟨0, 0⟩, ⟨1, 1⟩, ⟨2, 4⟩]⟩, []⟩, ⟨⟨[⟨3, 2⟩, ⟨4, 2⟩, ⟨5, 4⟩]⟩, []⟩] := by
  obtain ⟨s, hs, h⟩ := sample_multicontours
  obtain ⟨w, -, hs⟩ := exc_bind_ok.1 hs
  obtain ⟨w', -, hs⟩ := exc_bind_ok.1 hs
  cases hs
  exact ⟨_, rfl, Or.inl ⟨_, h, rfl⟩⟩

end
end HG
