import Verif.Lemmas.Provenance2
import Verif.Props.Star
import Verif.Props.SubSequence

/-!
# Vertices are drawn points (C11), holes are reversed contours (C23)
-/

set_option linter.unusedSectionVars false

namespace HG

open Strategy Spec

section
variable {K : Type} [LinearOrder K] [Zero K] [Add K] [Sub K] [Predicates K]

/-- The abscissa is a value of `x`, the ordinate is a value of `y` (of `x` when omitted). -/
def Spec.Drawn (x : Strategy K) (y : Option (Strategy K)) (p : Point K) : Prop :=
  x.val p.x ∧ (match y with | some y => y.val p.y | none => x.val p.y)

/-- All vertices of a polygon are drawn. -/
def Spec.PolygonDrawn (x : Strategy K) (y : Option (Strategy K)) (p : Polygon K) : Prop :=
  (∀ v ∈ p.border.vertices, Drawn x y v) ∧ ∀ c ∈ p.holes, ∀ v ∈ c.vertices, Drawn x y v

theorem drawn_iff {x : Strategy K} {y : Option (Strategy K)} {p : Point K} :
    Drawn x y p ↔ x.val p.x ∧ (yOr x y).val p.y := by
  cases y <;> rfl

theorem generalPosition_drawn {x : Strategy K} {y : Option (Strategy K)} {lo : Int}
    {hi : Option Int} (h3 : 3 ≤ lo) {pts : List (Point K)}
    (h : (toGeneralPositionStrategy x y lo hi).val pts) : ∀ p ∈ pts, Drawn x y p := by
  intro p hp
  rw [drawn_iff]
  exact (C35_distinct x y lo hi h3 pts h).2.2.2 p hp

theorem star_drawn {env : Env K} {x : Strategy K} {y : Option (Strategy K)} {lo : Int}
    {hi : Option Int} (h3 : 3 ≤ lo) {vs : List (Point K)}
    (h : (toStarStrategy env x y lo hi).val vs) : ∀ p ∈ vs, Drawn x y p := by
  obtain ⟨⟨pts, hp, rfl⟩, hs⟩ := h
  intro p hpv
  exact generalPosition_drawn h3 hp p ((toStar_subperm env pts).subset hpv)

theorem vertexSequences_drawn {env : Env K} {x : Strategy K} {y : Option (Strategy K)} {lo : Int}
    {hi : Option Int} (h3 : 3 ≤ lo) {vs : List (Point K)}
    (h : (toVertexSequences env x y lo hi).val vs) : ∀ p ∈ vs, Drawn x y p := by
  rcases h with h | h
  · exact star_drawn h3 h
  · obtain ⟨h, -⟩ := h
    simp only [val_mapE, val_bind', val_prod, val_just, val_integers] at h
    obtain ⟨⟨pts, n⟩, ⟨pts', hp, h1, h2⟩, h⟩ := h
    dsimp only at h h1
    subst h1
    intro p hpv
    exact generalPosition_drawn h3 hp p (toVertexSequence_mem h p hpv)

theorem multicontour_drawn {env : Env K} {x : Strategy K} {y : Option (Strategy K)} {lo : Int}
    {hi : Option Int} {clo : Int} {chi : Option Int} (h3 : 3 ≤ lo * clo) {cs : List (Contour K)}
    (h : (toMulticontourStrategy env x y lo hi clo chi).val cs) :
    ∀ c ∈ cs, ∀ p ∈ c.vertices, Drawn x y p := by
  obtain ⟨h, -⟩ := h
  simp only [val_bind', val_mapE] at h
  obtain ⟨pts, hp, r, -, h⟩ := h
  intro c hc p hpv
  exact generalPosition_drawn h3 hp p (multicontourLoop_mem _ h c hc p hpv)

theorem polygon_drawn {env : Env K} (hset : ∀ l, (env.setOrder l).Perm l) {x : Strategy K}
    {y : Option (Strategy K)} {z : PolygonSizes}
    (h3 : 3 ≤ z.minSize + z.minHoleSize * z.minHoleCount) {p : Polygon K}
    (h : (toPolygonStrategy env x y z).val p) : PolygonDrawn x y p := by
  obtain ⟨h, -⟩ := h
  simp only [val_bind', val_filter] at h
  obtain ⟨pts, ⟨hp, -⟩, h⟩ := h
  simp only [pointsToPolygonStrategy, val_mapE] at h
  obtain ⟨r, -, h⟩ := h
  obtain ⟨h1, h2⟩ := toPolygon_mem hset h
  exact ⟨fun v hv => generalPosition_drawn h3 hp v (h1 v hv),
    fun c hc v hv => generalPosition_drawn h3 hp v (h2 c hc v hv)⟩

/-- C11 for `concave_contours` and `star_contours`. -/
theorem C11_contours (env : Env K) (x : Strategy K) (y : Option (Strategy K)) (lo : Int)
    (hi : Option Int) (c : Contour K) :
    (∀ s, concaveContours env x y lo hi = .ok s → s.2.val c → ∀ v ∈ c.vertices, Drawn x y v) ∧
    (∀ s, starContours env x y lo hi = .ok s → s.2.val c → ∀ v ∈ c.vertices, Drawn x y v) := by
  refine ⟨?_, ?_⟩ <;> intro s h hc
  all_goals
    simp only [starContours, concaveContours, exc_bind_ok, exc_pure_ok, validate_ok] at h
    obtain ⟨w, -, rfl⟩ := h
    obtain ⟨vs, hvs, rfl⟩ := hc
  · exact vertexSequences_drawn (le_trans (by norm_num) (le_max_right _ _)) hvs.1
  · exact star_drawn (le_max_right _ _) hvs

/-- C11 for `contours`: a contour is one of `convex_contours` with the same arguments, or all its
vertices are drawn points. -/
theorem C11_contours_branch (env : Env K) (x : Strategy K) (y : Option (Strategy K)) (lo : Int)
    (hi : Option Int) (c : Contour K) (s : Made (Contour K)) (hs : contours env x y lo hi = .ok s)
    (hc : s.2.val c) :
    (∃ t, convexContours env x y lo hi = .ok t ∧ t.2.val c) ∨ ∀ v ∈ c.vertices, Drawn x y v := by
  simp only [contours, exc_bind_ok, exc_pure_ok] at hs
  obtain ⟨w, hw, rfl⟩ := hs
  obtain ⟨vs, hvs, rfl⟩ := hc
  rcases hvs with hvs | hvs
  · left
    refine ⟨(w, (toConvexStrategy env x y (max lo 3) hi).map Contour.mk), ?_, vs, hvs, rfl⟩
    simp only [convexContours, exc_bind_ok, exc_pure_ok]
    exact ⟨w, hw, rfl⟩
  · right
    exact vertexSequences_drawn (le_max_right _ _) hvs

/-- C11 for `multicontours`. -/
theorem C11_multicontours (env : Env K) (x : Strategy K) (y : Option (Strategy K)) (lo : Int)
    (hi : Option Int) (clo : Int) (chi : Option Int) (s : Made (List (Contour K)))
    (hs : multicontours env x y lo hi clo chi = .ok s) (l : List (Contour K)) (h : s.2.val l) :
    ∀ c ∈ l, ∀ v ∈ c.vertices, Drawn x y v := by
  simp only [multicontours, exc_bind_ok, exc_pure_ok, validate_ok] at hs
  obtain ⟨w, -, w', -, rfl⟩ := hs
  have h1 : 2 ≤ max lo 2 := le_max_right _ _
  have h2 : 3 ≤ max clo 3 := le_max_right _ _
  exact multicontour_drawn (by nlinarith) h

/-- C11 for `polygons`.  `set` enumerates its elements in some order. -/
theorem C11_polygons (env : Env K) (hset : ∀ l, (env.setOrder l).Perm l) (x : Strategy K)
    (y : Option (Strategy K)) (lo : Int) (hi : Option Int) (nlo : Int) (nhi : Option Int)
    (hlo : Int) (hhi : Option Int) (s : Made (Polygon K))
    (hs : polygons env x y lo hi nlo nhi hlo hhi = .ok s) (p : Polygon K) (h : s.2.val p) :
    PolygonDrawn x y p := by
  simp only [polygons, exc_bind_ok, exc_pure_ok, validate_ok] at hs
  obtain ⟨w, -, w', -, w'', -, rfl⟩ := hs
  refine polygon_drawn hset ?_ h
  have h1 : 3 ≤ max lo 3 := le_max_right _ _
  have h2 : 0 ≤ max nlo 0 := le_max_right _ _
  have h3 : 3 ≤ max hlo 3 := le_max_right _ _
  dsimp only
  nlinarith

theorem slabLoop_drawn {env : Env K} (hset : ∀ l, (env.setOrder l).Perm l) {alongX : Bool}
    {coords : List K} {other : Strategy K} {z : PolygonSizes} {mp : Int}
    (h3 : 3 ≤ z.minSize + z.minHoleSize * z.minHoleCount) (n : Nat) (start : Int)
    {l : List (Polygon K)} (h : (slabLoop env alongX coords other z mp n start).val l) :
    ∀ p ∈ l, if alongX then PolygonDrawn (sampledFrom coords) (some other) p
      else PolygonDrawn other (some (sampledFrom coords)) p := by
  have slab : ∀ (sub : List K), (∀ a ∈ sub, a ∈ coords) → ∀ p,
      (slabPolygon env alongX sub other z).val p →
      if alongX then PolygonDrawn (sampledFrom coords) (some other) p
        else PolygonDrawn other (some (sampledFrom coords)) p := by
    intro sub hsub p hp
    unfold slabPolygon at hp
    split at hp
    · have := polygon_drawn hset h3 hp
      rw [if_pos (by assumption)]
      exact ⟨fun v hv => ⟨hsub _ (this.1 v hv).1, (this.1 v hv).2⟩,
        fun c hc v hv => ⟨hsub _ (this.2 c hc v hv).1, (this.2 c hc v hv).2⟩⟩
    · have := polygon_drawn hset h3 hp
      rw [if_neg (by assumption)]
      exact ⟨fun v hv => ⟨(this.1 v hv).1, hsub _ (this.1 v hv).2⟩,
        fun c hc v hv => ⟨(this.2 c hc v hv).1, hsub _ (this.2 c hc v hv).2⟩⟩
  induction n generalizing start l with
  | zero =>
    simp only [slabLoop, val_map] at h
    obtain ⟨p, hp, rfl⟩ := h
    intro q hq
    simp only [List.mem_cons, List.not_mem_nil, or_false] at hq
    subst hq
    exact slab _ (fun a ha => List.mem_of_mem_drop ha) _ hp
  | succ n ih =>
    simp only [slabLoop, val_bind, val_pure] at h
    obtain ⟨cnt, -, pr, -, p, hp, ex, -, rest, hr, rfl⟩ := h
    intro q hq
    rcases List.mem_cons.1 hq with rfl | hq
    · exact slab _ (fun a ha => List.mem_of_mem_drop (List.mem_of_mem_take ha)) _ hp
    · exact ih _ hr q hq

theorem multipolygon_drawn {env : Env K} (hset : ∀ l, (env.setOrder l).Perm l) {x : Strategy K}
    {y : Option (Strategy K)} {lo : Int} {hi : Option Int} {z : PolygonSizes}
    (h2 : 2 ≤ lo) (hz : 3 ≤ z.minSize)
    {s : Strategy (List (Polygon K))} (hs : toMultipolygonStrategy env x y lo hi z = .ok s)
    {l : List (Polygon K)} (h : s.val l) : ∀ p ∈ l, PolygonDrawn x y p := by
  simp only [toMultipolygonStrategy, exc_bind_ok] at hs
  obtain ⟨mp, hmp, hs⟩ := hs
  have h3 : 3 ≤ z.minSize + z.minHoleSize * z.minHoleCount := by
    unfold toNextPrime at hmp
    split at hmp
    · rw [mul_comm z.minHoleSize]; omega
    · simp only [exc_throw_ok] at hmp
  have conv : ∀ p, PolygonDrawn x (some (yOr x y)) p → PolygonDrawn x y p := by
    intro p hp
    cases y
    · exact hp
    · exact hp
  have slabs : ∀ {mp : Int} {a b : Int} {c d : Option Int},
      ((uniqueLists x a c).bind (coordsToPolygons env true (yOr x y) z mp lo hi)
        ||| (uniqueLists (yOr x y) b d).bind (coordsToPolygons env false x z mp lo hi)).val l →
      ∀ p ∈ l, PolygonDrawn x y p := by
    intro mp a b c d h p hp
    apply conv
    rcases h with ⟨cs, hcs, h⟩ | ⟨cs, hcs, h⟩
    · simp only [coordsToPolygons, val_bind] at h
      obtain ⟨n, -, h⟩ := h
      have hv : ∀ a ∈ sortCoords cs, x.val a := fun a ha =>
        hcs.1 a ((pySort_perm _ _).mem_iff.1 ha)
      have := slabLoop_drawn hset h3 _ _ h p hp
      rw [if_pos rfl] at this
      exact ⟨fun v hv' => ⟨hv _ (this.1 v hv').1, (this.1 v hv').2⟩,
        fun c hc v hv' => ⟨hv _ (this.2 c hc v hv').1, (this.2 c hc v hv').2⟩⟩
    · simp only [coordsToPolygons, val_bind] at h
      obtain ⟨n, -, h⟩ := h
      have hv : ∀ a ∈ sortCoords cs, (yOr x y).val a := fun a ha =>
        hcs.1 a ((pySort_perm _ _).mem_iff.1 ha)
      have := slabLoop_drawn hset h3 _ _ h p hp
      rw [if_neg (by simp)] at this
      exact ⟨fun v hv' => ⟨(this.1 v hv').1, hv _ (this.1 v hv').2⟩,
        fun c hc v hv' => ⟨(this.2 c hc v hv').1, hv _ (this.2 c hc v hv').2⟩⟩
  split at hs
  · simp only [exc_pure_ok] at hs
    subst hs
    rcases h with h | h
    · obtain ⟨cs, hcs, rfl⟩ := h
      intro p hp
      obtain ⟨c, hc, rfl⟩ := List.mem_map.1 hp
      refine conv _ ⟨multicontour_drawn (by nlinarith) hcs c hc, by simp⟩
    · exact slabs h
  · simp only [exc_pure_ok] at hs
    subst hs
    exact slabs h

/-- C11 for `multipolygons`. -/
theorem C11_multipolygons (env : Env K) (hset : ∀ l, (env.setOrder l).Perm l) (x : Strategy K)
    (y : Option (Strategy K)) (lo : Int) (hi : Option Int) (blo : Int) (bhi : Option Int)
    (nlo : Int) (nhi : Option Int) (hlo : Int) (hhi : Option Int)
    (s : Made (List (Polygon K)))
    (hs : multipolygons env x y lo hi blo bhi nlo nhi hlo hhi = .ok s) (l : List (Polygon K))
    (h : s.2.val l) : ∀ p ∈ l, PolygonDrawn x y p := by
  simp only [multipolygons, exc_bind_ok, exc_pure_ok, validate_ok] at hs
  obtain ⟨w, -, w', -, w'', -, w''', -, s, hs, rfl⟩ := hs
  exact multipolygon_drawn hset (le_max_right _ _) (le_max_right _ _) hs h

/-! Non-vacuity: `sample_concave`, `sample_star`, `sample_multicontours`, `sample_polygons` and
the enumeration order of `Sample.env`. -/

example : ∀ l, (Sample.env.setOrder l).Perm l := fun l => List.Perm.refl l

end
end HG
