import Verif.Props.Provenance
import Verif.Props.Parts
import Verif.Spec.Order

/-!
# Vertices drawn together differ in one of the coordinates (C68)
-/

set_option linter.unusedSectionVars false

namespace HG

open Strategy Spec

/-- Different points of the list have different values of one coordinate, and at most two of them
share a value of the other. -/
def Spec.OneAxisDistinct {K : Type} (l : List (Point K)) : Prop :=
  ((∀ p ∈ l, ∀ q ∈ l, p.x = q.x → p = q) ∧
    ∀ p ∈ l, ∀ q ∈ l, ∀ r ∈ l, p.y = q.y → q.y = r.y → p = q ∨ q = r ∨ p = r) ∨
  ((∀ p ∈ l, ∀ q ∈ l, p.y = q.y → p = q) ∧
    ∀ p ∈ l, ∀ q ∈ l, ∀ r ∈ l, p.x = q.x → q.x = r.x → p = q ∨ q = r ∨ p = r)

theorem Spec.OneAxisDistinct.mono {K : Type} {l m : List (Point K)} (h : OneAxisDistinct m)
    (hs : ∀ p ∈ l, p ∈ m) : OneAxisDistinct l := by
  rcases h with ⟨h1, h2⟩ | ⟨h1, h2⟩
  · exact .inl ⟨fun p hp q hq => h1 p (hs p hp) q (hs q hq),
      fun p hp q hq r hr => h2 p (hs p hp) q (hs q hq) r (hs r hr)⟩
  · exact .inr ⟨fun p hp q hq => h1 p (hs p hp) q (hs q hq),
      fun p hp q hq r hr => h2 p (hs p hp) q (hs q hq) r (hs r hr)⟩

section
variable {K : Type} [LinearOrder K] [Zero K] [Add K] [Sub K] [Predicates K]

/-- The scaled parabola takes no value three times. -/
theorem parabola_thrice {p : ℕ} (hp : p.Prime) {s : ℤ} (hs : ¬ (p : ℤ) ∣ s) {i j k : ℤ}
    (hi : i ∈ intRange p) (hj : j ∈ intRange p) (hk : k ∈ intRange p)
    (h1 : parabola p s i = parabola p s j) (h2 : parabola p s j = parabola p s k) :
    i = j ∨ j = k ∨ i = k := by
  by_contra hne
  simp only [not_or] at hne
  obtain ⟨a, b, c⟩ := hne
  have hsp := (indexPair_sparse false p hp s hs (parabola p s i)).2.1
  have hsub : [indexPair false p s i, indexPair false p s j, indexPair false p s k] ⊆
      ((intRange p).map (indexPair false p s)).filter fun q => q.2 = parabola p s i := by
    intro q hq
    simp only [List.mem_cons, List.not_mem_nil, or_false] at hq
    rcases hq with rfl | rfl | rfl
    · exact List.mem_filter.2 ⟨List.mem_map_of_mem hi, by simp [indexPair]⟩
    · exact List.mem_filter.2 ⟨List.mem_map_of_mem hj, by simp [indexPair, h1]⟩
    · exact List.mem_filter.2 ⟨List.mem_map_of_mem hk, by simp [indexPair, h1, h2]⟩
  have hnd : [indexPair false p s i, indexPair false p s j, indexPair false p s k].Nodup := by
    simp [indexPair, a, b, c]
  have := (List.subperm_of_subset hnd hsub).length_le
  simp only [List.length_cons, List.length_nil] at this
  omega

/-- Points drawn in general position differ in one of the coordinates. -/
theorem generalPosition_oneAxis {x : Strategy K} {y : Option (Strategy K)} {lo : Int}
    {hi : Option Int} (h3 : 3 ≤ lo) {pts : List (Point K)}
    (h : (toGeneralPositionStrategy x y lo hi).val pts) : OneAxisDistinct pts := by
  obtain ⟨p, s, swap, xs, ys, hp, -, -, -, hs, hx, hy, -, -, lx, ly, rfl⟩ :=
    generalPosition_val h3 h
  have hp0 : (0 : ℤ) < p := by exact_mod_cast hp.pos
  have id : ∀ {l : List K}, l.Pairwise (· < ·) → p ≤ l.length → ∀ {i j : ℤ}, i ∈ intRange p →
      j ∈ intRange p → l.getD i.toNat 0 = l.getD j.toNat 0 → i = j := by
    intro l hl hlen i j hi hj e
    rw [mem_intRange] at hi hj
    have := getD_injOn hl (by omega) (by omega) e
    omega
  have par : ∀ {l : List K}, l.Pairwise (· < ·) → p ≤ l.length → ∀ {i j : ℤ},
      l.getD (parabola p s i).toNat 0 = l.getD (parabola p s j).toNat 0 →
      parabola p s i = parabola p s j := by
    intro l hl hlen i j e
    have a := parabola_range p s i hp0
    have b := parabola_range p s j hp0
    have := getD_injOn hl (by omega) (by omega) e
    omega
  cases swap
  · left
    refine ⟨?_, ?_⟩
    · simp only [List.map_map, List.mem_map, Function.comp_def]
      rintro _ ⟨i, hi, rfl⟩ _ ⟨j, hj, rfl⟩ e
      rw [id hx lx hi hj e]
    · simp only [List.map_map, List.mem_map, Function.comp_def]
      rintro _ ⟨i, hi, rfl⟩ _ ⟨j, hj, rfl⟩ _ ⟨k, hk, rfl⟩ e e'
      rcases parabola_thrice hp hs hi hj hk (par hy ly e) (par hy ly e') with rfl | rfl | rfl
      · exact .inl rfl
      · exact .inr (.inl rfl)
      · exact .inr (.inr rfl)
  · right
    refine ⟨?_, ?_⟩
    · simp only [List.map_map, List.mem_map, Function.comp_def]
      rintro _ ⟨i, hi, rfl⟩ _ ⟨j, hj, rfl⟩ e
      rw [id hy ly hi hj e]
    · simp only [List.map_map, List.mem_map, Function.comp_def]
      rintro _ ⟨i, hi, rfl⟩ _ ⟨j, hj, rfl⟩ _ ⟨k, hk, rfl⟩ e e'
      rcases parabola_thrice hp hs hi hj hk (par hx lx e) (par hx lx e') with rfl | rfl | rfl
      · exact .inl rfl
      · exact .inr (.inl rfl)
      · exact .inr (.inr rfl)

theorem star_oneAxis {env : Env K} {x : Strategy K} {y : Option (Strategy K)} {lo : Int}
    {hi : Option Int} (h3 : 3 ≤ lo) {vs : List (Point K)}
    (h : (toStarStrategy env x y lo hi).val vs) : OneAxisDistinct vs := by
  obtain ⟨⟨pts, hp, rfl⟩, hs⟩ := h
  exact (generalPosition_oneAxis h3 hp).mono fun p hpv => (toStar_subperm env pts).subset hpv

theorem vertexSequences_oneAxis {env : Env K} {x : Strategy K} {y : Option (Strategy K)} {lo : Int}
    {hi : Option Int} (h3 : 3 ≤ lo) {vs : List (Point K)}
    (h : (toVertexSequences env x y lo hi).val vs) : OneAxisDistinct vs := by
  rcases h with h | h
  · exact star_oneAxis h3 h
  · obtain ⟨h, -⟩ := h
    simp only [val_mapE, val_bind', val_prod, val_just, val_integers] at h
    obtain ⟨⟨pts, n⟩, ⟨pts', hp, h1, h2⟩, h⟩ := h
    dsimp only at h h1
    subst h1
    exact (generalPosition_oneAxis h3 hp).mono (toVertexSequence_mem h)

/-- C68 for `concave_contours` and `star_contours`. -/
theorem C68_contours (env : Env K) (x : Strategy K) (y : Option (Strategy K)) (lo : Int)
    (hi : Option Int) (c : Contour K) :
    (∀ s, concaveContours env x y lo hi = .ok s → s.2.val c → OneAxisDistinct c.vertices) ∧
    (∀ s, starContours env x y lo hi = .ok s → s.2.val c → OneAxisDistinct c.vertices) := by
  refine ⟨?_, ?_⟩ <;> intro s h hc
  all_goals
    simp only [starContours, concaveContours, exc_bind_ok, exc_pure_ok, validate_ok] at h
    obtain ⟨w, -, rfl⟩ := h
    obtain ⟨vs, hvs, rfl⟩ := hc
  · exact vertexSequences_oneAxis (le_trans (by norm_num) (le_max_right _ _)) hvs.1
  · exact star_oneAxis (le_max_right _ _) hvs

/-- C68 for `contours`: a contour is one of `convex_contours` with the same arguments, or its
vertices differ in one of the coordinates. -/
theorem C68_contours_branch (env : Env K) (x : Strategy K) (y : Option (Strategy K)) (lo : Int)
    (hi : Option Int) (c : Contour K) (s : Made (Contour K)) (hs : contours env x y lo hi = .ok s)
    (hc : s.2.val c) :
    (∃ t, convexContours env x y lo hi = .ok t ∧ t.2.val c) ∨ OneAxisDistinct c.vertices := by
  simp only [contours, exc_bind_ok, exc_pure_ok] at hs
  obtain ⟨w, hw, rfl⟩ := hs
  obtain ⟨vs, hvs, rfl⟩ := hc
  rcases hvs with hvs | hvs
  · left
    refine ⟨(w, (toConvexStrategy env x y (max lo 3) hi).map Contour.mk), ?_, vs, hvs, rfl⟩
    simp only [convexContours, exc_bind_ok, exc_pure_ok]
    exact ⟨w, hw, rfl⟩
  · right
    exact vertexSequences_oneAxis (le_max_right _ _) hvs

/-- C68 for `multicontours`: all vertices of all contours together. -/
theorem C68_multicontours (env : Env K) (x : Strategy K) (y : Option (Strategy K)) (lo : Int)
    (hi : Option Int) (clo : Int) (chi : Option Int) (s : Made (List (Contour K)))
    (hs : multicontours env x y lo hi clo chi = .ok s) (l : List (Contour K)) (h : s.2.val l) :
    OneAxisDistinct (l.flatMap Contour.vertices) := by
  simp only [multicontours, exc_bind_ok, exc_pure_ok, validate_ok] at hs
  obtain ⟨w, -, w', -, rfl⟩ := hs
  have h1 : 2 ≤ max lo 2 := le_max_right _ _
  have h2 : 3 ≤ max clo 3 := le_max_right _ _
  obtain ⟨h, -⟩ := h
  simp only [val_bind', val_mapE] at h
  obtain ⟨pts, hp, r, -, h⟩ := h
  refine (generalPosition_oneAxis (by nlinarith) hp).mono fun p hpv => ?_
  obtain ⟨c, hc, hpv⟩ := List.mem_flatMap.1 hpv
  exact multicontourLoop_mem _ h c hc p hpv

/-- C68 for `polygons`: all vertices of the border and of the holes together. -/
theorem C68_polygons (env : Env K) (hset : ∀ l, (env.setOrder l).Perm l) (x : Strategy K)
    (y : Option (Strategy K)) (lo : Int) (hi : Option Int) (nlo : Int) (nhi : Option Int)
    (hlo : Int) (hhi : Option Int) (s : Made (Polygon K))
    (hs : polygons env x y lo hi nlo nhi hlo hhi = .ok s) (p : Polygon K) (h : s.2.val p) :
    OneAxisDistinct (polygonVertices p) := by
  simp only [polygons, exc_bind_ok, exc_pure_ok, validate_ok] at hs
  obtain ⟨w, -, w', -, w'', -, rfl⟩ := hs
  have h1 : 3 ≤ max lo 3 := le_max_right _ _
  have h2 : 0 ≤ max nlo 0 := le_max_right _ _
  have h3 : 3 ≤ max hlo 3 := le_max_right _ _
  obtain ⟨h, -⟩ := h
  simp only [val_bind', val_filter] at h
  obtain ⟨pts, ⟨hp, -⟩, h⟩ := h
  simp only [pointsToPolygonStrategy, val_mapE] at h
  obtain ⟨r, -, h⟩ := h
  obtain ⟨m1, m2⟩ := toPolygon_mem hset h
  refine (generalPosition_oneAxis (by nlinarith) hp).mono fun v hv => ?_
  rcases List.mem_append.1 hv with hv | hv
  · exact m1 v hv
  · obtain ⟨c, hc, hv⟩ := List.mem_flatMap.1 hv
    exact m2 c hc v hv

/-- C68 for `multipolygons`: each polygon, its holes included. -/
theorem C68_multipolygons (env : Env K) (hset : ∀ l, (env.setOrder l).Perm l) (x : Strategy K)
    (y : Option (Strategy K)) (lo : Int) (hi : Option Int) (blo : Int) (bhi : Option Int)
    (nlo : Int) (h0 : 0 ≤ nlo) (nhi : Option Int) (hlo : Int) (hhi : Option Int)
    (s : Made (List (Polygon K)))
    (hs : multipolygons env x y lo hi blo bhi nlo nhi hlo hhi = .ok s) (l : List (Polygon K))
    (h : s.2.val l) : ∀ p ∈ l, OneAxisDistinct (polygonVertices p) := by
  rcases C57_multipolygons env x y lo hi blo bhi nlo h0 nhi hlo hhi s hs l h with
    ⟨t, ht, hp⟩ | ⟨rfl, hn, t, ht, hp⟩
  · exact fun p hm => C68_polygons env hset x y _ _ _ _ _ _ t ht p (hp p hm)
  · intro p hm
    refine (C68_multicontours env x y lo hi blo bhi t ht _ hp).mono fun v hv => ?_
    simp only [polygonVertices, hn p hm, List.flatMap_nil, List.append_nil] at hv
    exact List.mem_flatMap.2 ⟨p.border, List.mem_map_of_mem hm, hv⟩

/-- C68 for `mixes`: each polygon of the mix. -/
theorem C68_mixes (env : Env K) (hset : ∀ l, (env.setOrder l).Perm l) (x : Strategy K)
    (y : Option (Strategy K)) (a : MixArgs) (s : Made (Mix K)) (hs : mixes env x y a = .ok s)
    (g : Mix K) (h : s.2.val g) : ∀ p ∈ mixPolygons g, OneAxisDistinct (polygonVertices p) := by
  obtain ⟨-, -, t, ht, hp⟩ := C57_mixes env x y a s hs g h
  exact fun p hm => C68_polygons env hset x y _ _ _ _ _ _ t ht p (hp p hm)

end

section
open Sample

/-- Non-vacuity for C68: a concave contour, two triangles and a polygon with a hole, each with an
ordinate taken twice. -/
example : OneAxisDistinct (K := ℤ) [⟨0, 0⟩, ⟨6, 1⟩, ⟨4, 2⟩, ⟨5, 4⟩, ⟨2, 4⟩] :=
  (C68_contours env (sampledFrom (coords 7)) none 4 none _).1 _ rfl ⟨_, sample_concave, rfl⟩

example : OneAxisDistinct (K := ℤ) [⟨0, 0⟩, ⟨1, 1⟩, ⟨2, 4⟩, ⟨3, 2⟩, ⟨4, 2⟩, ⟨5, 4⟩] := by
  obtain ⟨s, hs, h⟩ := sample_multicontours
  exact C68_multicontours env _ _ _ _ _ _ s hs _ h

example : OneAxisDistinct (K := ℤ)
    [⟨0, 0⟩, ⟨6, 1⟩, ⟨5, 4⟩, ⟨2, 4⟩, ⟨1, 1⟩, ⟨3, 2⟩, ⟨4, 2⟩] := by
  obtain ⟨s, hs, h⟩ := sample_polygons
  exact C68_polygons env (fun l => List.Perm.refl l) _ _ _ _ _ _ _ _ s hs _ h

/-- An L-shaped contour is not generated. -/
example : ¬ OneAxisDistinct (K := ℤ) [⟨0, 0⟩, ⟨2, 0⟩, ⟨2, 1⟩, ⟨1, 1⟩, ⟨1, 2⟩, ⟨0, 2⟩] := by
  unfold OneAxisDistinct
  decide +kernel

end
end HG
