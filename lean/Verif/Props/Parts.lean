import Verif.Props.Loosen
import Verif.Lemmas.GeneralPosition

/-!
# C57: the parts of composite geometries are values of the simpler strategies

Polygons of a multipolygon or a mix are values of `polygons` with the same arguments, points of a mix
are values of `points`, and its segments are grouped into values of `segments` and `multisegments`.
So everything that holds for polygons holds for the polygons of multipolygons and mixes.
-/

set_option linter.unusedSectionVars false

namespace HG

open Strategy Spec

section

variable {K : Type} [LinearOrder K] [Zero K] [Add K] [_root_.Sub K] [Predicates K]
variable {x : Strategy K} {y : Option (Strategy K)}

theorem polygons_ok {env : Env K} {lo nlo hlo : Int} {hi nhi hhi : Option Int}
    (b1 : ¬ BadBounds lo hi 3) (b2 : ¬ BadBounds nlo nhi 0) (b3 : ¬ BadBounds hlo hhi 3) :
    ∃ w, polygons env x y lo hi nlo nhi hlo hhi =
      .ok (w, toPolygonStrategy env x y ⟨max lo 3, hi, max nlo 0, nhi, max hlo 3, hhi⟩) := by
  simp only [polygons, exc_bind_ok, exc_pure_ok, validate_ok]
  exact ⟨_, _, ⟨b1, rfl⟩, _, ⟨b2, rfl⟩, _, ⟨b3, rfl⟩, rfl⟩

theorem multisegments_ok {env : Env K} {lo : Int} {hi : Option Int} (b : ¬ BadBounds lo hi 2) :
    ∃ w, multisegments env x y lo hi = .ok (w, toSegmentSequenceStrategy env x y (max lo 2) hi) := by
  simp only [multisegments, exc_bind_ok, exc_pure_ok, validate_ok]
  exact ⟨_, _, ⟨b, rfl⟩, rfl⟩

theorem multicontours_ok {env : Env K} {lo clo : Int} {hi chi : Option Int}
    (b : ¬ BadBounds lo hi 2) (b' : ¬ BadBounds clo chi 3) :
    ∃ w, multicontours env x y lo hi clo chi =
      .ok (w, toMulticontourStrategy env x y (max lo 2) hi (max clo 3) chi) := by
  simp only [multicontours, exc_bind_ok, exc_pure_ok, validate_ok]
  exact ⟨_, _, ⟨b, rfl⟩, _, ⟨b', rfl⟩, rfl⟩

theorem sampledFrom_within {s : Strategy K} {l : List K} (h : ∀ a ∈ l, s.val a) :
    Within (sampledFrom l) s := h

/-- The polygon strategy of a slab has only values of the polygon strategy of all coordinates. -/
theorem slabPolygon_sub {env : Env K} {z : PolygonSizes} (hz : LooserSizes z z) :
    (∀ l : List K, (∀ a ∈ l, x.val a) →
      Within (slabPolygon env true l (yOr x y) z) (toPolygonStrategy env x y z)) ∧
    ∀ l : List K, (∀ a ∈ l, (yOr x y).val a) →
      Within (slabPolygon env false l x z) (toPolygonStrategy env x y z) :=
  ⟨fun l hl => polygon_within (y := some (yOr x y)) (sampledFrom_within hl) .rfl' hz,
    fun l hl => polygon_within (y := some (sampledFrom l)) .rfl' (sampledFrom_within (s := yOr x y) hl)
      hz⟩

theorem slabLoop_sub {env : Env K} {a : Bool} {coords : List K} {other : Strategy K}
    {z : PolygonSizes} {mp : Int} {t : Strategy (Polygon K)}
    (h : ∀ l : List K, (∀ c ∈ l, c ∈ coords) → Within (slabPolygon env a l other z) t) (left : ℕ)
    (start : Int) {ps : List (Polygon K)}
    (hp : (slabLoop env a coords other z mp left start).val ps) : ∀ p ∈ ps, t.val p := by
  induction left generalizing start ps with
  | zero =>
    simp only [slabLoop, val_map] at hp
    obtain ⟨p, hp, rfl⟩ := hp
    simpa using h _ (fun c hc => List.mem_of_mem_drop hc) p hp
  | succ left ih =>
    simp only [slabLoop, val_bind, val_pure] at hp
    obtain ⟨count, _, prime, _, p, hp, e, _, rest, hrest, rfl⟩ := hp
    intro q hq
    rcases List.mem_cons.1 hq with rfl | hq
    · exact h _ (fun c hc => List.mem_of_mem_drop (List.mem_of_mem_take hc)) _ hp
    · exact ih _ hrest q hq

theorem coordsToPolygons_sub {env : Env K} {a : Bool} {coords : List K} {other : Strategy K}
    {z : PolygonSizes} {mp lo : Int} {hi : Option Int} {t : Strategy (Polygon K)}
    (h : ∀ l : List K, (∀ c ∈ l, c ∈ coords) → Within (slabPolygon env a l other z) t)
    {ps : List (Polygon K)} (hp : (coordsToPolygons env a other z mp lo hi coords).val ps) :
    ∀ p ∈ ps, t.val p := by
  simp only [coordsToPolygons, val_bind] at hp
  obtain ⟨n, -, hp⟩ := hp
  exact slabLoop_sub (fun l hl => h l fun c hc => (sortCoords_perm _).mem_iff.1 (hl c hc)) _ _ hp

/-- C57 for `multipolygons`: the polygons are values of `polygons` with the same arguments, or they
have no holes and their borders form a value of `multicontours`. -/
theorem C57_multipolygons (env : Env K) (x : Strategy K) (y : Option (Strategy K)) (lo : Int)
    (hi : Option Int) (blo : Int) (bhi : Option Int) (nlo : Int) (h0 : 0 ≤ nlo) (nhi : Option Int)
    (hlo : Int) (hhi : Option Int) (s : Made (List (Polygon K)))
    (hs : multipolygons env x y lo hi blo bhi nlo nhi hlo hhi = .ok s) (l : List (Polygon K))
    (h : s.2.val l) :
    (∃ t, polygons env x y blo bhi nlo nhi hlo hhi = .ok t ∧ ∀ p ∈ l, t.2.val p) ∨
    (nlo = 0 ∧ (∀ p ∈ l, p.holes = []) ∧
      ∃ t, multicontours env x y lo hi blo bhi = .ok t ∧ t.2.val (l.map Polygon.border)) := by
  simp only [multipolygons, exc_bind_ok, exc_pure_ok, validate_ok] at hs
  obtain ⟨_, ⟨b1, -⟩, _, ⟨b2, -⟩, _, ⟨b3, -⟩, _, ⟨b4, -⟩, t, ht, rfl⟩ := hs
  have hz : LooserSizes ⟨max blo 3, bhi, nlo, nhi, max hlo 3, hhi⟩
      ⟨max blo 3, bhi, nlo, nhi, max hlo 3, hhi⟩ :=
    .rfl' (okBounds_nonneg (least := 0) (by decide) b3)
      (okBounds_nonneg (least := 3) (by decide) b4)
  simp only [toMultipolygonStrategy, exc_bind_ok] at ht
  obtain ⟨mp, -, ht⟩ := ht
  have slabs : ∀ {tot : Int} {tot' : Option Int},
      ((uniqueLists x tot tot').bind (coordsToPolygons env true (yOr x y)
          ⟨max blo 3, bhi, nlo, nhi, max hlo 3, hhi⟩ mp (max lo 2) hi) |||
        (uniqueLists (yOr x y) tot tot').bind (coordsToPolygons env false x
          ⟨max blo 3, bhi, nlo, nhi, max hlo 3, hhi⟩ mp (max lo 2) hi)).val l →
      ∃ t, polygons env x y blo bhi nlo nhi hlo hhi = .ok t ∧ ∀ p ∈ l, t.2.val p := by
    intro tot tot' hl
    have e0 : max nlo 0 = nlo := max_eq_left h0
    obtain ⟨w, hw⟩ := polygons_ok (env := env) (x := x) (y := y) b2 b3 b4
    rw [e0] at hw
    refine ⟨_, hw, ?_⟩
    · rcases hl with ⟨cs, hc, hl⟩ | ⟨cs, hc, hl⟩
      · exact coordsToPolygons_sub (fun k hk => (slabPolygon_sub (y := y) hz).1 k
          fun a ha => hc.1 a (hk a ha)) hl
      · exact coordsToPolygons_sub (fun k hk => (slabPolygon_sub (x := x) hz).2 k
          fun a ha => hc.1 a (hk a ha)) hl
  split at ht
  · rename_i hn
    simp only [exc_pure_ok] at ht
    subst ht
    rcases h with h | h
    · obtain ⟨cs, hcs, rfl⟩ := h
      obtain ⟨w, hw⟩ := multicontours_ok (env := env) (x := x) (y := y) b1 b2
      refine .inr ⟨hn, by simp, _, hw, ?_⟩
      · rw [List.map_map]
        have : (Polygon.border ∘ fun c : Contour K => (⟨c, []⟩ : Polygon K)) = id := rfl
        rw [this, List.map_id]
        cases y <;> exact hcs
    · exact .inl (slabs h)
  · simp only [exc_pure_ok] at ht
    subst ht
    exact .inl (slabs h)

/-- What is known of the pieces drawn so far. -/
structure Pieces (P : Point K → Prop) (S : List (Segment K) → Prop) (G : Polygon K → Prop)
    (s : MixState K) : Prop where
  points : ∀ p ∈ s.points, P p
  segments : ∃ groups : List (List (Segment K)), s.segments = groups.flatten ∧ ∀ g ∈ groups, S g
  polygons : ∀ p ∈ s.polygons, G p

theorem mixLoop_pieces {env : Env K} {a : Bool} {other : Strategy K} {z : PolygonSizes}
    {P : Point K → Prop} {S : List (Segment K) → Prop} {G : Polygon K → Prop} (all : List K)
    (hP : ∀ l : List K, (∀ c ∈ l, c ∈ all) → ∀ n ps,
      (if a then toUniquePointSequenceStrategy (sampledFrom l) (some other) n (some n)
        else toUniquePointSequenceStrategy other (some (sampledFrom l)) n (some n)).val ps →
      ∀ p ∈ ps, P p)
    (hS : ∀ l : List K, (∀ c ∈ l, c ∈ all) → ∀ n : Int, 1 ≤ n → ∀ ss,
      (if a then toSegmentSequenceStrategy env (sampledFrom l) (some other) n (some n)
        else toSegmentSequenceStrategy env other (some (sampledFrom l)) n (some n)).val ss → S ss)
    (hG : ∀ l : List K, (∀ c ∈ l, c ∈ all) → ∀ p, (slabPolygon env a l other z).val p → G p)
    (ds : List (Drawer × Int)) (hds : ∀ d ∈ ds, d.1 = .segments → 2 ≤ d.2) (coords : List K)
    (hc : ∀ c ∈ coords, c ∈ all) {s t : MixState K} (hs : Pieces P S G s)
    (h : (mixLoop env a other z ds coords s).val t) : Pieces P S G t := by
  induction ds generalizing coords s with
  | nil =>
    simp only [mixLoop, val_just] at h
    subst h
    exact hs
  | cons d ds ih =>
    obtain ⟨d, n⟩ := d
    simp only [mixLoop, val_bind] at h
    obtain ⟨u, hu, touch, -, h⟩ := h
    refine ih (fun d hd => hds d (List.mem_cons_of_mem _ hd)) _
      (fun c hc' => hc c (List.mem_of_mem_drop hc')) ?_ h
    have htake : ∀ k : ℕ, ∀ c ∈ coords.take k, c ∈ all := fun k c hk => hc c (List.mem_of_mem_take hk)
    cases d with
    | points =>
      simp only [runDrawer, drawPoints, val_bind, val_pure] at hu
      obtain ⟨ps, hps, rfl⟩ := hu
      refine ⟨fun p hp => ?_, hs.segments, hs.polygons⟩
      rcases List.mem_append.1 hp with hp | hp
      · exact hs.points p hp
      · exact hP _ (htake _) _ _ hps p hp
    | segments =>
      simp only [runDrawer, drawSegments, val_bind, val_pure] at hu
      obtain ⟨ss, hss, rfl⟩ := hu
      obtain ⟨gs, e, hgs⟩ := hs.segments
      have hn : 2 ≤ n := hds _ List.mem_cons_self rfl
      refine ⟨hs.points, ⟨gs ++ [ss], by simp [e], fun g hg => ?_⟩, hs.polygons⟩
      rcases List.mem_append.1 hg with hg | hg
      · exact hgs g hg
      · rw [List.mem_singleton.1 hg]
        exact hS _ (htake _) _ (by omega) _ hss
    | polygon =>
      simp only [runDrawer, drawPolygon, val_bind, val_pure] at hu
      obtain ⟨m, -, p, hp, rfl⟩ := hu
      refine ⟨hs.points, hs.segments, fun q hq => ?_⟩
      rcases List.mem_append.1 hq with hq | hq
      · exact hs.polygons q hq
      · rw [List.mem_singleton.1 hq]
        exact hG _ (htake _) _ hp

/-- A group of segments of a mix: one value of `segments`, or a value of `multisegments`. -/
def Spec.SegmentGroup (env : Env K) (x : Strategy K) (y : Option (Strategy K))
    (g : List (Segment K)) : Prop :=
  (∃ t v, segments x y = .ok t ∧ t.2.val v ∧ g = [v]) ∨
  2 ≤ g.length ∧ ∃ t, multisegments env x y g.length (some g.length) = .ok t ∧ t.2.val g

theorem segmentGroup_of {env : Env K} {n : Int} (hn : 1 ≤ n) {g : List (Segment K)}
    (h : (toSegmentSequenceStrategy env x y n (some n)).val g) : SegmentGroup env x y g := by
  rcases eq_or_lt_of_le hn with rfl | h2
  · left
    unfold toSegmentSequenceStrategy at h
    dsimp only at h
    rw [if_pos (by norm_num), if_pos (by norm_num)] at h
    obtain ⟨v, hv, rfl⟩ := h
    refine ⟨_, v, rfl, ?_, rfl⟩
    cases y <;> exact hv
  · right
    have hlen := segmentSequence_size (⟨by omega, fun m e => by cases e; exact le_rfl⟩) h
    have e : (g.length : Int) = n := le_antisymm (hlen.2 n rfl) hlen.1
    refine ⟨by omega, ?_⟩
    rw [e]
    obtain ⟨w, hw⟩ := multisegments_ok (env := env) (x := x) (y := y) (lo := n) (hi := some n)
      (by unfold BadBounds; simp; omega)
    refine ⟨_, hw, ?_⟩
    · show (toSegmentSequenceStrategy env x y (max n 2) (some n)).val g
      rw [max_eq_left (by omega)]
      exact h

theorem coordsToMix_parts {env : Env K} {a : Bool} {other : Strategy K} {z : MixSizes}
    {mp : Int} {coords : List K} (hg : 0 ≤ z.minPolygons)
    (hp : ∀ m, z.maxPoints = some m → z.minPoints ≤ m) {g : Mix K}
    (hval : ∀ c ∈ coords, (if a then x else yOr x y).val c) (ho : other = if a then yOr x y else x)
    (hz : LooserSizes z.polygon z.polygon)
    (h : (coordsToMix env a other z mp coords).val g) :
    (∀ p ∈ mixPoints g, (toPointStrategy x y).val p) ∧
    (∃ groups, mixSegments g = List.flatten groups ∧ ∀ k ∈ groups, SegmentGroup env x y k) ∧
    ∀ p ∈ mixPolygons g, (toPolygonStrategy env x y z.polygon).val p := by
  simp only [coordsToMix, val_bind, val_permutations, val_pure] at h
  obtain ⟨c, hc, drawers, hd, s, hs, rfl⟩ := h
  obtain ⟨-, ⟨sp, h4, h5, -, -⟩, -⟩ := pointCounts_sizes hg hp hc
  have hmem : ∀ p ∈ drawers, p.1 = .segments → 2 ≤ p.2 := by
    intro p hp he
    have := (hd.mem_iff).1 hp
    simp only [List.mem_append, List.mem_map] at this
    rcases this with (⟨b, hb, rfl⟩ | ⟨b, hb, rfl⟩) | ⟨b, hb, rfl⟩
    · cases he
    · rw [h4] at hb
      obtain ⟨k, hk, rfl⟩ := List.mem_map.1 hb
      have := h5 k hk
      dsimp only
      omega
    · cases he
  have key := mixLoop_pieces (P := fun p => (toPointStrategy x y).val p)
    (S := SegmentGroup env x y) (G := fun p => (toPolygonStrategy env x y z.polygon).val p)
    coords ?_ ?_ ?_ drawers hmem _ (fun c hc => (sortCoords_perm _).mem_iff.1 hc)
    ⟨by simp, ⟨[], by simp, by simp⟩, by simp⟩ hs
  · rw [unpackPoints_spec, unpackSegments_spec, unpackPolygons_spec]
    exact ⟨key.points, key.segments, key.polygons⟩
  · intro l hl n ps hps p hp
    subst ho
    cases a
    · exact point_within (y := some (sampledFrom l)) (y' := y) (.rfl' (s := x))
        (sampledFrom_within fun b hb => hval b (hl b hb)) p (hps.1 p hp)
    · exact point_within (y := some (yOr x y)) (y' := y)
        (sampledFrom_within fun b hb => hval b (hl b hb)) .rfl' p (hps.1 p hp)
  · intro l hl n hn ss hss
    subst ho
    refine segmentGroup_of hn ?_
    cases a
    · exact segmentSequence_within (y := some (sampledFrom l)) (y' := y) (.rfl' (s := x))
        (sampledFrom_within fun b hb => hval b (hl b hb)) .rfl' (.inl rfl) ss hss
    · exact segmentSequence_within (y := some (yOr x y)) (y' := y)
        (sampledFrom_within fun b hb => hval b (hl b hb)) .rfl' .rfl' (.inl rfl) ss hss
  · intro l hl p hp
    subst ho
    cases a
    · exact (slabPolygon_sub hz).2 l (fun b hb => hval b (hl b hb)) p hp
    · exact (slabPolygon_sub hz).1 l (fun b hb => hval b (hl b hb)) p hp

/-- C57 for `mixes`. -/
theorem C57_mixes (env : Env K) (x : Strategy K) (y : Option (Strategy K)) (a : MixArgs)
    (s : Made (Mix K)) (hs : mixes env x y a = .ok s) (g : Mix K) (h : s.2.val g) :
    (∃ t, points x y = .ok t ∧ ∀ p ∈ mixPoints g, t.2.val p) ∧
    (∃ groups, mixSegments g = List.flatten groups ∧ ∀ k ∈ groups, SegmentGroup env x y k) ∧
    ∃ t, polygons env x y a.minPolygonBorderSize a.maxPolygonBorderSize a.minPolygonHolesSize
      a.maxPolygonHolesSize a.minPolygonHoleSize a.maxPolygonHoleSize = .ok t ∧
      ∀ p ∈ mixPolygons g, t.2.val p := by
  obtain ⟨hb, z, hz, -, t, ht, hg⟩ := mixes_val hs h
  obtain ⟨e1, e2, e3, e4, e5, e6, e7, e8⟩ := branches_spec a z hz
  simp only [MixBadBounds, not_or] at hb
  obtain ⟨b1, b2, b3, b4, b5, b6⟩ := hb
  have hsz : LooserSizes z.polygon z.polygon := by
    rw [e4]
    exact .rfl' (okBounds_nonneg (least := 0) (by decide) b5)
      (okBounds_nonneg (least := 3) (by decide) b6)
  have hp : ∀ m, z.maxPoints = some m → z.minPoints ≤ m := by
    intro m e
    rw [e1] at e
    have hm := (okBounds_of b1).2 m e
    rcases e5 with h | ⟨h, h'⟩
    · rw [h]; exact hm
    · rw [h]
      rw [e] at h'
      have : m ≠ 0 := fun hc => h' (by rw [hc])
      have : 0 ≤ m := le_trans (le_max_right _ _) hm
      exact max_le hm (by omega)
  have h0 : 0 ≤ z.minPolygons := le_trans (le_max_right _ _) e7
  have key : (∀ p ∈ mixPoints g, (toPointStrategy x y).val p) ∧
      (∃ groups, mixSegments g = List.flatten groups ∧ ∀ k ∈ groups, SegmentGroup env x y k) ∧
      ∀ p ∈ mixPolygons g, (toPolygonStrategy env x y z.polygon).val p := by
    simp only [toMixStrategy, exc_bind_ok, exc_pure_ok] at ht
    obtain ⟨mp, -, rfl⟩ := ht
    rcases hg with ⟨c, hc, hg⟩ | ⟨c, hc, hg⟩
    · exact coordsToMix_parts (a := true) h0 hp hc.1 rfl hsz hg
    · exact coordsToMix_parts (a := false) h0 hp hc.1 rfl hsz hg
  obtain ⟨w, hw⟩ := polygons_ok (env := env) (x := x) (y := y) b4 b5 b6
  refine ⟨⟨_, rfl, key.1⟩, key.2.1, _, hw, ?_⟩
  rw [e4] at key
  exact key.2.2

end
end HG
