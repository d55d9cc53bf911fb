import Verif.Props.Parts
import Verif.Props.Slabs

/-!
# C29, C30: components of mixes do not meet in a wrong way
-/

set_option linter.unusedSectionVars false

namespace HG

open Strategy Spec

section
variable {K : Type} [LinearOrder K] [Zero K] [Add K] [Sub K] [Predicates K]

/-! ## Segment pieces stay in the range of their coordinates -/

theorem inRange_of_val {x : Strategy K} {a : K} (h : x.val a) : InRange x a :=
  ⟨a, a, h, h, le_refl _, le_refl _⟩

/-- Both coordinates are between drawn values. -/
def PointIn (x y : Strategy K) (p : Point K) : Prop := InRange x p.x ∧ InRange y p.y

theorem pairwise_mem {α : Type} {l : List α} {p : α × α} (h : p ∈ pairwise l) :
    p.1 ∈ l ∧ p.2 ∈ l := by
  induction l with
  | nil => simp [pairwise] at h
  | cons a l ih =>
    cases l with
    | nil => simp [pairwise] at h
    | cons b l =>
      rw [pairwise] at h
      rcases List.mem_cons.1 h with rfl | h
      · simp
      · exact ⟨List.mem_cons_of_mem _ (ih h).1, List.mem_cons_of_mem _ (ih h).2⟩

theorem cut_subset {α : Type} (l : List α) (k : Int) {a : α} (h : a ∈ cut l k) : a ∈ l := by
  unfold cut at h
  split at h
  · exact List.mem_of_mem_take h
  · exact h

theorem segmentStrategy_range {x y : Strategy K} {s : Segment K}
    (h : (toSegmentStrategy x (some y)).val s) : PointIn x y s.start ∧ PointIn x y s.stop := by
  simp only [toSegmentStrategy, val_map, val_filter, val_prod, toPointStrategy] at h
  obtain ⟨⟨p, q⟩, ⟨⟨⟨a, ⟨a1, a2⟩, e1⟩, ⟨b, ⟨b1, b2⟩, e2⟩⟩, -⟩, rfl⟩ := h
  dsimp only at e1 e2 ⊢
  subst e1 e2
  exact ⟨⟨inRange_of_val a1, inRange_of_val a2⟩, ⟨inRange_of_val b1, inRange_of_val b2⟩⟩

theorem segmentSequence_range {env : Env K} (henv : ∀ pts, ∀ p ∈ env.convexHull pts, p ∈ pts)
    {x y : Strategy K} {lo : Int} {hi : Option Int} {l : List (Segment K)}
    (h : (toSegmentSequenceStrategy env x (some y) lo hi).val l) :
    ∀ s ∈ l, PointIn x y s.start ∧ PointIn x y s.stop := by
  have vert : ∀ {p : K × List K}, x.val p.1 → (∀ a ∈ p.2, y.val a) →
      ∀ s ∈ verticalMultisegment p.1 p.2, PointIn x y s.start ∧ PointIn x y s.stop := by
    intro p h1 h2 s hs
    obtain ⟨q, hq, rfl⟩ := List.mem_map.1 hs
    obtain ⟨q1, q2⟩ := pairwise_mem hq
    exact ⟨⟨inRange_of_val h1, inRange_of_val (h2 _ ((sortCoords_perm _).mem_iff.1 q1))⟩,
      ⟨inRange_of_val h1, inRange_of_val (h2 _ ((sortCoords_perm _).mem_iff.1 q2))⟩⟩
  have hori : ∀ {p : List K × K}, (∀ a ∈ p.1, x.val a) → y.val p.2 →
      ∀ s ∈ horizontalMultisegment p.1 p.2, PointIn x y s.start ∧ PointIn x y s.stop := by
    intro p h1 h2 s hs
    obtain ⟨q, hq, rfl⟩ := List.mem_map.1 hs
    obtain ⟨q1, q2⟩ := pairwise_mem hq
    exact ⟨⟨inRange_of_val (h1 _ ((sortCoords_perm _).mem_iff.1 q1)), inRange_of_val h2⟩,
      ⟨inRange_of_val (h1 _ ((sortCoords_perm _).mem_iff.1 q2)), inRange_of_val h2⟩⟩
  have cont : ∀ {vs : List (Point K)},
      (toVertexSequenceStrategy env x (some y) (max lo 3) hi).val vs →
      (toSubSequenceStrategy lo (contourEdges vs)).val l →
      ∀ s ∈ l, PointIn x y s.start ∧ PointIn x y s.stop := by
    intro vs hvs hl s hs
    simp only [toSubSequenceStrategy, val_map, val_prod, val_permutations] at hl
    obtain ⟨⟨q, n⟩, ⟨hq, -⟩, rfl⟩ := hl
    have hs' : s ∈ contourEdges vs := hq.mem_iff.1 (cut_subset _ _ hs)
    have key : ∀ v ∈ vs, PointIn x y v := by
      intro v hv
      rcases hvs with h | h
      · exact convexStrategy_range henv (le_max_right _ _) h v hv
      · have := vertexSequences_drawn (le_max_right _ _) h v hv
        exact ⟨inRange_of_val this.1, inRange_of_val this.2⟩
    obtain ⟨e1, e2⟩ := contourEdges_mem hs'
    exact ⟨key _ e1, key _ e2⟩
  have three : ∀ {p q r t : Strategy (List (Segment K))} {P : Prop}, (p.val l → P) →
      (q.val l → P) → (r.val l → P) → (t.val l → P) → (((p ||| q) ||| r) ||| t).val l → P := by
    rintro p q r t P h1 h2 h3 h4 (((h | h) | h) | h)
    exacts [h1 h, h2 h, h3 h, h4 h]
  have v1 : ∀ {a : Int} {b : Option Int}, ((prod x (uniqueLists y a b)).map
      fun p => verticalMultisegment p.1 p.2).val l →
      ∀ s ∈ l, PointIn x y s.start ∧ PointIn x y s.stop := by
    rintro a b ⟨p, ⟨h1, h2⟩, rfl⟩
    exact vert h1 h2.1
  have v2 : ∀ {a : Int} {b : Option Int}, ((prod (uniqueLists x a b) y).map
      fun p => horizontalMultisegment p.1 p.2).val l →
      ∀ s ∈ l, PointIn x y s.start ∧ PointIn x y s.stop := by
    rintro a b ⟨p, ⟨h1, h2⟩, rfl⟩
    exact hori h1.1 h2
  have v3 : (((toVertexSequenceStrategy env x (some y) (max lo 3) hi).map
      contourEdges).bind (toSubSequenceStrategy lo)).val l →
      ∀ s ∈ l, PointIn x y s.start ∧ PointIn x y s.stop := by
    rintro ⟨es, ⟨vs, hvs, rfl⟩, hl⟩
    exact cont hvs hl
  have v4 : ((lists (toSegmentStrategy x (some y)) lo hi).filter
      fun ss => !env.segmentsCrossOrOverlap ss).val l →
      ∀ s ∈ l, PointIn x y s.start ∧ PointIn x y s.stop := by
    rintro ⟨⟨h, -⟩, -⟩ s hs
    exact segmentStrategy_range (h s hs)
  unfold toSegmentSequenceStrategy at h
  cases hi with
  | none => exact three v1 v2 v3 v4 h
  | some m =>
    dsimp only at h
    split at h
    · split at h
      · obtain ⟨s, hs, rfl⟩ := h
        intro t ht
        rw [List.mem_singleton.1 ht]
        exact segmentStrategy_range hs
      · simp only [val_just] at h
        subst h
        simp
    · split at h
      · exact three v1 v2 v3 v4 h
      · rcases h with (h | h) | h
        exacts [v1 h, v2 h, v4 h]

/-! ## The loop over the pieces -/

theorem within_of_inRange {R : List K} {v : K} (h : InRange (sampledFrom R) v) : Within R v := by
  obtain ⟨b, c, hb, hc, h1, h2⟩ := h
  exact ⟨b, hb, c, hc, h1, h2⟩

/-- What is known of the pieces drawn so far: their order along the axis. -/
structure PiecesOrdered (a : Bool) (s : MixState K) (groups : List (List (Segment K))) : Prop where
  flat : groups.flatten = s.segments
  nodup : s.points.Nodup
  pointSegment : ∀ p ∈ s.points, ∀ t ∈ s.segments, PointBeside a p [t.start, t.stop]
  pointPolygon : ∀ p ∈ s.points, ∀ g ∈ s.polygons, PointBeside a p (polygonVertices g)
  border : ∀ g ∈ s.polygons, g.border.vertices ≠ []
  polygons : s.polygons.Pairwise (PolygonsOrdered a)
  segmentPolygon : ∀ t ∈ s.segments, ∀ g ∈ s.polygons, SegmentBesidePolygon a t g
  groups : groups.Pairwise fun k l => ∀ s ∈ k, ∀ t ∈ l, SegBefore a s t

/-- The pieces drawn so far are before the coordinates left; `strict` tells that they must not
touch the next piece. -/
structure PiecesBefore (a : Bool) (s : MixState K) (R : List K) (strict : Prop) : Prop where
  border : ∀ g ∈ s.polygons, g.border.vertices ≠ []
  segments : ∀ t ∈ s.segments, SegLe a t R
  edges : ∀ g ∈ s.polygons, ∀ t ∈ contourEdges g.border.vertices, SegLe a t R
  polygons : ∀ g ∈ s.polygons, ∀ v ∈ polygonVertices g, ∀ c ∈ R, axis a v ≤ c
  points : ∀ p ∈ s.points, ∀ c ∈ R, axis a p < c
  segmentsStrict : strict → ∀ t ∈ s.segments, ∀ c ∈ R, axis a t.start < c ∧ axis a t.stop < c
  polygonsStrict : strict → ∀ g ∈ s.polygons, ∀ v ∈ polygonVertices g, ∀ c ∈ R, axis a v < c

theorem drawPoints_val {a : Bool} {R : List K} {other : Strategy K} {n : Int} {s t : MixState K}
    (h : (drawPoints a R other n s).val t) : ∃ ps, t = { s with points := s.points ++ ps } ∧
      ps.Nodup ∧ ∀ p ∈ ps, axis a p ∈ R.take n.toNat := by
  simp only [drawPoints, val_bind, val_pure] at h
  obtain ⟨ps, hps, rfl⟩ := h
  refine ⟨ps, rfl, ?_⟩
  cases a <;>
  · simp only [Bool.false_eq_true, if_true, if_false] at hps
    obtain ⟨h1, h2, -⟩ := hps
    refine ⟨h2, fun p hp => ?_⟩
    obtain ⟨q, ⟨q1, q2⟩, rfl⟩ := h1 p hp
    first | exact q1 | exact q2

theorem drawSegments_val {env : Env K} (henv : ∀ pts, ∀ p ∈ env.convexHull pts, p ∈ pts) {a : Bool}
    {R : List K} {other : Strategy K} {n : Int} {s t : MixState K}
    (h : (drawSegments env a R other n s).val t) :
    ∃ ss, t = { s with segments := s.segments ++ ss } ∧
      (if a then toSegmentSequenceStrategy env (sampledFrom (R.take n.toNat)) (some other) (n / 2)
          (some (n / 2))
        else toSegmentSequenceStrategy env other (some (sampledFrom (R.take n.toNat))) (n / 2)
          (some (n / 2))).val ss ∧
      ∀ u ∈ ss, Within (R.take n.toNat) (axis a u.start) ∧
        Within (R.take n.toNat) (axis a u.stop) := by
  simp only [drawSegments, val_bind, val_pure] at h
  obtain ⟨ss, hss, rfl⟩ := h
  refine ⟨ss, rfl, hss, ?_⟩
  cases a
  · simp only [Bool.false_eq_true, if_false] at hss
    exact fun u hu => ⟨within_of_inRange (segmentSequence_range henv hss u hu).1.2,
      within_of_inRange (segmentSequence_range henv hss u hu).2.2⟩
  · simp only [if_true] at hss
    exact fun u hu => ⟨within_of_inRange (segmentSequence_range henv hss u hu).1.1,
      within_of_inRange (segmentSequence_range henv hss u hu).2.1⟩

theorem drawPolygon_val {env : Env K} (hset : ∀ l, (env.setOrder l).Perm l) {a : Bool}
    {R : List K} {other : Strategy K} {z : PolygonSizes} (hz : 3 ≤ z.minSize)
    (h3 : 3 ≤ z.minSize + z.minHoleSize * z.minHoleCount) {n : Int} {s t : MixState K}
    (h : (drawPolygon env a R other z n s).val t) :
    ∃ g, t = { s with polygons := s.polygons ++ [g] } ∧ g.border.vertices ≠ [] ∧
      ∀ v ∈ polygonVertices g, axis a v ∈ R.take n.toNat := by
  simp only [drawPolygon, val_bind, val_pure] at h
  obtain ⟨m, hm, g, hg, rfl⟩ := h
  refine ⟨g, rfl, slabPolygon_border hz hg, fun v hv => ?_⟩
  have hmn : m ≤ n := by
    cases a
    · simp only [Bool.false_eq_true, if_false, val_just] at hm
      omega
    · simp only [if_true, val_ofExcept] at hm
      exact toPriorPrime_le hm
  exact List.take_subset_take_left _ (by omega) (slabPolygon_axis hset h3 hg v hv)

/-- Values within the first coordinates are not after the coordinates left. -/
theorem within_le {R : List K} (hR : R.Pairwise (· < ·)) {n j : Nat} {v c : K}
    (h : Within (R.take n) v) (hc : c ∈ R.drop j) : (n - 1 ≤ j → v ≤ c) ∧ (n ≤ j → v < c) := by
  obtain ⟨-, -, b, hb, -, h⟩ := h
  exact ⟨fun hj => h.trans ((take_drop_lt hR hb hc).1 hj),
    fun hj => h.trans_lt ((take_drop_lt hR hb hc).2 hj)⟩

theorem drop_later {R : List K} (hR : R.Pairwise (· < ·)) {n : Nat} (hn : 1 ≤ n) {c : K}
    (hc : c ∈ R.drop n) : ∃ b ∈ R, b < c := by
  cases R with
  | nil => simp at hc
  | cons b R =>
    refine ⟨b, by simp, ?_⟩
    cases n with
    | zero => omega
    | succ n =>
      rw [List.drop_succ_cons] at hc
      exact (List.pairwise_cons.1 hR).1 c (List.mem_of_mem_drop hc)

theorem canTouch_segments {a : Bool} {d : Drawer} {s : MixState K}
    (h : canTouchNext a .segments (some d) s = .ok true) :
    hasExtremeSegment a s.segments = .ok false := by
  cases d <;> simp only [canTouchNext, exc_pure_ok, exc_bind_ok, Bool.false_eq_true] at h
  all_goals
    obtain ⟨e, he, h⟩ := h
    rw [he]
    cases e <;> simp at h ⊢

theorem canTouch_polygon {a : Bool} {d : Drawer} {s : MixState K} {g : Polygon K}
    (h : canTouchNext a .polygon (some d) { s with polygons := s.polygons ++ [g] } = .ok true) :
    hasExtremeSegment a (contourEdges g.border.vertices) = .ok false := by
  cases d <;> simp only [canTouchNext, List.getLast?_concat, exc_pure_ok, exc_bind_ok,
    Bool.false_eq_true] at h
  all_goals
    obtain ⟨e, he, h⟩ := h
    rw [he]
    cases e <;> simp at h ⊢

theorem mixLoop_ok {env : Env K} (henv : ∀ pts, ∀ p ∈ env.convexHull pts, p ∈ pts)
    (hset : ∀ l, (env.setOrder l).Perm l) {a : Bool} {other : Strategy K} {z : PolygonSizes}
    (hz : 3 ≤ z.minSize) (h3 : 3 ≤ z.minSize + z.minHoleSize * z.minHoleCount)
    {S : List (Segment K) → Prop} {all : List K}
    (hS : ∀ l : List K, (∀ c ∈ l, c ∈ all) → ∀ n : Int, 1 ≤ n → ∀ ss,
      (if a then toSegmentSequenceStrategy env (sampledFrom l) (some other) n (some n)
        else toSegmentSequenceStrategy env other (some (sampledFrom l)) n (some n)).val ss → S ss)
    (ds : List (Drawer × Int)) (hd : ∀ d ∈ ds, 1 ≤ d.2)
    (hds : ∀ d ∈ ds, d.1 = .segments → 2 ≤ d.2) (R : List K) (hR : R.Pairwise (· < ·))
    (hall : ∀ c ∈ R, c ∈ all)
    (s : MixState K) (groups : List (List (Segment K))) (hs : PiecesOrdered a s groups)
    (hgr : ∀ g ∈ groups, S g)
    (hb : PiecesBefore a s R (ds.head?.map Prod.fst = some .points)) {t : MixState K}
    (h : (mixLoop env a other z ds R s).val t) :
    ∃ groups', PiecesOrdered a t groups' ∧ ∀ g ∈ groups', S g := by
  induction ds generalizing R s groups with
  | nil =>
    simp only [mixLoop, val_just] at h
    subst h
    exact ⟨groups, hs, hgr⟩
  | cons d ds ih =>
    obtain ⟨dr, n⟩ := d
    simp only [mixLoop, val_bind, val_ofExcept] at h
    obtain ⟨s1, h1, touch, ht, h⟩ := h
    have hn : 1 ≤ n := hd (dr, n) (by simp)
    have hbt := b2i_cases touch
    have hR' : (R.drop (n - b2i touch).toNat).Pairwise (· < ·) :=
      hR.sublist (List.drop_sublist _ _)
    have hsub : ∀ c ∈ R.drop (n - b2i touch).toNat, c ∈ R := fun c => List.mem_of_mem_drop
    have hnt : ds.head?.map Prod.fst = some .points → touch = false := by
      intro he
      rw [he] at ht
      simp only [canTouchNext, exc_pure_ok] at ht
      exact ht.symm
    have hlast : ∀ {v c : K}, Within (R.take n.toNat) v → c ∈ R.drop (n - b2i touch).toNat →
        v ≤ c ∧ (touch = false → v < c) := by
      intro v c hv hc
      have := within_le hR hv hc
      refine ⟨this.1 (by omega), fun ht => this.2 ?_⟩
      subst ht
      simp [b2i]
    have hold : ds.head?.map Prod.fst = some .points → ∀ c ∈ R.drop (n - b2i touch).toNat,
        ∃ b ∈ R, b < c := by
      intro he c hc
      rw [hnt he] at hc
      exact drop_later hR (by simp [b2i]; omega) hc
    have hd' : ∀ d ∈ ds, 1 ≤ d.2 := fun d hd' => hd d (by simp [hd'])
    have hds' : ∀ d ∈ ds, d.1 = .segments → 2 ≤ d.2 := fun d hd' => hds d (by simp [hd'])
    have hall' : ∀ c ∈ R.drop (n - b2i touch).toNat, c ∈ all := fun c hc => hall c (hsub c hc)
    cases dr with
    | points =>
      simp only [runDrawer] at h1
      obtain ⟨ps, rfl, hnd, hps⟩ := drawPoints_val h1
      have htf : touch = false := by
        cases hh : ds.head?.map Prod.fst with
        | none => rw [hh] at ht; simp only [canTouchNext, exc_pure_ok] at ht; exact ht.symm
        | some d =>
          rw [hh] at ht
          cases d <;> simp only [canTouchNext, exc_pure_ok] at ht <;> exact ht.symm
      have hps' : ∀ p ∈ ps, axis a p ∈ R := fun p hp => List.mem_of_mem_take (hps p hp)
      refine ih hd' hds' _ hR' hall' _ groups ?_ hgr ?_ h
      · refine ⟨hs.flat, ?_, ?_, ?_, hs.border, hs.polygons, hs.segmentPolygon, hs.groups⟩
        · refine List.nodup_append.2 ⟨hs.nodup, hnd, ?_⟩
          rintro p hp q hq rfl
          exact lt_irrefl _ (hb.points p hp _ (hps' p hq))
        · intro p hp u hu
          rcases List.mem_append.1 hp with hp | hp
          · exact hs.pointSegment p hp u hu
          · have := hb.segmentsStrict rfl u hu _ (hps' p hp)
            exact Or.inr (by simpa using this)
        · intro p hp g hg
          rcases List.mem_append.1 hp with hp | hp
          · exact hs.pointPolygon p hp g hg
          · exact Or.inr fun v hv => hb.polygonsStrict rfl g hg v hv _ (hps' p hp)
      · refine ⟨hb.border, fun t ht => (hb.segments t ht).mono hsub,
          fun g hg t ht => (hb.edges g hg t ht).mono hsub,
          fun g hg v hv c hc => hb.polygons g hg v hv c (hsub c hc), ?_,
          fun _ t ht c hc => hb.segmentsStrict rfl t ht c (hsub c hc),
          fun _ g hg v hv c hc => hb.polygonsStrict rfl g hg v hv c (hsub c hc)⟩
        intro p hp c hc
        rcases List.mem_append.1 hp with hp | hp
        · exact hb.points p hp c (hsub c hc)
        · exact (hlast (.of_mem (hps p hp)) hc).2 htf
    | segments =>
      simp only [runDrawer] at h1
      obtain ⟨ss, rfl, hss, hrange⟩ := drawSegments_val henv h1
      have hin : ∀ u ∈ ss, Within R (axis a u.start) ∧ Within R (axis a u.stop) := fun u hu =>
        ⟨(hrange u hu).1.mono fun _ => List.mem_of_mem_take,
          (hrange u hu).2.mono fun _ => List.mem_of_mem_take⟩
      refine ih hd' hds' _ hR' hall' _ (groups ++ [ss]) ?_ ?_ ?_ h
      · refine ⟨by simp [hs.flat], hs.nodup, ?_, hs.pointPolygon, hs.border, hs.polygons, ?_, ?_⟩
        · intro p hp u hu
          rcases List.mem_append.1 hu with hu | hu
          · exact hs.pointSegment p hp u hu
          · obtain ⟨⟨b, hb1, -, -, hb2, -⟩, ⟨c, hc1, -, -, hc2, -⟩⟩ := hin u hu
            have k1 := (hb.points p hp b hb1).trans_le hb2
            have k2 := (hb.points p hp c hc1).trans_le hc2
            exact Or.inl (by simpa using ⟨k1, k2⟩)
        · intro u hu g hg
          rcases List.mem_append.1 hu with hu | hu
          · exact hs.segmentPolygon u hu g hg
          · exact Or.inr fun i => (hb.edges g hg _ (mem_contourEdges (hb.border g hg) i)).before
              (hin u hu).1 (hin u hu).2
        · refine List.pairwise_append.2 ⟨hs.groups, by simp, ?_⟩
          intro k hk l hl u hu w hw
          rw [List.mem_singleton] at hl
          subst hl
          have hu' : u ∈ s.segments := by rw [← hs.flat]; exact List.mem_flatten.2 ⟨k, hk, hu⟩
          exact (hb.segments u hu').before (hin w hw).1 (hin w hw).2
      · intro g hg
        rcases List.mem_append.1 hg with hg | hg
        · exact hgr g hg
        · rw [List.mem_singleton] at hg
          subst hg
          have h2 : 2 ≤ n := hds (.segments, n) (by simp) rfl
          exact hS _ (fun c hc => hall c (List.mem_of_mem_take hc)) _ (by omega) _ hss
      · refine ⟨hb.border, ?_, fun g hg t ht => (hb.edges g hg t ht).mono hsub,
          fun g hg v hv c hc => hb.polygons g hg v hv c (hsub c hc),
          fun p hp c hc => hb.points p hp c (hsub c hc), ?_, ?_⟩
        · intro u hu
          rcases List.mem_append.1 hu with hu | hu
          · exact (hb.segments u hu).mono hsub
          · refine segLe_step (n := n.toNat) hR hrange (T := s.segments ++ ss) ?_ u hu
            cases htv : touch with
            | false => left; simp [b2i]
            | true =>
              right
              refine ⟨by simp [b2i], ?_, fun u hu => by simp [hu], fun w hw c hc => ?_⟩
              · rw [htv] at ht
                cases hh : ds.head?.map Prod.fst with
                | none => rw [hh] at ht; simp [canTouchNext, exc_pure_ok] at ht
                | some d =>
                  rw [hh] at ht
                  exact canTouch_segments ht
              · rcases List.mem_append.1 hw with hw | hw
                · exact (hb.segments w hw c (List.mem_of_mem_drop hc)).1
                · exact (hlast (hrange w hw).1 (by rw [htv]; exact hc)).1
        · intro he u hu c hc
          rcases List.mem_append.1 hu with hu | hu
          · obtain ⟨b, hbR, hlt⟩ := hold he c hc
            have := hb.segments u hu b hbR
            exact ⟨this.1.trans_lt hlt, this.2.1.trans_lt hlt⟩
          · exact ⟨(hlast (hrange u hu).1 hc).2 (hnt he), (hlast (hrange u hu).2 hc).2 (hnt he)⟩
        · intro he g hg v hv c hc
          obtain ⟨b, hbR, hlt⟩ := hold he c hc
          exact (hb.polygons g hg v hv b hbR).trans_lt hlt
    | polygon =>
      simp only [runDrawer] at h1
      obtain ⟨g, rfl, hbd, hax⟩ := drawPolygon_val hset hz h3 h1
      have hin : ∀ v ∈ polygonVertices g, axis a v ∈ R := fun v hv =>
        List.mem_of_mem_take (hax v hv)
      have hcyc : ∀ i, cyc g.border.vertices i ∈ polygonVertices g := fun i =>
        mem_polygonVertices.2 (Or.inl (cyc_mem (List.length_pos_of_ne_nil hbd) i))
      refine ih hd' hds' _ hR' hall' _ groups ?_ hgr ?_ h
      · refine ⟨hs.flat, hs.nodup, hs.pointSegment, ?_, ?_, ?_, ?_, hs.groups⟩
        · intro p hp g' hg
          rcases List.mem_append.1 hg with hg | hg
          · exact hs.pointPolygon p hp g' hg
          · rw [List.mem_singleton] at hg
            subst hg
            exact Or.inl fun v hv => hb.points p hp _ (hin v hv)
        · intro g' hg
          rcases List.mem_append.1 hg with hg | hg
          · exact hs.border g' hg
          · rw [List.mem_singleton] at hg
            subst hg
            exact hbd
        · refine List.pairwise_append.2 ⟨hs.polygons, by simp, ?_⟩
          intro g' hg' g'' hg
          rw [List.mem_singleton] at hg
          subst hg
          exact ordered_of_segLe (hb.border g' hg') hbd (hb.polygons g' hg') (hb.edges g' hg') hin
        · intro u hu g' hg
          rcases List.mem_append.1 hg with hg | hg
          · exact hs.segmentPolygon u hu g' hg
          · rw [List.mem_singleton] at hg
            subst hg
            exact Or.inl fun i => (hb.segments u hu).before (.of_mem (hin _ (hcyc i)))
              (.of_mem (hin _ (hcyc (i + 1))))
      · refine ⟨?_, fun u hu => (hb.segments u hu).mono hsub, ?_, ?_,
          fun p hp c hc => hb.points p hp c (hsub c hc), ?_, ?_⟩
        · intro g' hg
          rcases List.mem_append.1 hg with hg | hg
          · exact hb.border g' hg
          · rw [List.mem_singleton] at hg
            subst hg
            exact hbd
        · intro g' hg
          rcases List.mem_append.1 hg with hg | hg
          · exact fun t ht => (hb.edges g' hg t ht).mono hsub
          · rw [List.mem_singleton] at hg
            subst hg
            have hw : ∀ s ∈ contourEdges g'.border.vertices,
                Within (R.take n.toNat) (axis a s.start) ∧
                  Within (R.take n.toNat) (axis a s.stop) := by
              intro s hs
              obtain ⟨e1, e2⟩ := contourEdges_mem hs
              exact ⟨.of_mem (hax _ (mem_polygonVertices.2 (Or.inl e1))),
                .of_mem (hax _ (mem_polygonVertices.2 (Or.inl e2)))⟩
            refine segLe_step (n := n.toNat) hR hw (T := contourEdges g'.border.vertices) ?_
            cases htv : touch with
            | false => left; simp [b2i]
            | true =>
              right
              refine ⟨by simp [b2i], ?_, fun u hu => hu, fun w hw' c hc => ?_⟩
              · rw [htv] at ht
                cases hh : ds.head?.map Prod.fst with
                | none => rw [hh] at ht; simp [canTouchNext, exc_pure_ok] at ht
                | some d =>
                  rw [hh] at ht
                  exact canTouch_polygon ht
              · exact (hlast (hw w hw').1 (by rw [htv]; exact hc)).1
        · intro g' hg
          rcases List.mem_append.1 hg with hg | hg
          · exact fun v hv c hc => hb.polygons g' hg v hv c (hsub c hc)
          · rw [List.mem_singleton] at hg
            subst hg
            exact fun v hv c hc => (hlast (.of_mem (hax v hv)) hc).1
        · intro he u hu c hc
          obtain ⟨b, hbR, hlt⟩ := hold he c hc
          have := hb.segments u hu b hbR
          exact ⟨this.1.trans_lt hlt, this.2.1.trans_lt hlt⟩
        · intro he g' hg v hv c hc
          rcases List.mem_append.1 hg with hg | hg
          · obtain ⟨b, hbR, hlt⟩ := hold he c hc
            exact (hb.polygons g' hg v hv b hbR).trans_lt hlt
          · rw [List.mem_singleton] at hg
            subst hg
            exact (hlast (.of_mem (hax v hv)) hc).2 (hnt he)

theorem coordsToMix_ok {env : Env K} (henv : ∀ pts, ∀ p ∈ env.convexHull pts, p ∈ pts)
    (hset : ∀ l, (env.setOrder l).Perm l) {a : Bool} {other : Strategy K} {z : MixSizes}
    (hz : 3 ≤ z.polygon.minSize)
    (h3 : 3 ≤ z.polygon.minSize + z.polygon.minHoleSize * z.polygon.minHoleCount) {mp : Int}
    {coords : List K} (hc : coords.Nodup) (hmp : 1 ≤ mp) (hg : 0 ≤ z.minPolygons)
    (hp : ∀ m, z.maxPoints = some m → z.minPoints ≤ m) {x : Strategy K} {y : Option (Strategy K)}
    (hval : ∀ c ∈ coords, (if a then x else yOr x y).val c) (ho : other = if a then yOr x y else x)
    {g : Mix K} (h : (coordsToMix env a other z mp coords).val g) :
    ∃ groups, PiecesOrdered a ⟨mixPoints g, mixSegments g, mixPolygons g⟩ groups ∧
      ∀ l ∈ groups, SegmentGroup env x y l := by
  simp only [coordsToMix, val_bind, val_permutations, val_pure] at h
  obtain ⟨c, hcnt, drawers, hd, s, hs, rfl⟩ := h
  obtain ⟨⟨-, -, h1⟩, ⟨sp, h4, h5, -⟩, -, h9, -⟩ := pointCounts_sizes hg hp hcnt
  rw [unpackPoints_spec, unpackSegments_spec, unpackPolygons_spec]
  refine mixLoop_ok henv hset hz h3 (all := coords) ?_ drawers ?_ ?_ _ (sortCoords_lt _ hc)
    (fun c hc => (sortCoords_perm _).mem_iff.1 hc) ⟨[], [], []⟩ [] ?_ (by simp) ?_ hs
  · intro l hl n hn ss hss
    subst ho
    refine segmentGroup_of hn ?_
    cases a
    · exact segmentSequence_within (y := some (sampledFrom l)) (y' := y) (.rfl' (s := x))
        (sampledFrom_within fun b hb => hval b (hl b hb)) .rfl' (.inl rfl) ss hss
    · exact segmentSequence_within (y := some (yOr x y)) (y' := y)
        (sampledFrom_within fun b hb => hval b (hl b hb)) .rfl' .rfl' (.inl rfl) ss hss
  · intro d hd'
    have := (hd.mem_iff).1 hd'
    simp only [List.mem_append, List.mem_map] at this
    rcases this with (⟨a, ha, rfl⟩ | ⟨a, ha, rfl⟩) | ⟨a, ha, rfl⟩
    · exact h1 a ha
    · rw [h4] at ha
      obtain ⟨b, hb, rfl⟩ := List.mem_map.1 ha
      have := h5 b hb
      dsimp only
      omega
    · exact hmp.trans (h9 a ha)
  · intro d hd' he
    have := (hd.mem_iff).1 hd'
    simp only [List.mem_append, List.mem_map] at this
    rcases this with (⟨a, ha, rfl⟩ | ⟨a, ha, rfl⟩) | ⟨a, ha, rfl⟩
    · cases he
    · rw [h4] at ha
      obtain ⟨b, hb, rfl⟩ := List.mem_map.1 ha
      have := h5 b hb
      dsimp only
      omega
    · cases he
  · constructor <;> simp
  · constructor <;> simp

theorem mix_ordered {env : Env K} (henv : ∀ pts, ∀ p ∈ env.convexHull pts, p ∈ pts)
    (hset : ∀ l, (env.setOrder l).Perm l) {x : Strategy K} {y : Option (Strategy K)}
    {a : MixArgs} {s : Made (Mix K)} (hs : mixes env x y a = .ok s) {g : Mix K}
    (h : s.2.val g) :
    ∃ b groups, PiecesOrdered b ⟨mixPoints g, mixSegments g, mixPolygons g⟩ groups ∧
      ∀ l ∈ groups, SegmentGroup env x y l := by
  obtain ⟨hbad, z, hz, -, t, ht, hg⟩ := mixes_val hs h
  obtain ⟨e1, e2, e3, e4, e5, e6, e7, e8⟩ := branches_spec a z hz
  have hmp : ∀ m, z.maxPoints = some m → z.minPoints ≤ m := by
    intro m e
    have hb : ¬ BadBounds a.minPointsSize a.maxPointsSize 0 := fun hc => hbad (by
      simp [MixBadBounds, hc])
    rw [e1] at e
    have hm := (okBounds_of hb).2 m e
    rcases e5 with h | ⟨h, h'⟩
    · rw [h]; exact hm
    · rw [h]
      rw [e] at h'
      have : m ≠ 0 := fun hc => h' (by rw [hc])
      have : 0 ≤ m := le_trans (le_max_right _ _) hm
      exact max_le hm (by omega)
  have hz3 : 3 ≤ z.polygon.minSize := by rw [e4]; exact le_max_right _ _
  have hzn : 0 ≤ z.polygon.minHoleCount := by rw [e4]; exact le_max_right _ _
  have hzh : 0 ≤ z.polygon.minHoleSize := by
    rw [e4]; exact le_trans (by norm_num) (le_max_right _ _)
  simp only [toMixStrategy, exc_bind_ok, exc_pure_ok] at ht
  obtain ⟨mp, hmp', rfl⟩ := ht
  obtain ⟨p, hp', hpp, -⟩ := toNextPrime_spec
    (z.polygon.minSize + z.polygon.minHoleCount * z.polygon.minHoleSize) (by nlinarith)
  rw [hp'] at hmp'
  cases hmp'
  have := hpp.pos
  rcases hg with ⟨c, hc, hg⟩ | ⟨c, hc, hg⟩
  · exact ⟨true, coordsToMix_ok (a := true) (x := x) (y := y) henv hset hz3 (by nlinarith) hc.2.1 (by omega)
      (le_trans (le_max_right _ _) e7) hmp hc.1 rfl hg⟩
  · exact ⟨false, coordsToMix_ok (a := false) (x := x) (y := y) henv hset hz3 (by nlinarith) hc.2.1 (by omega)
      (le_trans (le_max_right _ _) e7) hmp hc.1 rfl hg⟩

end

section
variable {K : Type} [CommRing K] [LinearOrder K] [IsStrictOrderedRing K]

/-- A point strictly after (before) the coordinates of points is not in their convex hull. -/
theorem not_inHull_of_lt {a : Bool} {l : List (Point K)} {p : Point K} {c : K}
    (h : ∀ v ∈ l, axis a v ≤ c) (hp : c < axis a p) : ¬ InHull l p := by
  intro hin
  cases a
  · have := hin 0 1 c (fun q hq => by simpa [axis] using h q hq)
    simp only [zero_mul, one_mul, zero_add] at this
    exact absurd hp (not_lt.2 this)
  · have := hin 1 0 c (fun q hq => by simpa [axis] using h q hq)
    simp only [zero_mul, one_mul, add_zero] at this
    exact absurd hp (not_lt.2 this)

theorem not_inHull_of_gt {a : Bool} {l : List (Point K)} {p : Point K} {c : K}
    (h : ∀ v ∈ l, c ≤ axis a v) (hp : axis a p < c) : ¬ InHull l p := by
  intro hin
  cases a
  · have := hin 0 (-1) (-c) (fun q hq => by simpa [axis] using h q hq)
    simp only [zero_mul, zero_add, neg_mul, one_mul, neg_le_neg_iff] at this
    exact absurd hp (not_lt.2 this)
  · have := hin (-1) 0 (-c) (fun q hq => by simpa [axis] using h q hq)
    simp only [zero_mul, add_zero, neg_mul, one_mul, neg_le_neg_iff] at this
    exact absurd hp (not_lt.2 this)

/-- A point beside the endpoints of a segment is not on it. -/
theorem PointBeside.not_onSeg {a : Bool} {p : Point K} {t : Segment K}
    (h : PointBeside a p [t.start, t.stop]) : ¬ OnSeg t p := by
  intro hon
  rcases h with h | h
  · exact absurd (onSeg_axis (a := a) hon).1 (not_le.2 (lt_min (h _ (by simp)) (h _ (by simp))))
  · exact absurd (onSeg_axis (a := a) hon).2 (not_le.2 (max_lt (h _ (by simp)) (h _ (by simp))))

/-- A point beside points is not in their convex hull. -/
theorem PointBeside.not_inHull {a : Bool} {p : Point K} {l : List (Point K)} (hne : l ≠ [])
    (h : PointBeside a p l) : ¬ InHull l p := by
  rcases h with h | h
  · obtain ⟨v, hv, hmin⟩ := exists_upper (fun q => - axis a q) l hne
    exact not_inHull_of_gt (fun w hw => neg_le_neg_iff.1 (hmin w hw)) (h v hv)
  · obtain ⟨v, hv, hmax⟩ := exists_upper (axis a) l hne
    exact not_inHull_of_lt hmax (h v hv)

theorem SegmentBesidePolygon.noCross {a : Bool} {t : Segment K} {g : Polygon K}
    (h : SegmentBesidePolygon a t g) (i : Nat) : NoCross t (edge g.border.vertices i) := by
  rcases h with h | h
  · exact (h i).noCross
  · exact NoCross.symm (h i).noCross

/-- C29: no point of the discrete component of a mix lies on a segment or in the convex hull of a
polygon of the mix, and its points are different from each other. -/
theorem C29_discrete (env : Env K) (henv : ∀ pts, HullOk (env.convexHull pts) pts)
    (hset : ∀ l, (env.setOrder l).Perm l) (x : Strategy K) (y : Option (Strategy K))
    (a : MixArgs) (s : Made (Mix K)) (hs : mixes env x y a = .ok s) (g : Mix K)
    (h : s.2.val g) :
    (mixPoints g).Nodup ∧ (∀ p ∈ mixPoints g, ∀ t ∈ mixSegments g, ¬ OnSeg t p) ∧
      ∀ p ∈ mixPoints g, ∀ q ∈ mixPolygons g, ¬ InHull (polygonVertices q) p := by
  obtain ⟨b, _, ho, -⟩ := mix_ordered (fun pts => (henv pts).sub) hset hs h
  exact ⟨ho.nodup, fun p hp t ht => (ho.pointSegment p hp t ht).not_onSeg, fun p hp q hq =>
    (ho.pointPolygon p hp q hq).not_inHull fun he =>
      ho.border q hq (List.append_eq_nil_iff.1 he).1⟩

/-- C30: the polygons of a mix are apart from each other, no segment crosses or overlaps a border
edge of a polygon, and the segments come in groups, each one value of `segments` or a value of
`multisegments` with the same coordinates, such that segments of different groups do not cross or
overlap. -/
theorem C30_pieces (env : Env K) (henv : ∀ pts, HullOk (env.convexHull pts) pts)
    (hset : ∀ l, (env.setOrder l).Perm l) (x : Strategy K) (y : Option (Strategy K))
    (a : MixArgs) (s : Made (Mix K)) (hs : mixes env x y a = .ok s) (g : Mix K)
    (h : s.2.val g) :
    (mixPolygons g).Pairwise PolygonsApart ∧
    (∀ t ∈ mixSegments g, ∀ q ∈ mixPolygons g, ∀ i, NoCross t (edge q.border.vertices i)) ∧
    ∃ groups : List (List (Segment K)), groups.flatten = mixSegments g ∧
      (groups.Pairwise fun k l => ∀ s ∈ k, ∀ t ∈ l, NoCross s t) ∧
      ∀ l ∈ groups, SegmentGroup env x y l := by
  obtain ⟨b, groups, ho, hg⟩ := mix_ordered (fun pts => (henv pts).sub) hset hs h
  exact ⟨ho.polygons.imp PolygonsOrdered.apart,
    fun t ht q hq i => (ho.segmentPolygon t ht q hq).noCross i, groups, ho.flat,
    ho.groups.imp fun hkl s hs t ht => (hkl s hs t ht).noCross, hg⟩

/-- C30: if no multisegment with the same coordinates has crossing or overlapping segments (C18), no
mix has any. -/
theorem C30_segments (env : Env K) (henv : ∀ pts, HullOk (env.convexHull pts) pts)
    (hset : ∀ l, (env.setOrder l).Perm l) (x : Strategy K) (y : Option (Strategy K))
    (a : MixArgs) (s : Made (Mix K)) (hs : mixes env x y a = .ok s) (g : Mix K)
    (h : s.2.val g)
    (hseg : ∀ n t l, multisegments env x y n (some n) = .ok t → t.2.val l → l.Pairwise NoCross) :
    (mixSegments g).Pairwise NoCross := by
  obtain ⟨-, -, groups, hf, hp, hg⟩ := C30_pieces env henv hset x y a s hs g h
  rw [← hf, List.pairwise_flatten]
  refine ⟨fun l hl => ?_, hp⟩
  rcases hg l hl with ⟨t, v, -, -, rfl⟩ | ⟨-, t, ht, hv⟩
  · exact List.pairwise_singleton _ _
  · exact hseg _ t l ht hv

/-- Non-vacuity for C29 and C30: the point and the segment of `sample_mixes`. -/
example : ∃ s g, mixes Sample.env (sampledFrom (Sample.coords 3)) none
      { maxPolygonsSize := some 0 } = .ok s ∧ s.2.val g ∧ mixPoints g = [⟨0, 0⟩] ∧
    mixSegments g = [⟨⟨1, 0⟩, ⟨2, 2⟩⟩] ∧ (∀ pts, HullOk (Sample.env.convexHull pts) pts) ∧
    ∀ l, (Sample.env.setOrder l).Perm l :=
  let ⟨s, hs, h⟩ := sample_mixes
  ⟨s, _, hs, h, rfl, rfl, sample_hullOk, fun _ => List.Perm.refl _⟩

end
end HG
