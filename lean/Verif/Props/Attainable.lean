import Verif.Props.NonEmpty

/-!
# C53, C56: which values are attained

C53: what cannot be excluded is not excluded.  Every drawn triangle and rectangle is a contour and a
convex contour, convex, concave and star contours are contours, and every list of pairwise
non-crossing, non-overlapping segments with drawn ends is a multisegment.

C56: sizes that are not attained.  Contours with more than four vertices are made of a prime number
of points; a size with no prime from it up to the upper bound never occurs, unless the lower bound
leaves no other choice.
-/

set_option linter.unusedSectionVars false

namespace HG

open Strategy Spec

section

variable {K : Type} [CommRing K] [LinearOrder K] [IsStrictOrderedRing K]

/-- C53 for triangles. -/
theorem C53_triangles (env : Env K) (x : Strategy K) (y : Option (Strategy K)) (lo : Int)
    (hi : Option Int) (hlo : lo ≤ 3) (a b c : Point K) (ha : Drawn x y a) (hb : Drawn x y b)
    (hc : Drawn x y c) (hl : LeftTurn a b c) :
    (∀ s, convexContours env x y lo hi = .ok s → s.2.val ⟨[a, b, c]⟩) ∧
    ∀ s, contours env x y lo hi = .ok s → s.2.val ⟨[a, b, c]⟩ := by
  have ht : (toTriangularStrategy x y).val [a, b, c] := by
    obtain ⟨s, hs, h⟩ := C06_triangular x y
    simp only [triangularContours, exc_pure_ok, Prod.mk.injEq, true_and] at hs
    subst hs
    obtain ⟨v, hv, e⟩ := (h ⟨[a, b, c]⟩).2 ⟨a, b, c, by
      simp only [List.mem_cons, List.not_mem_nil, or_false]
      rintro p (rfl | rfl | rfl)
      · exact drawn_iff.1 ha
      · exact drawn_iff.1 hb
      · exact drawn_iff.1 hc, hl, rfl⟩
    cases e
    exact hv
  have key : (toConvexStrategy env x y (max lo 3) hi).val [a, b, c] := by
    unfold toConvexStrategy
    dsimp only
    rw [if_pos (show max lo 3 = 3 by omega)]
    cases hi with
    | none => exact .inl ht
    | some m =>
      dsimp only
      split
      · exact ht
      · exact .inl ht
  refine ⟨fun s hs => ?_, fun s hs => ?_⟩
  · simp only [convexContours, exc_bind_ok, exc_pure_ok] at hs
    obtain ⟨w, -, rfl⟩ := hs
    exact ⟨_, key, rfl⟩
  · simp only [contours, exc_bind_ok, exc_pure_ok] at hs
    obtain ⟨w, -, rfl⟩ := hs
    exact ⟨_, .inl key, rfl⟩

/-- C53 for rectangles. -/
theorem C53_rectangles (env : Env K) (x : Strategy K) (y : Option (Strategy K)) (lo : Int)
    (hi : Option Int) (hlo : lo ≤ 4) (hhi : ∀ m, hi = some m → 4 ≤ m) (a b c d : K)
    (ha : x.val a) (hb : x.val b) (hab : a < b) (hc : (y.getD x).val c) (hd : (y.getD x).val d)
    (hcd : c < d) :
    (∀ s, convexContours env x y lo hi = .ok s →
      s.2.val ⟨[⟨a, c⟩, ⟨b, c⟩, ⟨b, d⟩, ⟨a, d⟩]⟩) ∧
    ∀ s, contours env x y lo hi = .ok s → s.2.val ⟨[⟨a, c⟩, ⟨b, c⟩, ⟨b, d⟩, ⟨a, d⟩]⟩ := by
  have ht : (toRectangularStrategy x y).val [⟨a, c⟩, ⟨b, c⟩, ⟨b, d⟩, ⟨a, d⟩] := by
    obtain ⟨s, hs, h⟩ := C05_rectangular x y
    simp only [rectangularContours, exc_pure_ok, Prod.mk.injEq, true_and] at hs
    subst hs
    obtain ⟨v, hv, e⟩ := (h ⟨[⟨a, c⟩, ⟨b, c⟩, ⟨b, d⟩, ⟨a, d⟩]⟩).2
      ⟨a, b, c, d, ha, hb, hab, hc, hd, hcd, rfl⟩
    cases e
    exact hv
  have key : (toConvexStrategy env x y (max lo 3) hi).val [⟨a, c⟩, ⟨b, c⟩, ⟨b, d⟩, ⟨a, d⟩] := by
    unfold toConvexStrategy
    dsimp only
    rw [if_pos (show max lo 3 ≤ 4 by omega)]
    have : ∀ t u : Strategy (List (Point K)),
        (if max lo 3 = 3 then t ||| (toRectangularStrategy x y ||| u)
          else toRectangularStrategy x y ||| u).val [⟨a, c⟩, ⟨b, c⟩, ⟨b, d⟩, ⟨a, d⟩] := by
      intro t u
      split
      · exact .inr (.inl ht)
      · exact .inl ht
    cases hi with
    | none => exact this _ _
    | some m =>
      dsimp only
      rw [if_neg (by have := hhi m rfl; omega)]
      exact this _ _
  refine ⟨fun s hs => ?_, fun s hs => ?_⟩
  · simp only [convexContours, exc_bind_ok, exc_pure_ok] at hs
    obtain ⟨w, -, rfl⟩ := hs
    exact ⟨_, key, rfl⟩
  · simp only [contours, exc_bind_ok, exc_pure_ok] at hs
    obtain ⟨w, -, rfl⟩ := hs
    exact ⟨_, .inl key, rfl⟩

/-- C53: `contours` are at least the convex, concave and star contours. -/
theorem C53_contours (env : Env K) (x : Strategy K) (y : Option (Strategy K)) (lo : Int)
    (hi : Option Int) (s t : Made (Contour K)) (hs : contours env x y lo hi = .ok s)
    (c : Contour K) (hc : t.2.val c) :
    (convexContours env x y lo hi = .ok t → s.2.val c) ∧
    (starContours env x y lo hi = .ok t → s.2.val c) ∧
    (4 ≤ lo → concaveContours env x y lo hi = .ok t → s.2.val c) := by
  simp only [contours, exc_bind_ok, exc_pure_ok] at hs
  obtain ⟨w, -, rfl⟩ := hs
  refine ⟨fun ht => ?_, fun ht => ?_, fun h4 ht => ?_⟩
  · simp only [convexContours, exc_bind_ok, exc_pure_ok] at ht
    obtain ⟨w, -, rfl⟩ := ht
    obtain ⟨v, hv, rfl⟩ := hc
    exact ⟨v, .inl hv, rfl⟩
  · simp only [starContours, exc_bind_ok, exc_pure_ok] at ht
    obtain ⟨w, -, rfl⟩ := ht
    obtain ⟨v, hv, rfl⟩ := hc
    exact ⟨v, .inr (.inl hv), rfl⟩
  · simp only [concaveContours, exc_bind_ok, exc_pure_ok] at ht
    obtain ⟨w, -, rfl⟩ := ht
    obtain ⟨v, hv, rfl⟩ := hc
    rw [show max lo 4 = max lo 3 by omega] at hv
    exact ⟨v, .inr hv.1, rfl⟩

/-- C53 for `multisegments`: with a correct test for crossing segments, every list of drawn
segments no two of which cross or overlap is generated. -/
theorem C53_multisegments (env : Env K) (hcheck : SoundCheck env.segmentsCrossOrOverlap)
    (x : Strategy K) (y : Option (Strategy K)) (lo : Int) (hi : Option Int)
    (l : List (Segment K)) (hl : SizeIn (max lo 2) hi l.length)
    (hd : ∀ g ∈ l, Drawn x y g.start ∧ Drawn x y g.stop ∧ g.start ≠ g.stop)
    (hc : l.Pairwise fun g g' => NoCross g g' ∧ ¬ ProperCross g g')
    (s : Made (List (Segment K))) (hs : multisegments env x y lo hi = .ok s) : s.2.val l := by
  simp only [multisegments, exc_bind_ok, exc_pure_ok] at hs
  obtain ⟨w, -, rfl⟩ := hs
  have hfree : ((lists (toSegmentStrategy x (some (yOr x y))) (max lo 2) hi).filter
      fun ss => !env.segmentsCrossOrOverlap ss).val l := by
    refine ⟨⟨fun g hg => ?_, hl.1, ?_⟩, ?_⟩
    · obtain ⟨h1, h2, h3⟩ := hd g hg
      refine ⟨(g.start, g.stop), ⟨⟨⟨(g.start.x, g.start.y), (drawn_iff (y := y)).1 h1, rfl⟩,
        ⟨(g.stop.x, g.stop.y), (drawn_iff (y := y)).1 h2, rfl⟩⟩, ?_⟩, rfl⟩
      simpa using h3
    · cases hi with
      | none => trivial
      | some m => exact hl.2 m rfl
    · have := hcheck l (fun g hg => (hd g hg).2.2) hc
      simp [this]
  show (toSegmentSequenceStrategy env x y (max lo 2) hi).val l
  unfold toSegmentSequenceStrategy
  cases hi with
  | none => exact .inr hfree
  | some m =>
    have h1 := hl.1
    have h2 := hl.2 m rfl
    dsimp only
    rw [if_neg (by omega)]
    split
    · exact .inr hfree
    · exact .inr hfree

/-! ## Sizes that do not occur -/

/-- A point set in general position is a prime number of points, not above the upper bound if
there is a suitable prime below it. -/
theorem generalPosition_size {x : Strategy K} {y : Option (Strategy K)} {lo m : Int} (h3 : 3 ≤ lo)
    {r : ℕ} (hr : r.Prime) (h5 : 5 ≤ r) (hlr : lo ≤ r) (hrm : (r : Int) ≤ m)
    {pts : List (Point K)} (h : (toGeneralPositionStrategy x y lo (some m)).val pts) :
    pts.length.Prime ∧ (pts.length : Int) ≤ m := by
  obtain ⟨p, s, swap, xs, ys, hp, -, -, hm, -, -, -, -, -, -, -, e⟩ := generalPosition_val h3 h
  have hlen : pts.length = p := by
    rw [e]
    simp [intRange_length]
  obtain ⟨q, hq, hq', hpm⟩ := hm m rfl
  obtain ⟨q2, h2, -, -, -, -, hmin⟩ := toNextPrime_spec lo h3
  rw [hq'] at h2
  have : q = q2 := by
    have := Except.ok.inj h2
    omega
  have hqr : q2 ≤ r := hmin r hr hlr h5
  rw [hlen]
  exact ⟨hp, by omega⟩

/-- Sizes of convex vertex sequences. -/
theorem convex_count {env : Env K} (henv : ∀ pts, HullOk (env.convexHull pts) pts)
    {x : Strategy K} {y : Option (Strategy K)} {lo : Int} {hi : Option Int}
    {vs : List (Point K)} (h : (toConvexStrategy env x y lo hi).val vs) :
    vs.length ≤ 4 ∨
      ∃ pts, (toGeneralPositionStrategy x y lo hi).val pts ∧ vs.length ≤ pts.length := by
  rcases convexStrategy_cases h with h | h | ⟨pts, r, c, hp, hr, hc, rfl⟩
  · obtain ⟨t, -, rfl⟩ := h
    left
    show (toCcwTriplet t.1 t.2.1 t.2.2).length ≤ 4
    unfold toCcwTriplet
    split <;> simp
  · obtain ⟨b, -, rfl⟩ := h
    simp [boxVertices]
  · refine .inr ⟨pts, hp, ?_⟩
    obtain ⟨p, us, rfl, hl, -⟩ := C09_no_clamping env pts r hr c hc
    have hw : ∀ (us : List (K × K)) (p : Point K), (walk p us).length = us.length := by
      intro us
      induction us with
      | nil => intro p; rfl
      | cons u us ih => intro p; simp [walk, ih]
    rw [← hl, ← hw us p]
    have hnd : (env.convexHull (walk p us)).Nodup := (henv _).convex.1
    exact (hnd.subperm (henv _).sub).length_le

/-- Sizes of vertex sequences. -/
theorem vertexSequences_count {env : Env K} (hcoin : Coins env.coinChange)
    {x : Strategy K} {y : Option (Strategy K)} (hgen : GenericCoords x y) {lo : Int} (h3 : 3 ≤ lo)
    {hi : Option Int} {vs : List (Point K)} (h : (toVertexSequences env x y lo hi).val vs) :
    ∃ pts, (toGeneralPositionStrategy x y lo hi).val pts ∧ vs.length ≤ pts.length := by
  rcases h with ⟨⟨pts, hp, rfl⟩, -⟩ | ⟨h, -⟩
  · exact ⟨pts, hp, (toStar_subperm env pts).length_le⟩
  · rw [val_mapE] at h
    obtain ⟨⟨p, size⟩, ⟨pts, hp, hpp, -⟩, h⟩ := h
    obtain rfl : p = pts := hpp
    obtain ⟨hn, -, hl, -⟩ := C35_distinct x y lo hi h3 p hp
    exact ⟨p, hp, (toVertexSequence_length hn (hcoin.sums _ (by omega))
      (generalPosition_noThree hgen h3 hp) (by omega) h).2⟩

/-- C56 for `contours`, `convex_contours`, `concave_contours`, `star_contours`: no contour has a
size `n > 4` when no prime lies between `n` and `max_size`, but one lies between the lower bound and
`max_size`. -/
theorem C56_sizes (env : Env K) (hcoin : Coins env.coinChange)
    (henv : ∀ pts, HullOk (env.convexHull pts) pts)
    (x : Strategy K) (y : Option (Strategy K)) (hgen : GenericCoords x y) (lo m : Int) (n r : ℕ)
    (hn : 4 < n) (hgap : ∀ q : ℕ, q.Prime → n ≤ q → ¬ (q : Int) ≤ m) (hr : r.Prime) (h5 : 5 ≤ r)
    (hlr : lo ≤ r) (hrm : (r : Int) ≤ m) (s : Made (Contour K)) (c : Contour K) (hc : s.2.val c) :
    (contours env x y lo (some m) = .ok s → c.vertices.length ≠ n) ∧
    (convexContours env x y lo (some m) = .ok s → c.vertices.length ≠ n) ∧
    (concaveContours env x y lo (some m) = .ok s → c.vertices.length ≠ n) ∧
    (starContours env x y lo (some m) = .ok s → c.vertices.length ≠ n) := by
  have key : ∀ {b : Int} {pts vs : List (Point K)}, 3 ≤ b → b ≤ r →
      (toGeneralPositionStrategy x y b (some m)).val pts → vs.length ≤ pts.length →
      vs.length ≠ n := by
    intro b pts vs hb hbr hp hle hvs
    obtain ⟨h1, h2⟩ := generalPosition_size hb hr h5 hbr hrm hp
    exact hgap _ h1 (by omega) h2
  have h3 : 3 ≤ max lo 3 := le_max_right _ _
  have hconv : ∀ vs, (toConvexStrategy env x y (max lo 3) (some m)).val vs → vs.length ≠ n := by
    intro vs hv
    rcases convex_count henv hv with h | ⟨pts, hp, h⟩
    · omega
    · exact key h3 (by omega) hp h
  refine ⟨fun hs => ?_, fun hs => ?_, fun hs => ?_, fun hs => ?_⟩
  · simp only [contours, exc_bind_ok, exc_pure_ok] at hs
    obtain ⟨w, -, rfl⟩ := hs
    obtain ⟨vs, hv, rfl⟩ := hc
    rcases hv with hv | hv
    · exact hconv vs hv
    · obtain ⟨pts, hp, h⟩ := vertexSequences_count hcoin hgen h3 hv
      exact key h3 (by omega) hp h
  · simp only [convexContours, exc_bind_ok, exc_pure_ok] at hs
    obtain ⟨w, -, rfl⟩ := hs
    obtain ⟨vs, hv, rfl⟩ := hc
    exact hconv vs hv
  · simp only [concaveContours, exc_bind_ok, exc_pure_ok] at hs
    obtain ⟨w, -, rfl⟩ := hs
    obtain ⟨vs, hv, rfl⟩ := hc
    have h3 : 3 ≤ max lo 4 := by omega
    obtain ⟨pts, hp, h⟩ := vertexSequences_count hcoin hgen h3 hv.1
    exact key h3 (by omega) hp h
  · simp only [starContours, exc_bind_ok, exc_pure_ok] at hs
    obtain ⟨w, -, rfl⟩ := hs
    obtain ⟨vs, ⟨⟨pts, hp, rfl⟩, -⟩, rfl⟩ := hc
    exact key h3 (by omega) hp (toStar_subperm env pts).length_le

end
end HG
