import Verif.Lemmas.Star
import Verif.Props.GeneralPosition
import Verif.Props.Sizes
import Mathlib.Data.Sign.Basic

/-!
# Strict contours and star contours (C12, C13, C14, C16, C46)
-/

set_option linter.unusedSectionVars false

namespace HG

open Strategy Spec

section
variable {K : Type} [CommRing K] [LinearOrder K] [IsStrictOrderedRing K]

/-! ## C13 -/

/-- C13: compression keeps a subsequence; of pairwise distinct vertices it leaves at most two or a
strict contour; a strict contour is left as it is. -/
theorem C13_compress (vs : List (Point K)) :
    (compressContour vs).Sublist vs ∧
    (vs.Nodup → (compressContour vs).length ≤ 2 ∨ StrictContour (compressContour vs)) ∧
    (StrictContour vs → compressContour vs = vs) :=
  ⟨compressContour_sublist vs, compressContour_strict vs, compressContour_id vs⟩

/-- A square with midpoints of two sides is compressed to the square. -/
example : compressContour ([⟨0, 0⟩, ⟨1, 0⟩, ⟨2, 0⟩, ⟨2, 1⟩, ⟨2, 2⟩, ⟨0, 2⟩] : List (Point ℤ)) =
    [⟨0, 0⟩, ⟨2, 0⟩, ⟨2, 2⟩, ⟨0, 2⟩] := by decide +kernel

example : ([⟨0, 0⟩, ⟨1, 0⟩, ⟨2, 0⟩, ⟨2, 1⟩, ⟨2, 2⟩, ⟨0, 2⟩] : List (Point ℤ)).Nodup := by
  decide +kernel

/-! ## Star contours -/

/-- `c` lies in the closed convex angle at `v` with rays through `a` and `b`. -/
def Spec.InAngle (a v b c : Point K) : Prop :=
  (0 < area2 a v b ∧ 0 ≤ area2 a v c ∧ 0 ≤ area2 v b c) ∨
    (area2 a v b < 0 ∧ area2 a v c ≤ 0 ∧ area2 v b c ≤ 0)

theorem angleContains_spec {a v b c : Point K} (h : angleContainsPoint v a b c = true)
    (hs : ¬ Collinear a v b) :
    InAngle a v b c ∧ (¬ Collinear a v c ∨ ¬ Collinear v b c) := by
  have e1 : cross v a b = - area2 a v b := by unfold cross area2; ring
  have e2 : cross v a c = - area2 a v c := by unfold cross area2; ring
  have e3 : cross b v c = - area2 v b c := by unfold cross area2; ring
  have col1 := orient_col_iff v a c
  have col2 := orient_col_iff b v c
  have col0 := orient_col_iff v a b
  rw [e1, neg_eq_zero] at col0
  rw [e2, neg_eq_zero] at col1
  rw [e3, neg_eq_zero] at col2
  have same : ∀ {p q r p' q' r' : Point K}, orient p q r = orient p' q' r' →
      (0 < cross p q r ↔ 0 < cross p' q' r') ∧ (cross p q r < 0 ↔ cross p' q' r' < 0) := by
    intro p q r p' q' r' h
    rw [← orient_ccw_iff, ← orient_ccw_iff, ← orient_cw_iff, ← orient_cw_iff, h]
    exact ⟨Iff.rfl, Iff.rfl⟩
  have hcol : orient v a b ≠ .collinear := fun h => hs (col0.1 h)
  unfold angleContainsPoint at h
  dsimp only at h
  unfold InAngle
  have tri : 0 < area2 a v b ∨ area2 a v b < 0 := by
    rcases lt_trichotomy (area2 a v b) 0 with h | h | h
    · exact .inr h
    · exact absurd h hs
    · exact .inl h
  split at h
  · rename_i h1
    have h2 := same (of_decide_eq_true h)
    rw [e1, e3] at h2
    simp only [Left.neg_pos_iff, Left.neg_neg_iff] at h2
    have h1' := col1.1 h1
    refine ⟨?_, .inr ?_⟩
    · rcases tri with t | t
      · exact .inl ⟨t, h1'.ge, (h2.2.2 t).le⟩
      · exact .inr ⟨t, h1'.le, (h2.1.2 t).le⟩
    · intro h3
      apply hcol
      rw [← of_decide_eq_true h, col2]
      exact h3
  · rename_i h1
    have n1 : ¬ Collinear a v c := fun h' => h1 (col1.2 h')
    split at h
    · rename_i h2
      have h3 := same (of_decide_eq_true h)
      rw [e1, e2] at h3
      simp only [Left.neg_pos_iff, Left.neg_neg_iff] at h3
      have h2' := col2.1 h2
      refine ⟨?_, .inl n1⟩
      rcases tri with t | t
      · exact .inl ⟨t, (h3.2.2 t).le, h2'.ge⟩
      · exact .inr ⟨t, (h3.1.2 t).le, h2'.le⟩
    · simp only [Bool.and_eq_true, decide_eq_true_eq] at h
      have h3 := same h.2
      have h4 := same (h.1.trans h.2)
      rw [e1, e3] at h3
      rw [e1, e2] at h4
      simp only [Left.neg_pos_iff, Left.neg_neg_iff] at h3 h4
      refine ⟨?_, .inl n1⟩
      rcases tri with t | t
      · exact .inl ⟨t, (h4.2.2 t).le, (h3.2.2 t).le⟩
      · exact .inr ⟨t, (h4.1.2 t).le, (h3.1.2 t).le⟩

theorem pyAt_cyc (l : List (Point K)) (i : Nat) (h3 : 2 ≤ l.length) (hi : i < l.length) :
    pyAt l (((i + 1) % l.length : Nat) : Int) = cyc l (i + 1) ∧
    pyAt l ((((i + 1) % l.length : Nat) : Int) - 1) = cyc l i ∧
    pyAt l ((((i + 1) % l.length + 1) % l.length : Nat) : Int) = cyc l (i + 2) := by
  refine ⟨by rw [pyAt_nonneg, cyc], ?_, ?_⟩
  · rw [pyAt_prev1 _ _ h3, cyc, Nat.mod_eq_of_lt hi]
    congr 1
    unfold prev1
    split
    · rename_i h0
      by_cases h : i + 1 < l.length
      · rw [Nat.mod_eq_of_lt h] at h0; omega
      · omega
    · rename_i h0
      by_cases h : i + 1 < l.length
      · rw [Nat.mod_eq_of_lt h]; omega
      · exfalso
        apply h0
        rw [show i + 1 = l.length by omega, Nat.mod_self]
  · rw [pyAt_nonneg, cyc, Nat.mod_add_mod]

/-- A star contour as the strategy makes it. -/
theorem star_val {env : Env K} {x : Strategy K} {y : Option (Strategy K)} {lo : Int}
    {hi : Option Int} (hlo : 3 ≤ lo) {vs : List (Point K)}
    (h : (toStarStrategy env x y lo hi).val vs) :
    vs.Nodup ∧ 3 ≤ vs.length ∧ (∀ q ∈ vs, x.val q.x ∧ (y.getD x).val q.y) ∧ StrictContour vs ∧
    (∃ c, AngleSorted env c vs) ∧
    ∀ i < vs.length, InAngle (cyc vs i) (cyc vs (i + 1)) (cyc vs (i + 2)) (env.regionCentroid vs) ∧
      (¬ Collinear (cyc vs i) (cyc vs (i + 1)) (env.regionCentroid vs) ∨
        ¬ Collinear (cyc vs (i + 1)) (cyc vs (i + 2)) (env.regionCentroid vs)) := by
  have hsz := (star_size h).1
  obtain ⟨⟨pts, hp, rfl⟩, -⟩ := h
  obtain ⟨hn, -, -, hd⟩ := C35_distinct x y lo hi hlo pts hp
  have h3 : 3 ≤ (toStarContourVertices env pts).length := by omega
  obtain ⟨hsub, hst, hang, hc⟩ := toStar_spec env pts hn h3
  refine ⟨subperm_nodup hsub hn, h3, fun q hq => hd q (hsub.subset hq), hst, hang, fun i hi => ?_⟩
  have hj := hc ((i + 1) % (toStarContourVertices env pts).length) (Nat.mod_lt _ (by omega))
  obtain ⟨e1, e2, e3⟩ := pyAt_cyc (toStarContourVertices env pts) i (by omega) hi
  rw [e1, e2, e3] at hj
  exact angleContains_spec hj (hst i hi)

/-- C14 for star contours: no three consecutive vertices of a star contour are collinear. -/
theorem C14_star (env : Env K) (x : Strategy K) (y : Option (Strategy K)) (lo : Int)
    (hi : Option Int) (s : Made (Contour K)) (hs : starContours env x y lo hi = .ok s)
    (c : Contour K) (h : s.2.val c) : StrictContour c.vertices := by
  simp only [starContours, exc_bind_ok, exc_pure_ok, validate_ok] at hs
  obtain ⟨w, -, rfl⟩ := hs
  obtain ⟨vs, hv, rfl⟩ := h
  exact (star_val (le_max_right _ _) hv).2.2.2.1

/-- C16: at every vertex of a star contour the centroid of its region lies in the convex angle
between the two edges (and is not the vertex itself). -/
theorem C16_star (env : Env K) (x : Strategy K) (y : Option (Strategy K)) (lo : Int)
    (hi : Option Int) (s : Made (Contour K)) (hs : starContours env x y lo hi = .ok s)
    (c : Contour K) (h : s.2.val c) :
    (∀ i < c.vertices.length, InAngle (cyc c.vertices i) (cyc c.vertices (i + 1))
      (cyc c.vertices (i + 2)) (env.regionCentroid c.vertices) ∧
      env.regionCentroid c.vertices ≠ cyc c.vertices (i + 1)) ∧
    ∃ o : Point K, c.vertices.IsChain fun p q =>
      env.atan2 (p.y - o.y) (p.x - o.x) < env.atan2 (q.y - o.y) (q.x - o.x) := by
  simp only [starContours, exc_bind_ok, exc_pure_ok, validate_ok] at hs
  obtain ⟨w, -, rfl⟩ := hs
  obtain ⟨vs, hv, rfl⟩ := h
  obtain ⟨-, -, -, -, hang, hc⟩ := star_val (le_max_right _ _) hv
  refine ⟨fun i hi => ⟨(hc i hi).1, fun he => ?_⟩, hang⟩
  rcases (hc i hi).2 with h | h
  · apply h
    simp only at he
    rw [he]; unfold Collinear area2; ring
  · apply h
    simp only at he
    rw [he]; unfold Collinear area2; ring

/-- C46: a star contour whose centroid is on no line through two consecutive vertices turns in the
same direction at every vertex, i.e. has no reflex vertex. -/
theorem C46_star_one_direction (env : Env K) (x : Strategy K) (y : Option (Strategy K)) (lo : Int)
    (hi : Option Int) (s : Made (Contour K)) (hs : starContours env x y lo hi = .ok s)
    (c : Contour K) (h : s.2.val c)
    (hc : ∀ i < c.vertices.length, ¬ Collinear (cyc c.vertices i) (cyc c.vertices (i + 1))
      (env.regionCentroid c.vertices)) :
    (∀ i < c.vertices.length,
      0 < area2 (cyc c.vertices i) (cyc c.vertices (i + 1)) (cyc c.vertices (i + 2))) ∨
    (∀ i < c.vertices.length,
      area2 (cyc c.vertices i) (cyc c.vertices (i + 1)) (cyc c.vertices (i + 2)) < 0) := by
  have hin := (C16_star env x y lo hi s hs c h).1
  set vs := c.vertices with hvs
  set g := env.regionCentroid vs
  have key : ∀ i, i + 1 < vs.length → (0 < area2 (cyc vs i) (cyc vs (i + 1)) (cyc vs (i + 2)) ↔
      0 < area2 (cyc vs (i + 1)) (cyc vs (i + 2)) (cyc vs (i + 3))) := by
    intro i hi
    have h1 := (hin i (by omega)).1
    have h2 := (hin (i + 1) hi).1
    have h3 := hc (i + 1) hi
    unfold InAngle at h1 h2
    unfold Collinear at h3
    rcases h1 with h1 | h1 <;> rcases h2 with h2 | h2
    · exact ⟨fun _ => h2.1, fun _ => h1.1⟩
    · exact absurd (le_antisymm h2.2.1 h1.2.2) h3
    · exact absurd (le_antisymm h1.2.2 h2.2.1) h3
    · exact ⟨fun h => absurd h (not_lt.2 h1.1.le), fun h => absurd h (not_lt.2 h2.1.le)⟩
  have all : ∀ i < vs.length, (0 < area2 (cyc vs 0) (cyc vs 1) (cyc vs 2) ↔
      0 < area2 (cyc vs i) (cyc vs (i + 1)) (cyc vs (i + 2))) := by
    intro i
    induction i with
    | zero => intro _; exact Iff.rfl
    | succ n ih => intro hn; exact (ih (by omega)).trans (key n hn)
  by_cases h0 : 0 < area2 (cyc vs 0) (cyc vs 1) (cyc vs 2)
  · exact .inl fun i hi => (all i hi).1 h0
  · right
    intro i hi
    rcases (hin i hi).1 with h | h
    · exact absurd ((all i hi).2 h.1) h0
    · exact h.1

/-- The sample draw: four of seven points in general position form a star contour. -/
theorem sample_star : (toStarStrategy Sample.env (sampledFrom (Sample.coords 7)) none 3 none).val
    [⟨0, 0⟩, ⟨6, 1⟩, ⟨5, 4⟩, ⟨2, 4⟩] := by
  refine ⟨⟨Sample.parab 7, ?_, ?_⟩, ?_⟩
  · exact Sample.generalPosition 7 3 none 5 (by decide +kernel) (by norm_num) trivial
      (by decide +kernel) (by norm_num) (by decide +kernel) (by decide +kernel)
  · decide +kernel
  · decide +kernel

example : ∃ s, starContours Sample.env (sampledFrom (Sample.coords 7)) none = .ok s ∧
    s.2.val ⟨[⟨0, 0⟩, ⟨6, 1⟩, ⟨5, 4⟩, ⟨2, 4⟩]⟩ ∧
    ∀ i < 4, ¬ Collinear (cyc [⟨0, 0⟩, ⟨6, 1⟩, ⟨5, 4⟩, ⟨2, 4⟩] i)
      (cyc [⟨0, 0⟩, ⟨6, 1⟩, ⟨5, 4⟩, ⟨2, 4⟩] (i + 1))
      (Sample.env.regionCentroid [⟨0, 0⟩, ⟨6, 1⟩, ⟨5, 4⟩, ⟨2, 4⟩]) :=
  ⟨_, rfl, ⟨_, sample_star, rfl⟩, by unfold Collinear; decide +kernel⟩

/-! ## C12 -/

theorem mem_contourOrientations {vs : List (Point K)} {o : Orientation}
    (h : o ∈ contourOrientations vs) : ∃ i < vs.length,
      o = signOrientation (- area2 (cyc vs i) (cyc vs (i + 1)) (cyc vs (i + 2))) := by
  obtain ⟨j, hj, rfl⟩ := List.mem_map.1 h
  have hj' := List.mem_range.1 hj
  refine ⟨(j + vs.length - 1) % vs.length, Nat.mod_lt _ (by omega), ?_⟩
  have e1 : cyc vs ((j + vs.length - 1) % vs.length) =
      vs.getD ((j + vs.length - 1) % vs.length) default := by
    unfold cyc; rw [Nat.mod_mod]; rfl
  have e2 : cyc vs ((j + vs.length - 1) % vs.length + 1) = vs.getD j default := by
    unfold cyc
    rw [Nat.mod_add_mod, show j + vs.length - 1 + 1 = j + vs.length by omega, Nat.add_mod_right,
      Nat.mod_eq_of_lt hj']
    rfl
  have e3 : cyc vs ((j + vs.length - 1) % vs.length + 2) =
      vs.getD ((j + 1) % vs.length) default := by
    unfold cyc
    rw [Nat.mod_add_mod, show j + vs.length - 1 + 2 = j + 1 + vs.length by omega,
      Nat.add_mod_right]
    rfl
  rw [e1, e2, e3]
  rw [orient_def]; unfold cross area2
  congr 1
  ring

theorem nonConvex_spec {vs : List (Point K)} (h : areVerticesNonConvexE vs = .ok true) :
    ∃ i < vs.length, ∃ j < vs.length,
      SignType.sign (area2 (cyc vs i) (cyc vs (i + 1)) (cyc vs (i + 2))) ≠
      SignType.sign (area2 (cyc vs j) (cyc vs (j + 1)) (cyc vs (j + 2))) := by
  unfold areVerticesNonConvexE areVerticesNonConvex at h
  cases ho : contourOrientations vs with
  | nil => simp [ho] at h
  | cons o os =>
    rw [ho] at h
    have h' : os.any (fun o' => decide (o' ≠ o)) = true := by
      simpa [pure, Except.pure] using h
    obtain ⟨o', ho', hne⟩ := List.any_eq_true.1 h'
    have hne := of_decide_eq_true hne
    obtain ⟨i, hi, ei⟩ := mem_contourOrientations (vs := vs) (o := o) (by rw [ho]; simp)
    obtain ⟨j, hj, ej⟩ := mem_contourOrientations (vs := vs) (o := o') (by rw [ho]; simp [ho'])
    refine ⟨i, hi, j, hj, fun he => hne ?_⟩
    rw [ei, ej]
    have sg : ∀ d : K, signOrientation (-d) = match SignType.sign d with
        | .pos => .clockwise | .zero => .collinear | .neg => .counterclockwise := by
      intro d
      unfold signOrientation
      rcases lt_trichotomy d 0 with h | h | h
      · rw [sign_neg h, if_neg (by simpa using h.le), if_neg (by simpa using h.ne)]
      · rw [h, sign_zero, if_neg (by simp), if_pos (by simp)]
      · rw [sign_pos h, if_pos (by simpa using h)]
    rw [sg, sg, he]

/-- C12: a concave contour turns in different directions at some two vertices. -/
theorem C12_concave (env : Env K) (x : Strategy K) (y : Option (Strategy K)) (lo : Int)
    (hi : Option Int) (s : Made (Contour K)) (hs : concaveContours env x y lo hi = .ok s)
    (c : Contour K) (h : s.2.val c) :
    ∃ i < c.vertices.length, ∃ j < c.vertices.length,
      SignType.sign (area2 (cyc c.vertices i) (cyc c.vertices (i + 1)) (cyc c.vertices (i + 2))) ≠
      SignType.sign
        (area2 (cyc c.vertices j) (cyc c.vertices (j + 1)) (cyc c.vertices (j + 2))) := by
  simp only [concaveContours, exc_bind_ok, exc_pure_ok, validate_ok] at hs
  obtain ⟨w, -, rfl⟩ := hs
  obtain ⟨vs, hv, rfl⟩ := h
  exact nonConvex_spec hv.2

/-- The sample draw: five of seven points in general position form a concave contour. -/
theorem sample_concave :
    (toConcaveStrategy Sample.env (sampledFrom (Sample.coords 7)) none 4 none).val
      [⟨0, 0⟩, ⟨6, 1⟩, ⟨4, 2⟩, ⟨5, 4⟩, ⟨2, 4⟩] := by
  refine ⟨.inr ⟨?_, by decide +kernel⟩, by decide +kernel⟩
  rw [val_mapE]
  refine ⟨(Sample.parab 7, 5), ⟨Sample.parab 7, ?_, rfl, by decide, by decide⟩, by decide +kernel⟩
  exact Sample.generalPosition 7 4 none 5 (by decide +kernel) (by norm_num) trivial
      (by decide +kernel) (by norm_num) (by decide +kernel) (by decide +kernel)

example : ∃ s, concaveContours Sample.env (sampledFrom (Sample.coords 7)) none = .ok s ∧
    s.2.val ⟨[⟨0, 0⟩, ⟨6, 1⟩, ⟨4, 2⟩, ⟨5, 4⟩, ⟨2, 4⟩]⟩ := ⟨_, rfl, ⟨_, sample_concave, rfl⟩⟩

end
end HG
