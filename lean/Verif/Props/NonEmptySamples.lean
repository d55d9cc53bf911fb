import Verif.Props.Attainable
import Verif.Props.TotalSamples

/-!
# C53, C54, C56: concrete cases
-/

set_option linter.unusedSectionVars false

namespace HG

open Strategy Spec

namespace Sample

/-- Two coordinate values are enough for the simple strategies. -/
example : Rich (sampledFrom (coords 2)) 2 ∧ (∃ s, points (sampledFrom (coords 2)) none = .ok s) ∧
    (∃ s, segments (sampledFrom (coords 2)) none = .ok s) ∧
    (∃ s, triangularContours (sampledFrom (coords 2)) none = .ok s) ∧
    (∃ s, boxes (sampledFrom (coords 2)) none = .ok s) ∧
    ∃ s, rectangularContours (sampledFrom (coords 2)) none = .ok s :=
  ⟨sample_rich 2 (by norm_num), ⟨_, rfl⟩, ⟨_, rfl⟩, ⟨_, rfl⟩, ⟨_, rfl⟩, ⟨_, rfl⟩⟩

/-- Four multipoints on two coordinate values. -/
example : ∃ s v, multipoints (sampledFrom (coords 2)) none 4 (some 4) = .ok s ∧ s.2.val v := by
  obtain ⟨v, h⟩ := C54_multipoints (sampledFrom (coords 2)) none 4 (some 4)
    [⟨0, 0⟩, ⟨0, 1⟩, ⟨1, 0⟩, ⟨1, 1⟩] (by decide)
    (by simp [Drawn, sampledFrom, coords]) (by decide) _ rfl
  exact ⟨_, v, rfl, h⟩

/-- Quadrilaterals on two coordinate values. -/
example : ∃ s v, contours env (sampledFrom (coords 2)) none 4 (some 4) = .ok s ∧ s.2.val v := by
  obtain ⟨v, h⟩ := (C54_contours env (sampledFrom (coords 2)) none 4 (some 4) le_rfl
    (sample_rich 2 (by norm_num)) (sample_rich 2 (by norm_num))).2 _ rfl
  exact ⟨_, v, rfl, h⟩

/-- Six segments on seven coordinate values. -/
example : ∃ s v, multisegments env (sampledFrom (coords 7)) none 6 none = .ok s ∧ s.2.val v := by
  obtain ⟨v, h⟩ := C54_multisegments env (sampledFrom (coords 7)) none 6 none
    ((sample_rich 7 (by norm_num)).mono (by norm_num)) (sample_rich 7 (by norm_num)) _ rfl
  exact ⟨_, v, rfl, h⟩

/-- Two contours on seven generic coordinate values. -/
example : ∃ s v, multicontours env' (sampledFrom genXs) (some (sampledFrom genYs)) = .ok s ∧
    s.2.val v := by
  obtain ⟨v, h⟩ := C54_multicontours env' coins_ok (sampledFrom genXs) (some (sampledFrom genYs))
    gen_generic gen_steps 2 none 3 none le_rfl 7 (by norm_num) (by norm_num) gen_rich.1 gen_rich.2
    _ rfl
  exact ⟨_, v, rfl, h⟩

/-- A polygon with coordinates `0, ..., 4`. -/
example : ∃ s v, polygons env' (sampledFrom (coords 5)) none 3 (some 5) 0 none = .ok s ∧
    s.2.val v := by
  obtain ⟨v, h⟩ := C54_polygons env' coins_ok sample_hullOk (by simp [env', Env.withFuel])
    (sampledFrom (coords 5)) none 3 (some 5) 0 none 3 none le_rfl (by simp) le_rfl
    (sample_rich 5 (by norm_num)) (sample_rich 5 (by norm_num)) _ rfl
  exact ⟨_, v, rfl, h⟩

/-- Two polygons on eleven generic coordinate values. -/
example : ∃ s v, multipolygons env'' (sampledFrom genXs11) (some (sampledFrom genYs11)) = .ok s ∧
    s.2.val v := by
  obtain ⟨s, hs⟩ : ∃ s, multipolygons env'' (sampledFrom genXs11) (some (sampledFrom genYs11))
    = .ok s := ⟨_, rfl⟩
  obtain ⟨v, h⟩ := C54_multipolygons env'' coins_ok (fun l => List.Perm.refl l) sample_sound
    sample_hullOk _ _ gen_generic11 gen_steps11 2 none 3 none none 3 none le_rfl 11
    (by norm_num) (by norm_num) gen_rich11.1 gen_rich11.2 s hs
  exact ⟨s, v, hs, h⟩

/-- A mix on eleven generic coordinate values. -/
example : ∃ s v, mixes env'' (sampledFrom genXs11) (some (sampledFrom genYs11)) = .ok s ∧
    s.2.val v := by
  obtain ⟨s, hs⟩ : ∃ s, mixes env'' (sampledFrom genXs11) (some (sampledFrom genYs11))
    = .ok s := ⟨_, rfl⟩
  obtain ⟨v, h⟩ := C54_mixes env'' coins_ok (fun l => List.Perm.refl l) sample_sound
    sample_hullOk (by simp [env'', Env.withFuel]) _ _ gen_generic11 gen_steps11 {} (by norm_num)
    (by simp) (by norm_num) (gen_rich11.1.mono (by norm_num)) (by
      intro n
      show Rich (sampledFrom genXs11) n ↔ Rich (sampledFrom genYs11) n
      rw [rich_iff (m := 11) (by decide) (by norm_num) rfl,
        rich_iff (m := 11) (by decide +kernel) (by norm_num) rfl]) s hs
  exact ⟨s, v, hs, h⟩

/-- C53: two crossing-free segments sharing an end. -/
example : ∃ s, multisegments env (sampledFrom [(0 : ℤ), 1, 2]) none 2 (some 2) = .ok s ∧
    s.2.val [⟨⟨0, 0⟩, ⟨2, 1⟩⟩, ⟨⟨2, 1⟩, ⟨1, 2⟩⟩] :=
  ⟨_, rfl, C53_multisegments env sample_sound _ _ 2 (some 2) _ (by simp [SizeIn])
    (by simp [Drawn, sampledFrom]) (by
      have h := sample_cross [⟨⟨0, 0⟩, ⟨2, 1⟩⟩, ⟨⟨2, 1⟩, ⟨1, 2⟩⟩] (by simp) (by decide)
      simp only [List.pairwise_cons, List.mem_cons, List.not_mem_nil, or_false, forall_eq,
        false_implies, implies_true, List.Pairwise.nil, and_true] at h ⊢
      refine ⟨h, ?_⟩
      unfold ProperCross area2
      decide) _ rfl⟩

/-- C53: a triangle and a rectangle. -/
example : ∃ s, contours env (sampledFrom [(0 : ℤ), 1, 2]) none 3 (some 4) = .ok s ∧
    s.2.val ⟨[⟨0, 0⟩, ⟨2, 1⟩, ⟨1, 2⟩]⟩ ∧ s.2.val ⟨[⟨0, 0⟩, ⟨2, 0⟩, ⟨2, 1⟩, ⟨0, 1⟩]⟩ :=
  ⟨_, rfl, (C53_triangles env _ _ 3 (some 4) le_rfl ⟨0, 0⟩ ⟨2, 1⟩ ⟨1, 2⟩
      (by simp [Drawn, sampledFrom]) (by simp [Drawn, sampledFrom])
      (by simp [Drawn, sampledFrom]) (by unfold LeftTurn area2; decide)).2 _ rfl,
    (C53_rectangles env _ _ 3 (some 4) (by norm_num) (by simp) 0 2 0 1
      (by simp [sampledFrom]) (by simp [sampledFrom]) (by norm_num)
      (by simp [sampledFrom]) (by simp [sampledFrom]) (by norm_num)).2 _ rfl⟩

end Sample

open Sample

/-- C56: with `max_size=6` hexagons are generated if `min_size=6`, but not if `min_size=4`: a looser
lower bound loses values, and not all sizes between the bounds are attained. -/
theorem C56_lower_bound :
    (∃ s c, concaveContours env (sampledFrom genXs) (some (sampledFrom genYs)) 6 (some 6) = .ok s ∧
      s.2.val c ∧ c.vertices.length = 6) ∧
    (∃ s, concaveContours env (sampledFrom genXs) (some (sampledFrom genYs)) 4 (some 6) = .ok s) ∧
    ∀ s c, concaveContours env (sampledFrom genXs) (some (sampledFrom genYs)) 4 (some 6) = .ok s →
      s.2.val c → c.vertices.length ≠ 6 := by
  refine ⟨⟨_, ⟨[⟨0, 1⟩, ⟨6, 10⟩, ⟨4, 100⟩, ⟨5, 10000⟩, ⟨2, 10000⟩, ⟨3, 100⟩]⟩, rfl,
    ⟨_, ⟨.inr ⟨?_, by decide⟩, by decide +kernel⟩, rfl⟩, rfl⟩, ⟨_, rfl⟩, fun s c hs hc => ?_⟩
  · rw [val_mapE]
    exact ⟨(genPoints, 6), ⟨genPoints, genPoints_drawn _ (some 6) 7 (by decide +kernel)
      (by norm_num) (by simp [leOpt, maxOpt]), rfl, by decide, by decide⟩, by decide +kernel⟩
  · refine (C56_sizes env coins_ok sample_hullOk _ _ gen_generic 4 6 6 5 (by norm_num) ?_
      (by norm_num) le_rfl (by norm_num) (by norm_num) s c hc).2.2.1 hs
    intro q hq h1 h2
    have : q = 6 := by omega
    subst this
    revert hq
    norm_num

end HG
