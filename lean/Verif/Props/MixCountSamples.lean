import Verif.Props.MixCounts
import Verif.Props.NonEmptySamples

/-!
# Sample cases of C61
-/

set_option linter.unusedSectionVars false

namespace HG

open Strategy Spec Sample

/-- A mix of a point, two segments and a polygon on eleven generic coordinate values. -/
example : ∃ s v, mixes env'' (sampledFrom genXs11) (some (sampledFrom genYs11)) = .ok s ∧
    s.2.val v ∧ (mixPoints v).length = 1 ∧ (mixSegments v).length = 2 ∧
    (mixPolygons v).length = 1 := by
  obtain ⟨s, hs⟩ : ∃ s, mixes env'' (sampledFrom genXs11) (some (sampledFrom genYs11))
    = .ok s := ⟨_, rfl⟩
  obtain ⟨v, h⟩ := C61_mix_counts env'' coins_ok (fun l => List.Perm.refl l) sample_sound
    sample_hullOk (by simp [env'', Env.withFuel]) _ _ gen_generic11 gen_steps11 {} (by norm_num)
    (by simp) (by norm_num) 1 2 1 (by simp [SizeIn]) (by simp [SizeIn]) (by simp [SizeIn])
    (by norm_num) (gen_rich11.1.mono (by norm_num)) (gen_rich11.2.mono (by norm_num)) s hs
  exact ⟨s, v, hs, h⟩

/-- A mix without points: three segments and a polygon, with upper bounds. -/
example : ∃ s v, mixes env'' (sampledFrom genXs11) (some (sampledFrom genYs11))
      { maxSegmentsSize := some 3, maxPolygonsSize := some 1, maxPolygonBorderSize := some 6 } = .ok s ∧
    s.2.val v ∧ (mixPoints v).length = 0 ∧ (mixSegments v).length = 3 ∧
    (mixPolygons v).length = 1 := by
  obtain ⟨s, hs⟩ : ∃ s, mixes env'' (sampledFrom genXs11) (some (sampledFrom genYs11))
      { maxSegmentsSize := some 3, maxPolygonsSize := some 1, maxPolygonBorderSize := some 6 }
    = .ok s := ⟨_, rfl⟩
  obtain ⟨v, h⟩ := C61_mix_counts env'' coins_ok (fun l => List.Perm.refl l) sample_sound
    sample_hullOk (by simp [env'', Env.withFuel]) _ _ gen_generic11 gen_steps11 _ (by norm_num)
    (by simp) (by norm_num) 0 3 1 (by simp [SizeIn]) (by simp [SizeIn]) (by simp [SizeIn])
    (by norm_num) (gen_rich11.1.mono (by norm_num)) (gen_rich11.2.mono (by norm_num)) s hs
  exact ⟨s, v, hs, h⟩

/-- Four segments, although from two up to five are allowed. -/
example : ∃ s v, multisegments env' (sampledFrom (coords 5)) none 2 (some 5) = .ok s ∧ s.2.val v ∧
    v.length = 4 := by
  obtain ⟨v, h⟩ := C61_multisegment_counts env' (sampledFrom (coords 5)) none 2 (some 5) 4
    (by simp [SizeIn]) (.inr (by norm_num)) ((sample_rich 5 (by norm_num)).mono (by norm_num))
    (sample_rich 5 (by norm_num)) _ rfl
  exact ⟨_, v, rfl, h⟩

/-- Two contours of up to three. -/
example : ∃ s v, multicontours env' (sampledFrom genXs) (some (sampledFrom genYs)) 2 (some 3) 3
    (some 5) = .ok s ∧ s.2.val v ∧ v.length = 2 := by
  obtain ⟨v, h⟩ := C61_multicontour_counts env' coins_ok (sampledFrom genXs)
    (some (sampledFrom genYs)) gen_generic gen_steps 2 (some 3) 3 (some 5) le_rfl 2
    (by simp [SizeIn]) (by
      rintro m c ⟨⟩ ⟨⟩ k ⟨⟩
      exact ⟨7, by norm_num, by norm_num, by norm_num, by norm_num⟩) 7 (by norm_num) (by norm_num)
    gen_rich.1 gen_rich.2 _ rfl
  exact ⟨_, v, rfl, h⟩

/-- Two polygons of up to three. -/
example : ∃ s v, multipolygons env'' (sampledFrom genXs11) (some (sampledFrom genYs11)) 2 (some 3) 3
    (some 5) = .ok s ∧ s.2.val v ∧ v.length = 2 := by
  obtain ⟨s, hs⟩ : ∃ s, multipolygons env'' (sampledFrom genXs11) (some (sampledFrom genYs11)) 2
    (some 3) 3 (some 5) = .ok s := ⟨_, rfl⟩
  obtain ⟨v, h⟩ := C61_multipolygon_counts env'' coins_ok (fun l => List.Perm.refl l) sample_sound
    sample_hullOk _ _ gen_generic11 gen_steps11 2 (some 3) 3 (some 5) none 3 none le_rfl (by simp) 2
    (by simp [SizeIn]) (by
      rintro m c ⟨⟩ ⟨⟩ k ⟨⟩
      exact ⟨7, by norm_num, by norm_num, by norm_num, by norm_num⟩) 11 (by norm_num) (by norm_num)
    gen_rich11.1 gen_rich11.2 s hs
  exact ⟨s, v, hs, h⟩

end HG
