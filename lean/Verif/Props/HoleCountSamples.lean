import Verif.Props.MixHoles
import Verif.Props.TotalSamples

/-!
# Samples for C62
-/

namespace HG

open Strategy Spec Sample

/-- Polygons with one hole, which have eleven points, although the default bounds start with five. -/
example : ∃ s v, polygons env'' (sampledFrom genXs11) (some (sampledFrom genYs11)) 3 (some 7) 0
    (some 2) = .ok s ∧ s.2.val v ∧ v.holes.length = 1 := by
  obtain ⟨s, hs⟩ : ∃ s, polygons env'' (sampledFrom genXs11) (some (sampledFrom genYs11)) 3 (some 7) 0
    (some 2) = .ok s := ⟨_, rfl⟩
  obtain ⟨v, h⟩ := C62_polygons env'' coins_ok (fun l => List.Perm.refl l) sample_sound
    sample_hullOk _ _ gen_generic11 3 (some 7) 0 (some 2) 3 none le_rfl le_rfl 1 (by norm_num)
    (by simp) 11 (by norm_num) (by norm_num) (by norm_num) (by simp) (by simp)
    (by simp [env'', Env.withFuel]) gen_rich11.1 gen_rich11.2 s hs
  exact ⟨s, v, hs, h⟩

/-- The abscissas `0, ..., 21`. -/
def genXs22 : List ℤ := (List.range 22).map fun i => (i : ℤ)

theorem gen_generic22 : GenericCoords (sampledFrom genXs22) (some (sampledFrom genYs11)) :=
  ratioTest_generic (m := 21) (by decide +kernel)

/-- Two polygons, one of them with a hole. -/
example : ∃ s v, multipolygons env'' (sampledFrom genXs22) (some (sampledFrom genYs11)) = .ok s ∧
    s.2.val v ∧ v.map (fun g => g.holes.length) = [1, 0] := by
  obtain ⟨s, hs⟩ : ∃ s, multipolygons env'' (sampledFrom genXs22) (some (sampledFrom genYs11))
    = .ok s := ⟨_, rfl⟩
  obtain ⟨v, h⟩ := C62_multipolygons env'' coins_ok (fun l => List.Perm.refl l) sample_sound
    sample_hullOk _ _ gen_generic22 2 none 3 none 0 none 3 none le_rfl le_rfl le_rfl [1, 0]
    (by simp [SizeIn]) (by simp [SizeIn]) 11 (by norm_num) (by norm_num) (by simp) (by simp) (by simp)
    (by simp [env'', Env.withFuel])
    (rich_sampledFrom (l := genXs22) (by decide) (by decide)) gen_rich11.2 s hs
  exact ⟨s, v, hs, h⟩

/-- One hole in each of two polygons can be required. -/
example : ∃ s v, multipolygons env'' (sampledFrom genXs22) (some (sampledFrom genYs11)) 2 none 3 none 1
    (some 1) = .ok s ∧ s.2.val v := by
  obtain ⟨s, hs⟩ : ∃ s, multipolygons env'' (sampledFrom genXs22) (some (sampledFrom genYs11)) 2 none 3
    none 1 (some 1) = .ok s := ⟨_, rfl⟩
  obtain ⟨v, h⟩ := C62_multipolygons env'' coins_ok (fun l => List.Perm.refl l) sample_sound
    sample_hullOk _ _ gen_generic22 2 none 3 none 1 (some 1) 3 none le_rfl le_rfl (by norm_num) [1, 1]
    (by simp [SizeIn]) (by simp [SizeIn]) 11 (by norm_num) (by norm_num) (by simp) (by simp) (by simp)
    (by simp [env'', Env.withFuel])
    (rich_sampledFrom (l := genXs22) (by decide) (by decide)) gen_rich11.2 s hs
  exact ⟨s, v, hs, h.1⟩

/-- A mix of two points, a segment and a polygon with a required hole. -/
example : ∃ s v, mixes env'' (sampledFrom genXs22) (some (sampledFrom genYs11))
      { minPolygonHolesSize := 1, maxPolygonBorderSize := some 7 } = .ok s ∧ s.2.val v ∧
    (mixPoints v).length = 2 ∧ (mixSegments v).length = 1 ∧
    (mixPolygons v).map (fun g => g.holes.length) = [1] := by
  obtain ⟨s, hs⟩ : ∃ s, mixes env'' (sampledFrom genXs22) (some (sampledFrom genYs11))
      { minPolygonHolesSize := 1, maxPolygonBorderSize := some 7 } = .ok s := ⟨_, rfl⟩
  obtain ⟨v, h⟩ := C62_mixes env'' coins_ok (fun l => List.Perm.refl l) sample_sound
    sample_hullOk _ _ gen_generic22 _ le_rfl le_rfl 2 1 [1] (by simp [SizeIn]) (by simp [SizeIn])
    (by simp [SizeIn]) (by simp [SizeIn]) (by simp) 11 (by norm_num) (by norm_num) (by simp) (by simp)
    (by simp) (by simp [env'', Env.withFuel])
    ((rich_sampledFrom (l := genXs22) (by decide) (by decide)).mono (by decide))
    (fun _ => gen_rich11.2) (gen_rich11.2.mono (by norm_num)) s hs
  exact ⟨s, v, hs, h⟩

end HG
