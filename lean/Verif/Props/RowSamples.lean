import Verif.Props.RowPolygons
import Verif.Props.HoleCountSamples

/-!
# Samples for C63
-/

namespace HG

open Strategy Spec Sample Spec.MixPart

/-- A segment, a point to the right of it and another segment to the right of both. -/
def rowParts : List (MixPart ℤ) :=
  [.segments [0, 1] [⟨⟨0, 0⟩, ⟨1, 5⟩⟩], .points [2] [⟨2, 3⟩], .segments [3, 4] [⟨⟨4, 0⟩, ⟨3, 3⟩⟩]]

theorem rowParts_ok : ∀ b ∈ rowParts, MixPartOk env'' true (sampledFrom [0, 3, 5]) {} 5 b := by
  intro b hb
  simp only [rowParts, List.mem_cons, List.not_mem_nil, or_false] at hb
  rcases hb with rfl | rfl | rfl
  · refine ⟨rfl, .inl ⟨_, _, rfl, rfl, ?_⟩⟩
    exact ⟨(⟨0, 0⟩, ⟨1, 5⟩), by simp [prod, toPointStrategy, blockX, blockY, yOr, val_sampledFrom], rfl⟩
  · refine ⟨by simp, rfl, _, rfl, ?_⟩
    simp [toMultipointStrategy, toUniquePointSequenceStrategy, toPointStrategy, blockX, blockY, yOr,
      uniqueLists, val_sampledFrom]
  · refine ⟨rfl, .inl ⟨_, _, rfl, rfl, ?_⟩⟩
    exact ⟨(⟨4, 0⟩, ⟨3, 3⟩), by simp [prod, toPointStrategy, blockX, blockY, yOr, val_sampledFrom], rfl⟩

example : ∃ s v, mixes env'' (sampledFrom [0, 1, 2, 3, 4]) (some (sampledFrom [0, 3, 5])) = .ok s ∧
    s.2.val v ∧ mixPoints v = [⟨2, 3⟩] ∧
    mixSegments v = [⟨⟨0, 0⟩, ⟨1, 5⟩⟩, ⟨⟨4, 0⟩, ⟨3, 3⟩⟩] ∧ mixPolygons v = [] := by
  obtain ⟨s, hs⟩ : ∃ s, mixes env'' (sampledFrom [0, 1, 2, 3, 4]) (some (sampledFrom [0, 3, 5]))
    = .ok s := ⟨_, rfl⟩
  obtain ⟨v, h⟩ := C63_mixes env'' _ _ _ 5 (by norm_num) (by norm_num) (by norm_num) rowParts
    (by simp [PointSeparated, rowParts, IsPoints]) (by simp [rowParts, block])
    (by simp [rowParts, pts, SizeIn]) (by simp [rowParts, segs, SizeIn])
    (by simp [rowParts, pols, SizeIn]) (.inl ⟨by simp [rowParts, pts], by simp [rowParts, segs]⟩) s hs
    (.inl ⟨rowParts_ok, by simp [rowParts, block, val_sampledFrom]⟩)
  exact ⟨s, v, hs, h⟩

/-- A polygon with a hole and a point to the right of it. -/
example : ∃ s v, mixes env'' (sampledFrom genXs22) (some (sampledFrom genYs11))
      { maxPolygonHolesSize := some 2, maxPolygonBorderSize := some 7 } = .ok s ∧ s.2.val v ∧
    mixPoints v = [⟨11, genYs11[0]⟩] ∧
    (mixPolygons v).map (fun g => g.holes.length) = [1] := by
  obtain ⟨s, hs⟩ : ∃ s, mixes env'' (sampledFrom genXs22) (some (sampledFrom genYs11))
      { maxPolygonHolesSize := some 2, maxPolygonBorderSize := some 7 } = .ok s := ⟨_, rfl⟩
  obtain ⟨r, hr⟩ : ∃ r, polygons env'' (sampledFrom genXs11) (some (sampledFrom genYs11)) 3 (some 7) 0
    (some 2) = .ok r := ⟨_, rfl⟩
  obtain ⟨g, h1, h2⟩ := C62_polygons env'' coins_ok (fun l => List.Perm.refl l) sample_sound
    sample_hullOk _ _ gen_generic11 3 (some 7) 0 (some 2) 3 none le_rfl le_rfl 1 (by norm_num)
    (by simp) 11 (by norm_num) (by norm_num) (by norm_num) (by simp) (by simp)
    (by simp [env'', Env.withFuel]) gen_rich11.1 gen_rich11.2 r hr
  obtain ⟨v, h3, h4, -, h5⟩ := C63_mixes env'' _ _ _ 11 (by norm_num) (by norm_num) (by norm_num)
    [.polygon genXs11 g, .points [11] [⟨11, genYs11[0]⟩]]
    (by simp [PointSeparated, IsPoints])
    (by simp only [List.flatMap_cons, block, List.flatMap_nil, List.append_nil]; decide)
    (by simp [pts, SizeIn]) (by simp [segs, SizeIn])
    (by simp [pols, SizeIn]) (.inr (.inl ⟨by simp [pts], by simp [pols]⟩)) s hs
    (.inl ⟨by
      intro b hb
      simp only [List.mem_cons, List.not_mem_nil, or_false] at hb
      rcases hb with rfl | rfl
      · exact ⟨rfl, r, hr, h1⟩
      · refine ⟨by simp, rfl, _, rfl, ?_⟩
        simp [toMultipointStrategy, toUniquePointSequenceStrategy, toPointStrategy, blockX, blockY,
          yOr, uniqueLists, val_sampledFrom], by
      simp only [List.flatMap_cons, block, List.flatMap_nil, List.append_nil, val_sampledFrom]
      decide⟩)
  refine ⟨s, v, hs, h3, h4, ?_⟩
  rw [h5]
  simp [pols, h2]

/-- A triangle and a polygon with a hole to the right of it. -/
example : ∃ s v, multipolygons env'' (sampledFrom genXs22) (some (sampledFrom genYs11)) = .ok s ∧
    s.2.val v ∧ v.map (fun g => g.holes.length) = [0, 1] := by
  obtain ⟨s, hs⟩ : ∃ s, multipolygons env'' (sampledFrom genXs22) (some (sampledFrom genYs11))
    = .ok s := ⟨_, rfl⟩
  have g1 : GenericCoords (sampledFrom (genXs22.take 5)) (some (sampledFrom genYs11)) :=
    ratioTest_generic (m := 21) (by decide +kernel)
  have g2 : GenericCoords (sampledFrom (genXs22.drop 5)) (some (sampledFrom genYs11)) :=
    ratioTest_generic (m := 21) (by decide +kernel)
  obtain ⟨r1, hr1⟩ : ∃ r, polygons env'' (sampledFrom (genXs22.take 5)) (some (sampledFrom genYs11))
    = .ok r := ⟨_, rfl⟩
  obtain ⟨r2, hr2⟩ : ∃ r, polygons env'' (sampledFrom (genXs22.drop 5)) (some (sampledFrom genYs11))
    = .ok r := ⟨_, rfl⟩
  obtain ⟨v1, h1, k1⟩ := C62_polygons env'' coins_ok (fun l => List.Perm.refl l) sample_sound
    sample_hullOk _ _ g1 3 none 0 none 3 none le_rfl le_rfl 0 (by norm_num)
    (by simp) 5 (by norm_num) (by norm_num) (by norm_num) (by simp) (by simp)
    (by simp [env'', Env.withFuel]) (rich_sampledFrom (l := genXs22.take 5) (by decide) (by decide))
    (gen_rich11.2.mono (by norm_num)) r1 hr1
  obtain ⟨v2, h2, k2⟩ := C62_polygons env'' coins_ok (fun l => List.Perm.refl l) sample_sound
    sample_hullOk _ _ g2 3 none 0 none 3 none le_rfl le_rfl 1 (by norm_num)
    (by simp) 11 (by norm_num) (by norm_num) (by norm_num) (by simp) (by simp)
    (by simp [env'', Env.withFuel])
    ((rich_sampledFrom (l := genXs22.drop 5) (by decide) (by decide)).mono (by decide)) gen_rich11.2
    r2 hr2
  refine ⟨s, _, hs, C63_multipolygons env'' _ _ 2 none 3 none 0 le_rfl none 3 none
    [(genXs22.take 5, v1), (genXs22.drop 5, v2)] (by simp [SizeIn])
    (by simp only [List.flatMap_cons, List.flatMap_nil, List.append_nil]; decide) 5 (by norm_num)
    le_rfl (by norm_num) ⟨fun _ => ⟨?_, by dsimp only; decide, by dsimp only; decide, by simp [genXs22]⟩, by simp,
    trivial⟩ (by simp)
    (.inl ⟨?_, ?_⟩) s hs, by simp [k1, k2]⟩
  · change Nat.Prime 5
    norm_num
  · simp only [List.flatMap_cons, List.flatMap_nil, List.append_nil, val_sampledFrom]
    decide
  · intro b hb
    simp only [List.mem_cons, List.not_mem_nil, or_false] at hb
    rcases hb with rfl | rfl
    · exact ⟨r1, hr1, h1⟩
    · exact ⟨r2, hr2, h2⟩

end HG
