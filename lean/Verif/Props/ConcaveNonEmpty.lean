import Verif.Delaunay.OneMouth
import Verif.Props.NonEmpty
import Verif.Props.TotalSamples

/-!
# C54 for `concave_contours`
-/

set_option linter.unusedSectionVars false

namespace HG

open Strategy Spec

section
variable {K : Type} [CommRing K] [LinearOrder K] [IsStrictOrderedRing K]

/-- C54 for `concave_contours`: quadrilaterals or pentagons with a reflex vertex are generated on five
coordinate values per axis. -/
theorem C54_concave_contours (env : Env K) (hcoin : Coins env.coinChange) (hf : 49 ≤ env.fuel)
    (x : Strategy K) (y : Option (Strategy K)) (hgen : GenericCoords x y) (lo : Int) (hi : Option Int)
    (h1 : lo ≤ 4) (h2 : ∀ m, hi = some m → 5 ≤ m) (hx : Rich x 5) (hy : Rich (y.getD x) 5)
    (s : Made (Contour K)) (hs : concaveContours env x y lo hi = .ok s) : ∃ c, s.2.val c := by
  simp only [concaveContours, exc_bind_ok, exc_pure_ok, validate_ok] at hs
  obtain ⟨w, -, rfl⟩ := hs
  have e4 : max lo 4 = 4 := max_eq_right h1
  rw [e4]
  obtain ⟨pts, hp, hl, hh⟩ := generalPosition_inner (x := x) (y := y) (lo := 4) (hi := hi) (by norm_num)
    (p := 5) (by norm_num) le_rfl (by norm_num) h2 hx hy
  obtain ⟨hn, -⟩ := C35_distinct x y 4 hi (by norm_num) pts hp
  have hN := generalPosition_noThree hgen (by norm_num) hp
  obtain ⟨c1, c2⟩ := hcoin pts.length (by omega)
  obtain ⟨size, vs, s1, s2, hv, hvl, hnc⟩ := toVertexSequence_one (o := env.edgeOrder)
    (coins := env.coinChange) hn (by omega) c1 c2 hN (fuel := env.fuel) (by rw [hl]; exact hf) (by omega)
  refine ⟨⟨vs⟩, vs, ⟨.inr ⟨?_, ?_⟩, hnc⟩, rfl⟩
  · rw [val_mapE]
    refine ⟨(pts, size), ⟨pts, hp, rfl, s1, ?_⟩, hv⟩
    cases hi with
    | none => dsimp only [minOpt]; omega
    | some m =>
      have := h2 m rfl
      dsimp only [minOpt]; omega
  · rw [hasValidSize_iff]
    refine ⟨by omega, fun m hm => ?_⟩
    have := h2 m hm
    omega

end

namespace Sample

/-- Concave contours on generic coordinate values. -/
example : ∃ s c, concaveContours env' (sampledFrom genXs) (some (sampledFrom genYs)) 4 (some 5) = .ok s ∧
    s.2.val c := by
  obtain ⟨v, h⟩ := C54_concave_contours env' coins_ok (by simp [env', Env.withFuel]) (sampledFrom genXs)
    (some (sampledFrom genYs)) gen_generic 4 (some 5) le_rfl (by simp) (gen_rich.1.mono (by norm_num))
    (gen_rich.2.mono (by norm_num)) _ rfl
  exact ⟨_, v, rfl, h⟩

end Sample
end HG
