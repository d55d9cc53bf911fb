import Verif.Props.Parts
import Verif.Props.HolesInside
import Verif.Props.Generic
import Verif.Props.NonEmptySamples

/-!
# C57 with exact arithmetic: polygons of multipolygons and mixes are proper polygons

The theorems on polygons (C15, C22, C24, C47) carried over to the polygons of multipolygons and mixes
by `C57_multipolygons` and `C57_mixes`.
-/

set_option linter.unusedSectionVars false

namespace HG

open Strategy Spec

section

variable {K : Type} [CommRing K] [LinearOrder K] [IsStrictOrderedRing K]

/-- A polygon with a simple counterclockwise border without redundant vertices, with holes inside of
the border and apart from each other. -/
structure Spec.ProperPolygon (p : Polygon K) : Prop where
  border : GoodBorder p.border.vertices
  inside : HolesInside p
  apart : p.holes.Pairwise ContoursTouch

theorem polygon_proper (env : Env K) (hcoin : Sums env.coinChange)
    (near : FindsNearest env.nearestSegment) (hset : ∀ l, (env.setOrder l).Perm l) (x : Strategy K)
    (y : Option (Strategy K)) (lo : Int) (hi : Option Int) (nlo : Int) (nhi : Option Int)
    (hlo : Int) (hhi : Option Int) (s : Made (Polygon K))
    (hs : polygons env x y lo hi nlo nhi hlo hhi = .ok s) (p : Polygon K) (h : s.2.val p) :
    ProperPolygon p :=
  ⟨C47_polygon_border env hcoin x y lo hi nlo nhi hlo hhi s hs p h,
    C24_holes_inside env hcoin near hset x y lo hi nlo nhi hlo hhi s hs p h,
    C22_holes env hset x y lo hi nlo nhi hlo hhi s hs p h⟩

/-- C57: the polygons of a mix are proper, for any coordinates; if drawn points are on one line only
when they share a coordinate, their holes are simple and clockwise. -/
theorem C57_mix_polygons (env : Env K) (hcoin : Sums env.coinChange)
    (near : FindsNearest env.nearestSegment) (hset : ∀ l, (env.setOrder l).Perm l) (x : Strategy K)
    (y : Option (Strategy K)) (a : MixArgs) (s : Made (Mix K)) (hs : mixes env x y a = .ok s)
    (g : Mix K) (h : s.2.val g) :
    ∀ p ∈ mixPolygons g, ProperPolygon p ∧
      (GenericCoords x y → ∀ c ∈ p.holes, GoodHole c.vertices) := by
  obtain ⟨-, -, t, ht, hp⟩ := C57_mixes env x y a s hs g h
  exact fun p hm => ⟨polygon_proper env hcoin near hset x y _ _ _ _ _ _ t ht p (hp p hm),
    fun hgen => C15_holes_partial env hcoin hset x y hgen _ _ _ _ _ _ t ht p (hp p hm)⟩

/-- C57: the polygons of a multipolygon are proper when holes are required, and also without if drawn
points are on one line only when they share a coordinate. -/
theorem C57_multipolygon_polygons (env : Env K) (hcoin : Sums env.coinChange)
    (near : FindsNearest env.nearestSegment) (hset : ∀ l, (env.setOrder l).Perm l) (x : Strategy K)
    (y : Option (Strategy K)) (lo : Int) (hi : Option Int) (blo : Int) (bhi : Option Int)
    (nlo : Int) (h0 : 0 ≤ nlo) (nhi : Option Int) (hlo : Int) (hhi : Option Int)
    (s : Made (List (Polygon K)))
    (hs : multipolygons env x y lo hi blo bhi nlo nhi hlo hhi = .ok s) (l : List (Polygon K))
    (h : s.2.val l) :
    (1 ≤ nlo ∨ GenericCoords x y → ∀ p ∈ l, ProperPolygon p) ∧
    (GenericCoords x y → ∀ p ∈ l, ∀ c ∈ p.holes, GoodHole c.vertices) := by
  rcases C57_multipolygons env x y lo hi blo bhi nlo h0 nhi hlo hhi s hs l h with
    ⟨t, ht, hp⟩ | ⟨rfl, hn, t, ht, hp⟩
  · exact ⟨fun _ p hm => polygon_proper env hcoin near hset x y _ _ _ _ _ _ t ht p (hp p hm),
      fun hgen p hm => C15_holes_partial env hcoin hset x y hgen _ _ _ _ _ _ t ht p (hp p hm)⟩
  · refine ⟨fun hc p hm => ?_, fun _ p hm c hc => by rw [hn p hm] at hc; cases hc⟩
    have hgen : GenericCoords x y := hc.resolve_left (by norm_num)
    have hb := C15_multicontours_partial env hcoin x y hgen lo hi blo bhi t ht _ hp p.border
      (List.mem_map_of_mem hm)
    refine ⟨hb, ?_, by rw [hn p hm]; exact List.Pairwise.nil⟩
    exact ⟨by rw [hn p hm]; simp, by rw [hn p hm]; simp⟩

end

/-! ## Non-vacuity -/

namespace Sample

/-- C57: there is a mix with a polygon. -/
example : ∃ s v, mixes env'' (sampledFrom genXs11) (some (sampledFrom genYs11))
    { minPolygonsSize := 1 } = .ok s ∧ s.2.val v ∧ ∃ p, p ∈ mixPolygons v := by
  obtain ⟨s, hs⟩ : ∃ s, mixes env'' (sampledFrom genXs11) (some (sampledFrom genYs11))
    { minPolygonsSize := 1 } = .ok s := ⟨_, rfl⟩
  obtain ⟨v, h⟩ := C54_mixes env'' coins_ok (fun l => List.Perm.refl l) sample_sound
    sample_hullOk (by simp [env'', Env.withFuel]) _ _ gen_generic11 gen_steps11
    { minPolygonsSize := 1 } (by norm_num)
    (by simp) (by norm_num) (gen_rich11.1.mono (by norm_num)) (by
      intro n
      show Rich (sampledFrom genXs11) n ↔ Rich (sampledFrom genYs11) n
      rw [rich_iff (m := 11) (by decide) (by norm_num) rfl,
        rich_iff (m := 11) (by decide +kernel) (by norm_num) rfl]) s hs
  refine ⟨s, v, hs, h, List.exists_mem_of_length_pos ?_⟩
  have := (C27_mix_sizes _ _ _ _ s hs v h).2.2.1.1
  norm_num at this
  omega

end Sample
end HG
