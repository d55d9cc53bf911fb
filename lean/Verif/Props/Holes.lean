import Verif.Props.Separation
import Verif.Props.SubSequence

/-!
# C23: the holes of generated polygons are reversed contours
-/

set_option linter.unusedSectionVars false

namespace HG

open Strategy Spec

section
variable {K : Type} [CommRing K] [LinearOrder K] [IsStrictOrderedRing K]

/-- `c` is `vs` traversed in the opposite direction from the same vertex. -/
def Spec.Reversed (c vs : List (Point K)) : Prop :=
  c.length = vs.length ∧ ∀ i < vs.length, cyc c i = cyc vs (vs.length - i)

/-- Holes come from vertex sequences. -/
theorem holeLoop_reversed {env : Env K} {Q : Point K → Prop} (l : List (Int × Bool))
    {s s' : HoleState K} {prior : Option Bool} (hQ : ∀ p ∈ s.innerPoints, Q p)
    (h0 : ∀ c ∈ s.holes, ∃ (pts : List (Point K)) (n : Int) (vs : List (Point K)),
      (∀ p ∈ pts, Q p) ∧
      toVertexSequence env.fuel env.coinChange env.edgeOrder pts n = .ok vs ∧ Reversed c.vertices vs)
    (h : holeLoop env s prior l = .ok s') :
    ∀ c ∈ s'.holes, ∃ (pts : List (Point K)) (n : Int) (vs : List (Point K)), (∀ p ∈ pts, Q p) ∧
      toVertexSequence env.fuel env.coinChange env.edgeOrder pts n = .ok vs ∧ Reversed c.vertices vs := by
  induction l generalizing s prior with
  | nil =>
    simp only [holeLoop, exc_pure_ok] at h
    exact h ▸ h0
  | cons a l ih =>
    obtain ⟨size, key⟩ := a
    simp only [holeLoop, exc_bind_ok] at h
    obtain ⟨vs, hvs, h⟩ := h
    have hin : ∀ p ∈ (if prior ≠ some key then sortByKey key s.innerPoints else s.innerPoints),
        Q p := by
      intro p hp
      split at hp
      · exact hQ p ((sortByKey_perm _ _).mem_iff.1 hp)
      · exact hQ p hp
    split at h
    · split at h
      · simp only [exc_throw_ok] at h
      · simp only [exc_bind_ok] at h
        obtain ⟨b, -, h⟩ := h
        refine ih (by exact fun p hp => hin p (List.mem_of_mem_drop hp)) ?_ h
        intro c hc
        rcases List.mem_append.1 hc with hc | hc
        · exact h0 c hc
        · rw [List.mem_singleton.1 hc]
          refine ⟨_, _, vs, fun p hp => hin p (List.mem_of_mem_take hp), hvs, ?_,
            fun i hi => (C23_reverse vs i hi).2⟩
          simp only [reverseVertices, List.length_append, List.length_take, List.length_reverse,
            List.length_drop]
          omega
    · exact ih (by exact hin) (by exact h0) h

/-- C23: every hole of a generated polygon is the vertex sequence of a contour of drawn points,
traversed in the opposite direction from the same vertex. -/
theorem C23_holes (env : Env K) (hset : ∀ l, (env.setOrder l).Perm l) (x : Strategy K)
    (y : Option (Strategy K)) (lo : Int) (hi : Option Int) (nlo : Int) (nhi : Option Int)
    (hlo : Int) (hhi : Option Int) (s : Made (Polygon K))
    (hs : polygons env x y lo hi nlo nhi hlo hhi = .ok s) (p : Polygon K) (h : s.2.val p) :
    ∀ c ∈ p.holes, ∃ (pts : List (Point K)) (n : Int) (vs : List (Point K)),
      (∀ q ∈ pts, Drawn x y q) ∧
      toVertexSequence env.fuel env.coinChange env.edgeOrder pts n = .ok vs ∧ Reversed c.vertices vs := by
  simp only [polygons, exc_bind_ok, exc_pure_ok, validate_ok] at hs
  obtain ⟨w, -, w', -, w'', -, rfl⟩ := hs
  obtain ⟨h, -⟩ := h
  simp only [val_bind', val_filter] at h
  obtain ⟨pts, ⟨hp, -⟩, h⟩ := h
  simp only [pointsToPolygonStrategy, val_mapE] at h
  obtain ⟨r, -, h⟩ := h
  simp only [toPolygon, exc_bind_ok] at h
  obtain ⟨⟨m, t⟩, hd, es, hes, hst, hh, cs, hcs, b, hb, bd, hbd, h⟩ := h
  split at h
  · simp only [exc_pure_ok] at h
    subst h
    have hdr : ∀ q ∈ pts, Drawn x y q := generalPosition_drawn (by nlinarith [le_max_right lo 3, le_max_right nlo 0, le_max_right hlo 3]) hp
    refine holeLoop_reversed _ (fun q hq => ?_) (by simp) hh
    exact hdr q (List.mem_filter.1 ((hset _).mem_iff.1 hq)).1
  · simp only [exc_throw_ok] at h

end

/-- C23 applied to the hole of `sample_polygons`. -/
example : ∃ (pts : List (Point ℤ)) (n : Int) (vs : List (Point ℤ)),
    (∀ q ∈ pts, Drawn (sampledFrom (Sample.coords 7)) none q) ∧
    toVertexSequence Sample.env.fuel Sample.env.coinChange Sample.env.edgeOrder pts n = .ok vs ∧
    Reversed [⟨1, 1⟩, ⟨3, 2⟩, ⟨4, 2⟩] vs := by
  obtain ⟨s, hs, h⟩ := sample_polygons
  exact C23_holes _ (fun l => List.Perm.refl l) _ _ _ _ _ _ _ _ s hs _ h _ (by simp)

end HG
