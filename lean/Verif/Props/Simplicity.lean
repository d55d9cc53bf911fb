import Verif.Props.Sizes
import Verif.Props.Star
import Verif.Spec.Hulls

/-!
# Simplicity of contours and of multisegments (C15, C18): what fails
-/

set_option linter.unusedSectionVars false

namespace HG

open Strategy Spec

namespace Sample

/-- Seven coordinates each way. -/
def badXs : List ℤ := [0, 6, 10, 12, 16, 18, 20]
/-- See `badXs`. -/
def badYs : List ℤ := [2, 4, 6, 10, 12, 14, 18]
/-- The points `(xs[i], ys[3 i² mod 7])`. -/
def badPoints : List (Point ℤ) :=
  [⟨0, 2⟩, ⟨6, 10⟩, ⟨10, 14⟩, ⟨12, 18⟩, ⟨16, 18⟩, ⟨18, 14⟩, ⟨20, 10⟩]
/-- The vertices obtained from them. -/
def badVertices : List (Point ℤ) := [⟨10, 14⟩, ⟨18, 14⟩, ⟨16, 18⟩, ⟨6, 10⟩, ⟨20, 10⟩]

theorem badPoints_drawn (lo : Int) (hi : Option Int) (p : Int) (h1 : toNextPrime lo = .ok p)
    (h2 : p ≤ 7) (h3 : leOpt 7 (maxOpt p hi)) :
    (toGeneralPositionStrategy (sampledFrom badXs) (some (sampledFrom badYs)) lo hi).val
      badPoints := by
  simp only [toGeneralPositionStrategy, val_bind, val_ofExcept, val_prod, val_uniqueLists]
  refine ⟨p, h1, (badXs, badYs), ⟨⟨fun a ha => ha, by decide, h2, h3⟩,
    ⟨fun a ha => ha, by decide, h2, h3⟩⟩, ?_⟩
  simp only [coordinatePairToPoints, val_bind, val_ofExcept]
  refine ⟨7, by decide +kernel, Or.inl ?_⟩
  simp only [val_mapE, val_bind', val_integersFrom, val_integers]
  exact ⟨3, ⟨0, le_refl _, by decide, by decide⟩, by decide +kernel⟩

theorem badVertices_made : toVertexSequence env.fuel env.coinChange env.edgeOrder badPoints 7 = .ok badVertices := by
  decide +kernel

theorem badVertices_sequence :
    (toVertexSequences env (sampledFrom badXs) (some (sampledFrom badYs)) 3 none).val
      badVertices := by
  refine Or.inr ⟨?_, by decide⟩
  rw [val_mapE]
  exact ⟨(badPoints, 7), ⟨badPoints, badPoints_drawn 3 none 5 (by decide +kernel) (by norm_num)
    trivial, rfl, by decide, by decide⟩, badVertices_made⟩

/-- The edges `(10, 14), (18, 14)` and `(16, 18), (6, 10)` cross at
`(11, 14)`. -/
theorem badVertices_cross : ¬ SimpleContour badVertices := by
  rintro ⟨-, h⟩
  have h2 := h 0 2 (by decide) (by decide) ⟨11, 14⟩ (by unfold OnSeg Collinear; decide)
    (by unfold OnSeg Collinear; decide)
  revert h2
  decide

/-- Twice the signed area of a closed contour, and the moments of its region. -/
def moments (l : List (Point ℚ)) : ℚ × ℚ × ℚ :=
  (List.zip l (l.rotate 1)).foldl (fun s e =>
    let d := e.1.x * e.2.y - e.1.y * e.2.x
    (s.1 + d, s.2.1 + (e.1.x + e.2.x) * d, s.2.2 + (e.1.y + e.2.y) * d)) (0, 0, 0)

/-- The centroid of the region bounded by a contour. -/
def centroid (l : List (Point ℚ)) : Point ℚ :=
  let s := moments l
  ⟨s.2.1 / (3 * s.1), s.2.2 / (3 * s.1)⟩

/-- The mean of points. -/
def meanQ (l : List (Point ℚ)) : Point ℚ :=
  ⟨(l.map Point.x).sum / l.length, (l.map Point.y).sum / l.length⟩

/-- A rational function increasing with the polar angle on `(-π, π]`. -/
def angleQ (y x : ℚ) : ℚ :=
  if 0 ≤ y then 1 - x / (|x| + |y|) else x / (|x| + |y|) - 1

/-- An environment over the rationals with exact centroids. -/
def envQ : Env ℚ where
  fuel := 60
  coinChange := coins
  convexHull := fun l => l
  segmentsCrossOrOverlap := fun _ => true
  nearestSegment := fun _ s => s
  multipointCentroid := meanQ
  regionCentroid := centroid
  atan2 := angleQ
  setOrder := fun l => l

/-- Seven coordinates each way. -/
def cwXs : List ℚ := [0, 2, 3, 4, 7, 14, 17]
/-- See `cwXs`. -/
def cwYs : List ℚ := [0, 2, 5, 6, 10, 11, 12]
/-- The points `(xs[i], ys[i² mod 7])`. -/
def cwPoints : List (Point ℚ) :=
  [⟨0, 0⟩, ⟨2, 2⟩, ⟨3, 10⟩, ⟨4, 5⟩, ⟨7, 5⟩, ⟨14, 10⟩, ⟨17, 2⟩]

theorem cwPoints_drawn :
    (toGeneralPositionStrategy (sampledFrom cwXs) (some (sampledFrom cwYs)) 3 none).val
      cwPoints := by
  simp only [toGeneralPositionStrategy, val_bind, val_ofExcept, val_prod, val_uniqueLists]
  refine ⟨5, by decide +kernel, (cwXs, cwYs), ⟨⟨fun a ha => ha, by decide +kernel, by decide,
    trivial⟩, ⟨fun a ha => ha, by decide +kernel, by decide, trivial⟩⟩, ?_⟩
  simp only [coordinatePairToPoints, val_bind, val_ofExcept]
  refine ⟨7, by decide +kernel, Or.inl ?_⟩
  simp only [val_mapE, val_bind', val_integersFrom, val_integers]
  exact ⟨1, ⟨0, le_refl _, by decide, by decide⟩, by decide +kernel⟩

theorem cwStar : (toStarStrategy envQ (sampledFrom cwXs) (some (sampledFrom cwYs)) 3 none).val
    [⟨0, 0⟩, ⟨3, 10⟩, ⟨7, 5⟩] :=
  ⟨⟨cwPoints, cwPoints_drawn, by decide +kernel⟩, by decide⟩

end Sample

section
open Sample

/-- C15 fails for `contours`: a generated contour may cross itself. -/
theorem C15_contours_not_simple : ∃ s, contours env (sampledFrom badXs) (some (sampledFrom badYs))
      3 none = .ok s ∧ ∃ c, s.2.val c ∧ ¬ SimpleContour c.vertices :=
  ⟨_, rfl, ⟨badVertices⟩, ⟨_, Or.inr badVertices_sequence, rfl⟩, badVertices_cross⟩

/-- C15 fails for `star_contours` and `contours`: with exact centroids and angles a generated
triangle may be clockwise. -/
theorem C15_star_contours_clockwise :
    (∃ s, starContours envQ (sampledFrom cwXs) (some (sampledFrom cwYs)) = .ok s ∧
      s.2.val ⟨[⟨0, 0⟩, ⟨3, 10⟩, ⟨7, 5⟩]⟩) ∧
    (∃ s, contours envQ (sampledFrom cwXs) (some (sampledFrom cwYs)) = .ok s ∧
      s.2.val ⟨[⟨0, 0⟩, ⟨3, 10⟩, ⟨7, 5⟩]⟩) ∧
    area2 (⟨0, 0⟩ : Point ℚ) ⟨3, 10⟩ ⟨7, 5⟩ < 0 :=
  ⟨⟨_, rfl, _, cwStar, rfl⟩, ⟨_, rfl, _, Or.inr (Or.inl cwStar), rfl⟩, by decide +kernel⟩

/-- C15 fails for `concave_contours`. -/
theorem C15_concave_contours_not_simple : ∃ s, concaveContours env (sampledFrom badXs)
      (some (sampledFrom badYs)) = .ok s ∧ ∃ c, s.2.val c ∧ ¬ SimpleContour c.vertices := by
  refine ⟨_, rfl, ⟨badVertices⟩, ⟨_, ⟨Or.inr ⟨?_, by decide⟩, by decide +kernel⟩, rfl⟩,
    badVertices_cross⟩
  rw [val_mapE]
  exact ⟨(badPoints, 7), ⟨badPoints, badPoints_drawn _ none 5 (by decide +kernel) (by norm_num)
    trivial, rfl, by decide, by decide⟩, badVertices_made⟩

/-- C18 fails: two segments of a generated multisegment may cross. -/
theorem C18_multisegments_cross : ∃ s, multisegments env (sampledFrom badXs)
      (some (sampledFrom badYs)) = .ok s ∧ ∃ l, s.2.val l ∧ ∃ a ∈ l, ∃ b ∈ l, ¬ NoCross a b := by
  refine ⟨_, rfl, [⟨⟨10, 14⟩, ⟨18, 14⟩⟩, ⟨⟨16, 18⟩, ⟨6, 10⟩⟩], Or.inl (Or.inr ?_),
    ⟨⟨10, 14⟩, ⟨18, 14⟩⟩, by simp, ⟨⟨16, 18⟩, ⟨6, 10⟩⟩, by simp, ?_⟩
  · refine ⟨contourEdges badVertices, ⟨badVertices, Or.inr badVertices_sequence, rfl⟩, ?_⟩
    refine ⟨([⟨⟨10, 14⟩, ⟨18, 14⟩⟩, ⟨⟨16, 18⟩, ⟨6, 10⟩⟩, ⟨⟨20, 10⟩, ⟨10, 14⟩⟩,
      ⟨⟨18, 14⟩, ⟨16, 18⟩⟩, ⟨⟨6, 10⟩, ⟨20, 10⟩⟩], 2), ⟨?_, by decide +kernel, by decide +kernel⟩, by decide⟩
    rw [val_permutations]
    decide +kernel
  · rintro ⟨h, -⟩
    have := h ⟨11, 14⟩ (by unfold OnSeg Collinear; decide) (by unfold OnSeg Collinear; decide)
    revert this
    unfold IsEnd
    decide

end
end HG
