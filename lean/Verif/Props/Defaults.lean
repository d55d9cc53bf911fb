import Verif.Model.Planar
import Mathlib.Algebra.Order.Ring.Int

/-!
# Omitting the strategy of ordinates (C39)
-/

set_option linter.unusedSectionVars false

namespace HG

section
variable {K : Type} [LinearOrder K] [Zero K] [Add K] [Sub K] [Predicates K]

/-- C39: every constructor yields the same result without a strategy of ordinates as with the
strategy of abscissas given twice. -/
theorem C39_default_y (env : Env K) (x : Strategy K) (lo : Int) (hi : Option Int) (lo' : Int)
    (hi' : Option Int) (lo'' : Int) (hi'' : Option Int) (lo''' : Int) (hi''' : Option Int)
    (a : MixArgs) :
    points x none = points x (some x) ∧
    multipoints x none lo hi = multipoints x (some x) lo hi ∧
    segments x none = segments x (some x) ∧
    multisegments env x none lo hi = multisegments env x (some x) lo hi ∧
    contours env x none lo hi = contours env x (some x) lo hi ∧
    convexContours env x none lo hi = convexContours env x (some x) lo hi ∧
    concaveContours env x none lo hi = concaveContours env x (some x) lo hi ∧
    starContours env x none lo hi = starContours env x (some x) lo hi ∧
    triangularContours x none = triangularContours x (some x) ∧
    rectangularContours x none = rectangularContours x (some x) ∧
    boxes x none = boxes x (some x) ∧
    multicontours env x none lo hi lo' hi' = multicontours env x (some x) lo hi lo' hi' ∧
    polygons env x none lo hi lo' hi' lo'' hi'' =
      polygons env x (some x) lo hi lo' hi' lo'' hi'' ∧
    multipolygons env x none lo hi lo' hi' lo'' hi'' lo''' hi''' =
      multipolygons env x (some x) lo hi lo' hi' lo'' hi'' lo''' hi''' ∧
    mixes env x none a = mixes env x (some x) a := by
  have gp : ∀ lo hi, toGeneralPositionStrategy x none lo hi =
      toGeneralPositionStrategy x (some x) lo hi := fun _ _ => rfl
  have h1 : ∀ z, toMixStrategy env x none z = toMixStrategy env x (some x) z := fun _ => rfl
  have h2 : ∀ l, unionMixes env x none l = unionMixes env x (some x) l := by
    intro l
    induction l with
    | nil => rfl
    | cons z l ih =>
      cases l with
      | nil => exact h1 z
      | cons z' l => simp only [unionMixes, h1, ih] at ih ⊢
  refine ⟨rfl, rfl, rfl, rfl, ?_, ?_, ?_, ?_, rfl, rfl, rfl, ?_, ?_, rfl, ?_⟩
  · rfl
  · rfl
  · rfl
  · rfl
  · rfl
  · rfl
  · unfold mixes
    simp only [h2]

/-- Non-vacuity: the strategies are not trivially empty. -/
example : ∃ s, points (Strategy.sampledFrom [(1 : ℤ), 2]) none = .ok s ∧ s.2.val ⟨1, 2⟩ :=
  ⟨_, rfl, ⟨(1, 2), ⟨List.Mem.head _, List.Mem.tail _ (List.Mem.head _)⟩, rfl⟩⟩

end
end HG
