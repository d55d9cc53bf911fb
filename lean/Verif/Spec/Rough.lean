import Verif.Spec.Sample

/-!
# A concrete arithmetic that rounds

Integers whose sums and differences are rounded to even numbers.  Used only to show that the
theorems about arbitrary arithmetic speak about more than exact arithmetic.
-/

namespace HG

/-- Integers with rounding operations. -/
structure Rough where
  value : ℤ
deriving DecidableEq

namespace Rough

theorem value_injective : Function.Injective value := fun a b h => by
  cases a; cases b; simp_all

instance : LinearOrder Rough :=
  LinearOrder.lift' value value_injective

instance : Zero Rough := ⟨⟨0⟩⟩

/-- The least even number that is not less. -/
def round (n : ℤ) : ℤ := 2 * ((n + 1) / 2)

instance : Add Rough := ⟨fun a b => ⟨round (a.value + b.value)⟩⟩

instance : Sub Rough := ⟨fun a b => ⟨round (a.value - b.value)⟩⟩

/-- Forgets the rounding. -/
def Point.exact (p : Point Rough) : Point ℤ := ⟨p.x.value, p.y.value⟩

/-- The point with given coordinates. -/
def rough (p : Point ℤ) : Point Rough := ⟨⟨p.x⟩, ⟨p.y⟩⟩

instance : Predicates Rough where
  angleOrientation a b c := orient (Point.exact a) (Point.exact b) (Point.exact c)
  insideCircle p a b c :=
    inCircle (Point.exact p) (Point.exact a) (Point.exact b) (Point.exact c)

/-- The rounding is real: addition is not associative. -/
example : ((⟨1⟩ + ⟨1⟩ : Rough) + ⟨1⟩ ≠ ⟨1⟩ + (⟨1⟩ + ⟨1⟩)) ∨ (⟨1⟩ + ⟨0⟩ : Rough) ≠ ⟨1⟩ :=
  Or.inr (by decide)

/-- The environment of `Sample` for rounding coordinates. -/
def env : Env Rough where
  fuel := 60
  coinChange := Sample.coins
  convexHull ps := (Sample.hull (ps.map Point.exact)).map rough
  segmentsCrossOrOverlap ss := Sample.crossOrOverlap
    (ss.map fun s => ⟨Point.exact s.start, Point.exact s.stop⟩)
  nearestSegment l s :=
    let e := Sample.nearest (l.map fun s => ⟨Point.exact s.start, Point.exact s.stop⟩)
      ⟨Point.exact s.start, Point.exact s.stop⟩
    ⟨rough e.start, rough e.stop⟩
  multipointCentroid ps := rough (Sample.mean (ps.map Point.exact))
  regionCentroid ps := rough (Sample.mean (ps.map Point.exact))
  atan2 y x := Sample.pseudoAngle y.value x.value
  setOrder := fun l => l

end Rough
end HG
