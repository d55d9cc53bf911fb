import Verif.Model.Basic

/-!
# Utilities (`/repo/hypothesis_geometry/_core/utils.py`)
-/

namespace HG

/-- `cut` (`utils.py:22-23`); the limit is never negative at its only call site. -/
def cut {α : Type} (values : List α) (limit : Int) : List α :=
  if limit < values.length then values.take limit.toNat else values

/-- The loop of `_is_prime` (`utils.py:49-55`); `fuel` bounds the number of rounds. -/
def isPrimeLoop (value : Int) : Nat → Int → Bool
  | 0, _ => true
  | fuel + 1, divisor =>
    if divisor * divisor - 2 * divisor + 1 ≤ value then
      if value % (divisor - 1) = 0 then false
      else if value % (divisor + 1) = 0 then false
      else isPrimeLoop value fuel (divisor + 6)
    else true

/-- `_is_prime` (`utils.py:45-56`) for an odd value (the assertion of line 46).  The budget
`value` suffices: the divisor exceeds `sqrt value + 1` after that many rounds
(`isPrimeLoop_fuel` in `Lemmas/Primes.lean`). -/
def isPrime (value : Int) : Bool :=
  if value % 3 = 0 then false else isPrimeLoop value value.toNat 6

/-- The loop of `to_prior_prime` (`utils.py:32-33`); an odd `step` keeps the assertion of
`_is_prime` true. -/
def priorLoop : Nat → Int → Except Exc Int
  | 0, _ => throw .outOfFuel
  | fuel + 1, step => if isPrime step then pure step else priorLoop fuel (step - 2)

/-- `to_prior_prime` (`utils.py:29-34`). `(value & 1) - 1` is `-1` for even values.  The budget
`value` is never exhausted (`toPriorPrime_spec`). -/
def toPriorPrime (value : Int) : Except Exc Int :=
  if value > 2 then priorLoop value.toNat (value + (value % 2 - 1)) else throw .assertion

/-- The loop of `to_next_prime` (`utils.py:40-41`). -/
def nextLoop : Nat → Int → Except Exc Int
  | 0, _ => throw .outOfFuel
  | fuel + 1, step => if isPrime step then pure step else nextLoop fuel (step + 2)

/-- `to_next_prime` (`utils.py:37-42`); `value | 1` is `value + 1` for even values.  The budget
`value` is never exhausted (`toNextPrime_spec`, by Bertrand's postulate). -/
def toNextPrime (value : Int) : Except Exc Int :=
  if value > 2 then nextLoop value.toNat (value + (1 - value % 2)) else throw .assertion

/-- `pairwise` (`utils.py:65-73`). -/
def pairwise {α : Type} : List α → List (α × α)
  | a :: b :: l => (a, b) :: pairwise (b :: l)
  | _ => []

/-- `sort_pair` (`utils.py:83-89`) with the default `reverse=False`. -/
def sortPair {K : Type} [LinearOrder K] (a b : K) : K × K := if a < b then (a, b) else (b, a)

end HG
