import Verif.Model.Basic

/-!
# Hypothesis strategies

A strategy is modelled by what can be observed of it: the set of values a draw can produce and
the set of exceptions a draw can end with.  Probabilities, shrinking and the retry limits of
`filter` are not modelled.  The monad structure is that of `flatmap`/`@st.composite`.
-/

namespace HG

/-- Model of `hypothesis.strategies.SearchStrategy`. -/
@[ext] structure Strategy (α : Type) where
  /-- the values that can be drawn -/
  val : α → Prop
  /-- the exceptions a draw can raise -/
  err : Exc → Prop

namespace Strategy

variable {α β γ : Type}

/-- `st.just`. -/
def just (a : α) : Strategy α := ⟨fun b => b = a, fun _ => False⟩

/-- a draw that raises -/
def fail (e : Exc) : Strategy α := ⟨fun _ => False, fun e' => e' = e⟩

/-- `.flatmap`, and `draw` inside `@st.composite` functions. -/
def bind (s : Strategy α) (f : α → Strategy β) : Strategy β :=
  ⟨fun b => ∃ a, s.val a ∧ (f a).val b, fun e => s.err e ∨ ∃ a, s.val a ∧ (f a).err e⟩

instance : Monad Strategy where
  pure := just
  bind := bind

/-- The result of a Python call that may raise, as a strategy step. -/
def ofExcept : Except Exc α → Strategy α
  | .ok a => just a
  | .error e => fail e

/-- `.map` / `st.builds` with a function that may raise. -/
def mapE (s : Strategy α) (f : α → Except Exc β) : Strategy β := s.bind fun a => ofExcept (f a)

/-- `.map` with a total function. -/
def map (s : Strategy α) (f : α → β) : Strategy β :=
  ⟨fun b => ∃ a, s.val a ∧ b = f a, s.err⟩

/-- `.filter`: keeps the values passing the test. -/
def filter (s : Strategy α) (p : α → Bool) : Strategy α :=
  ⟨fun a => s.val a ∧ p a = true, s.err⟩

/-- `.filter` with a test that may raise. -/
def filterE (s : Strategy α) (p : α → Except Exc Bool) : Strategy α :=
  ⟨fun a => s.val a ∧ p a = .ok true, fun e => s.err e ∨ ∃ a, s.val a ∧ p a = .error e⟩

/-- `left | right` (`st.one_of`). -/
def union (s t : Strategy α) : Strategy α :=
  ⟨fun a => s.val a ∨ t.val a, fun e => s.err e ∨ t.err e⟩

instance : OrOp (Strategy α) := ⟨union⟩

/-- `st.tuples(s, t)`. -/
def prod (s : Strategy α) (t : Strategy β) : Strategy (α × β) :=
  ⟨fun p => s.val p.1 ∧ t.val p.2, fun e => s.err e ∨ ((∃ a, s.val a) ∧ t.err e)⟩

/-- `st.tuples(*strategies)` for a list of strategies of the same type. -/
def sequence : List (Strategy α) → Strategy (List α)
  | [] => just []
  | s :: ss => s.bind fun a => (sequence ss).map (a :: ·)

/-- `st.integers(lo, hi)`: `InvalidArgument` for an empty range. -/
def integers (lo hi : Int) : Strategy Int :=
  ⟨fun n => lo ≤ n ∧ n ≤ hi, fun e => hi < lo ∧ e = .invalidArgument⟩

/-- `st.integers(lo)`. -/
def integersFrom (lo : Int) : Strategy Int := ⟨fun n => lo ≤ n, fun _ => False⟩

/-- `st.sampled_from(values)`: `InvalidArgument` for an empty sequence. -/
def sampledFrom (l : List α) : Strategy α :=
  ⟨fun a => a ∈ l, fun e => l = [] ∧ e = .invalidArgument⟩

/-- `st.permutations(values)`. -/
def permutations (l : List α) : Strategy (List α) := ⟨fun l' => l'.Perm l, fun _ => False⟩

/-- Upper bound test of an optional bound. -/
def leOpt (n : Int) : Option Int → Prop
  | none => True
  | some m => n ≤ m

/-- `st.lists(s, min_size=lo, max_size=hi)`. -/
def lists (s : Strategy α) (lo : Int) (hi : Option Int) : Strategy (List α) :=
  ⟨fun l => (∀ a ∈ l, s.val a) ∧ lo ≤ l.length ∧ leOpt l.length hi,
   fun e => s.err e ∨ (¬ leOpt lo hi ∧ e = .invalidArgument)⟩

/-- `st.lists(s, min_size=lo, max_size=hi, unique=True)`: fails when `s` has fewer than `lo`
different values. -/
def uniqueLists (s : Strategy α) (lo : Int) (hi : Option Int) : Strategy (List α) :=
  ⟨fun l => (∀ a ∈ l, s.val a) ∧ l.Nodup ∧ lo ≤ l.length ∧ leOpt l.length hi,
   fun e => s.err e ∨ (¬ leOpt lo hi ∧ e = .invalidArgument) ∨
     ((¬ ∃ l : List α, (∀ a ∈ l, s.val a) ∧ l.Nodup ∧ lo ≤ l.length) ∧ e = .unsatisfiable)⟩

/-- any value of a type (arbitrary random bits, choices) without errors -/
def anything : Strategy α := ⟨fun _ => True, fun _ => False⟩

end Strategy
end HG
