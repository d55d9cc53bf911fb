import Verif.Model.Basic

/-!
# Unfolding lemmas for the exception monad
-/

namespace HG

variable {α β : Type}

theorem exc_bind_ok {m : Except Exc α} {f : α → Except Exc β} {b : β} :
    (m >>= f) = .ok b ↔ ∃ a, m = .ok a ∧ f a = .ok b := by
  cases m <;> simp [Bind.bind, Except.bind]

theorem exc_bind_error {m : Except Exc α} {f : α → Except Exc β} {e : Exc} :
    (m >>= f) = .error e ↔ m = .error e ∨ ∃ a, m = .ok a ∧ f a = .error e := by
  cases m <;> simp [Bind.bind, Except.bind]

theorem exc_pure_ok {a b : α} : (pure a : Except Exc α) = .ok b ↔ a = b := by
  simp [pure, Except.pure]

theorem exc_pure_error {a : α} {e : Exc} : (pure a : Except Exc α) = .error e ↔ False := by
  simp [pure, Except.pure]

theorem exc_throw_ok {b : α} {e : Exc} : (throw e : Except Exc α) = .ok b ↔ False := by
  simp [throw, throwThe, MonadExceptOf.throw]

theorem exc_throw_error {e e' : Exc} : (throw e : Except Exc α) = .error e' ↔ e = e' := by
  simp [throw, throwThe, MonadExceptOf.throw]

end HG
