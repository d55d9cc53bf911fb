import Verif.Lemmas.Primes

/-!
# Grid sizes are primes (C33)
-/

namespace HG

/-- C33: from 5 on the search downwards terminates with the greatest prime not exceeding the
value. -/
theorem C33_prior_prime (v : ℤ) (hv : 5 ≤ v) :
    ∃ p : ℕ, toPriorPrime v = .ok (p : ℤ) ∧ IsGreatest {r : ℕ | r.Prime ∧ (r : ℤ) ≤ v} p := by
  obtain ⟨p, h1, h2, h3, _, h5⟩ := toPriorPrime_spec v hv
  exact ⟨p, h1, ⟨h2, h3⟩, fun r hr => h5 r hr.1 hr.2⟩

/-- C33: from 3 on the search upwards terminates with the least prime that is at least
`max value 5`. -/
theorem C33_next_prime (v : ℤ) (hv : 3 ≤ v) :
    ∃ p : ℕ, toNextPrime v = .ok (p : ℤ) ∧ IsLeast {r : ℕ | r.Prime ∧ max v 5 ≤ (r : ℤ)} p := by
  obtain ⟨p, h1, h2, h3, h4, _, h6⟩ := toNextPrime_spec v hv
  refine ⟨p, h1, ⟨h2, ?_⟩, fun r hr => h6 r hr.1 ?_ ?_⟩
  · exact max_le h3 (by exact_mod_cast h4)
  · exact le_trans (le_max_left _ _) hr.2
  · have := le_trans (le_max_right v 5) hr.2
    exact_mod_cast this

/-- C33: values below 3 are rejected by an assertion. -/
theorem C33_small (v : ℤ) (hv : v < 3) :
    toPriorPrime v = .error .assertion ∧ toNextPrime v = .error .assertion := by
  have : ¬ v > 2 := by omega
  simp [toPriorPrime, toNextPrime, this, throw, throwThe, MonadExceptOf.throw]

example : toPriorPrime 10 = .ok 7 ∧ toNextPrime 8 = .ok 11 := by decide

/-- The searches do not know the prime 3: the downward search returns the non-prime 1 for 3 and 4,
the upward search skips 3 (no call of the library passes less than 5 to the former). -/
theorem C33_three : toPriorPrime 3 = .ok 1 ∧ toPriorPrime 4 = .ok 1 ∧ toNextPrime 3 = .ok 5 := by
  decide

end HG
