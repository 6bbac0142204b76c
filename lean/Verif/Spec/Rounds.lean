import Verif.Model.Basic

/-!
How many rounds a loop of the code takes.

A loop is modelled by a function `f` of the number of rounds it may take; `Err.fuel` says that the allowance ran out.
-/

namespace GB

/-- The loop `f` comes to its end (a result or a panic) within `k` rounds: it does so with an allowance of `k`, and a larger
allowance changes nothing. -/
def EndsWithin {α : Type} (f : Nat → M α) (k : Nat) : Prop :=
  f k ≠ .error .fuel ∧ ∀ n, k ≤ n → f n = f k

end GB
