import Verif.Model.Unwind
import Verif.Spec.Range
import Verif.Spec.Ranges

/-!
# Specification of closures that panic
-/

namespace GB
variable {E C D σ α Arg : Type}

/-- Run a closure that may panic over a list, left to right.  If it panics: the elements done before, the element it panicked at (as the closure left it), and those not reached. -/
def runUntil (f : σ → E → Except E (σ × E × Option D)) :
    σ → List (Nat × E) → Except (List (Nat × E) × (Nat × E) × List (Nat × E)) (σ × List (Nat × E))
  | st, [] => .ok (st, [])
  | st, (l, e) :: es =>
    match f st e with
    | .error e => .error ([], (l, e), es)
    | .ok (st, e, _) =>
      match runUntil f st es with
      | .error (done, at_, rest) => .error ((l, e) :: done, at_, rest)
      | .ok (st, es) => .ok (st, (l, e) :: es)

/-- `update a..b f` with a closure that may panic: the cuts stay, the elements before the panic are updated, nothing is removed.  The second result are the leaves that the closure was
called for. -/
def specUnwind (B : Trait E C D) (f : σ → E → Except E (σ × E × Option D)) (st : σ) (t : Seq E) (a b : Cursor) : M (Option (Seq E × List Nat)) := do
  let (L, R, n) ← specCut B t b
  let (X, S, n) ← specCut B ⟨n, L ++ R⟩ a
  match runUntil f st (S.take (S.length - R.length)) with
  | .ok _ => pure none
  | .error (done, at_, rest) => pure (some (⟨n, X ++ done ++ at_ :: rest ++ R⟩, done.map Prod.fst ++ [at_.1]))

/-- The element after the calls for the ranges, up to the first call that panics. -/
def stopAt (f : σ → E → Arg → Except E (σ × E)) : List (Nat × Nat × Arg) → σ → E → E
  | [], _, e => e
  | (_, _, arg) :: gs, st, e =>
    match f st e arg with
    | .error e => e
    | .ok (st, e) => stopAt f gs st e

/-- What `update_leaves_with_arg_in_ranges` leaves in a leaf if it is unwound: the piece before the first cut, after the calls for the ranges that start at 0.  If there is no cut, the whole element after
the calls up to the first range that is not the whole element (there an assertion fails). -/
def firstLeft (B : Trait E C D) (f : σ → E → Arg → Except E (σ × E)) (group : List (Nat × Nat × Arg)) (st : σ) (e : E) : M E :=
  match cutPoints (B.rleLen e) group with
  | [] => pure (stopAt f (group.takeWhile fun g => g.1 = 0 ∧ g.2.1 = B.rleLen e) st e)
  | first :: _ => do
    let (x, _) ← B.split e first
    pure (stopAt f (group.filter fun g => g.1 = 0) st x)

/-- forget what an unwound call leaves -/
def forget (x : M (Except (Tree E C) α)) : M α :=
  match x with
  | .ok (.ok a) => .ok a
  | .ok (.error _) => .error .panic
  | .error e => .error e

/-- a closure that may panic, for the functions that do not say what a panic leaves -/
def strict {β : Type} (x : Except E β) : M β :=
  match x with
  | .ok b => .ok b
  | .error _ => .error .panic

end GB
