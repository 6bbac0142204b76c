import Verif.Spec.Drain

/-!
# Specification of `update`
-/

namespace GB
variable {E C D σ : Type}

/-- Run a closure with state over a list, left to right. -/
def runOn (f : σ → E → M (σ × E × Option D)) : σ → List (Nat × E) → M (σ × List (Nat × E))
  | st, [] => pure (st, [])
  | st, (l, e) :: es => do
    let (st, e, _) ← f st e
    let (st, es) ← runOn f st es
    pure (st, (l, e) :: es)

/-- `update a..b f`: cut at `b`, then at `a`; replace the elements in the middle by the results of `f` and drop the removable ones. -/
def specUpdate (B : Trait E C D) (f : σ → E → M (σ × E × Option D)) (st : σ) (t : Seq E) (a b : Cursor) : M (σ × Seq E) := do
  let (L, R, n) ← specCut B t b
  let (X, S, n) ← specCut B ⟨n, L ++ R⟩ a
  let (st, Y) ← runOn f st (S.take (S.length - R.length))
  pure (st, ⟨n, X ++ Y.filter (fun x => !B.canRemove x.2) ++ R⟩)

end GB
