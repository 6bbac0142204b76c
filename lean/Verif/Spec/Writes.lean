import Verif.Model.Tree

/-!
# How many stored nodes an operation writes
-/

namespace GB
variable {E C : Type}

/-- At most `n` places of the two arenas (inner nodes and leaves) differ between `s` and `s'`; places that are filled or cleared
count. -/
def Writes (s s' : Tree E C) (n : Nat) : Prop :=
  ∃ X L : List Nat, X.length + L.length ≤ n ∧ (∀ x, x ∉ X → s'.inn.get x = s.inn.get x) ∧ (∀ l, l ∉ L → s'.lf.get l = s.lf.get l)

/-- Outside at most `n` places of the two arenas, a place of `s` is as it was or has been cleared. -/
def Touches (s s' : Tree E C) (n : Nat) : Prop :=
  ∃ X L : List Nat, X.length + L.length ≤ n ∧ (∀ x, x ∉ X → s'.inn.get x = s.inn.get x ∨ s'.inn.get x = none) ∧
    (∀ l, l ∉ L → s'.lf.get l = s.lf.get l ∨ s'.lf.get l = none)

end GB
