import Verif.Spec.Shape

/-!
# The outline of a nested list
-/

namespace GB
variable {C E : Type}

/-- A line of an outline: how far it is indented, and a subtree with its number among its siblings and its cache, or an element with its cache. -/
inductive OutlineLine (C E : Type) where
  | sub (indent number : Nat) (cache : C)
  | elem (indent : Nat) (elem : E) (cache : C)

/-- The outline of a nested list of `n + 1` levels: under every subtree its own outline, one step further to the right. -/
def Shape.outline : (n indent : Nat) → Shape C E (n + 1) → List (OutlineLine C E)
  | 0, indent, cs => List.map (fun (x : C × E) => .elem indent x.2 x.1) cs
  | n + 1, indent, cs => List.flatMap (fun (x : (C × Shape C E (n + 1)) × Nat) => .sub indent x.2 x.1.1 :: Shape.outline n (indent + 1) x.1.2)
      (List.zipIdx cs)

end GB
