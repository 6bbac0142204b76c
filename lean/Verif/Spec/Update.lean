import Verif.Spec.Seq

/-!
# Specification of in-place updates
-/

namespace GB
variable {E C D : Type}

/-- what is left of the results of the closure of `update_leaf`: the elements that are not removable, in order -/
def survivors (B : Trait E C D) (e : E) (n1 n2 : Option E) : List E :=
  (e :: n1.toList ++ n2.toList).filter fun x => !B.canRemove x

/-- the outcome of `update_leaf` on a leaf between `U` and `V` with surviving results `surv` -/
inductive UpdRel (B : Trait E C D) (next l : Nat) (U V : List (Nat × E)) : List E → Bool → List Nat → Nat → List (Nat × E) → Prop
  | gone : UpdRel B next l U V [] false [] next (U ++ V)
  | one (x : E) : UpdRel B next l U V [x] true [] next (U ++ (l, x) :: V)
  | two (x a : E) : UpdRel B next l U V [x, a] true [next] (next + 1) (U ++ (l, x) :: (next, a) :: V)
  | three (x a b : E) : UpdRel B next l U V [x, a, b] true [next, next + 1] (next + 2)
      (U ++ (l, x) :: (next, a) :: (next + 1, b) :: V)
  | merged (x a : E) (k : Nat) (z z' : E) (V' : List (Nat × E)) : V = (k, z) :: V' → B.canMerge a z = true → B.mergeLeft z a = .ok z' →
      UpdRel B next l U V [x, a] true [k] next (U ++ (l, x) :: (k, z') :: V')

/-- what the closure of `update_leaf_by_search` leaves of the element: nothing if the new value is removable -/
def searchResults (B : Trait E C D) (e1 : E) (n1 : Option E) : List E := if B.canRemove e1 then [] else e1 :: n1.toList

/-- the outcome of `update_leaf_by_search` at offset `o` of a leaf between `U` and `V` with results `res` -/
inductive SearchRel (next : Nat) (cur : Cursor) (U V : List (Nat × E)) : List E → Option Cursor → List Nat → Nat → List (Nat × E) → Prop
  | gone : SearchRel next cur U V [] none [] next (U ++ V)
  | one (x : E) : SearchRel next cur U V [x] (some cur) [] next (U ++ (cur.leaf, x) :: V)
  | two (x a : E) : SearchRel next cur U V [x, a] (some cur) [next] (next + 1) (U ++ (cur.leaf, x) :: (next, a) :: V)

end GB
