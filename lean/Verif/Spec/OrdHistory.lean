import Verif.Model.Ord
import Verif.Spec.Assoc

/-!
# Histories of an ordered map
-/

namespace GB
variable {K V : Type} [Ord K]

/-- the mutating operations of `OrdTreeMap` -/
inductive OrdOp (K V : Type) where
  | insert (k : K) (v : V)
  | delete (k : K)

/-- run one operation; the result is what `delete` returns (`none` for `insert`) -/
def OrdOp.run (m : OrdMap K V) : OrdOp K V → M (Option (K × V) × OrdMap K V)
  | .insert k v => do
    let m ← m.insert k v
    pure (none, m)
  | .delete k => m.delete k

/-- one operation on a sorted association list -/
def OrdOp.spec (l : List (K × V)) : OrdOp K V → Option (K × V) × List (K × V)
  | .insert k v => (none, asInsert k v l)
  | .delete k => (asFind k l, asDelete k l)

/-- run a history, collecting the results -/
def ordRun (m : OrdMap K V) : List (OrdOp K V) → M (List (Option (K × V)) × OrdMap K V)
  | [] => .ok ([], m)
  | o :: os => do
    let (r, m) ← o.run m
    let (rs, m) ← ordRun m os
    pure (r :: rs, m)

/-- a history on a sorted association list -/
def ordSpec (l : List (K × V)) : List (OrdOp K V) → List (Option (K × V)) × List (K × V)
  | [] => ([], l)
  | o :: os => ((o.spec l).1 :: (ordSpec (o.spec l).2 os).1, (ordSpec (o.spec l).2 os).2)

/-- the same history if a deletion takes the binding at or behind the place of its key, or the last one -/
def ordActual (l : List (K × V)) : List (OrdOp K V) → List (Option (K × V)) × List (K × V)
  | [] => ([], l)
  | .insert k v :: os => (none :: (ordActual (asInsert k v l) os).1, (ordActual (asInsert k v l) os).2)
  | .delete k :: os => ((asEvict k l).1 :: (ordActual (asEvict k l).2 os).1, (ordActual (asEvict k l).2 os).2)

/-- every deleted key is present when it is deleted, or the map is empty -/
def OrdOp.valid (l : List (K × V)) : OrdOp K V → Prop
  | .insert _ _ => True
  | .delete k => l = [] ∨ asFind k l ≠ none

/-- the same for a history -/
def ordValid (l : List (K × V)) : List (OrdOp K V) → Prop
  | [] => True
  | o :: os => o.valid l ∧ ordValid (o.spec l).2 os

end GB
