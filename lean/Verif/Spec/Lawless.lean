import Verif.Model.Search
import Verif.Spec.OrdHistory

/-!
# What an ordered map does when the comparison obeys no law

Nothing is assumed of the comparison, and it may be a different one in every call.
-/

namespace GB
variable {K V : Type}

/-- A search that only keeps its results inside the list: what `binary_search_by` still does when the list is not sorted with respect
to the comparison. -/
def SearchInRange {α : Type} (search : SearchFn α) : Prop :=
  ∀ (f : α → M Ordering) (l : List α), (∀ x ∈ l, ∃ o, f x = .ok o) →
    (∃ i, search f l = .ok (.inl i) ∧ i < l.length) ∨ (∃ i, search f l = .ok (.inr i) ∧ i ≤ l.length)

/-- one operation on the list of pairs, with the comparison `cmp`: what it may return and leave behind -/
def LawlessStep (cmp : K → K → Ordering) (l : List (K × V)) (r : Option (K × V)) (l' : List (K × V)) : OrdOp K V → Prop
  | .insert k v =>
    r = none ∧
      ((l = [] ∧ l' = [(k, v)]) ∨
       -- next to some pair: behind a smaller key, in front of any other
       (∃ a e b, l = a ++ e :: b ∧ cmp k e.1 = .gt ∧ l' = a ++ e :: (k, v) :: b) ∨
       (∃ a e b, l = a ++ e :: b ∧ cmp k e.1 ≠ .gt ∧ l' = a ++ (k, v) :: e :: b) ∨
       -- or in place of the value of a key that is called equal
       (∃ a e b, l = a ++ e :: b ∧ cmp k e.1 = .eq ∧ l' = a ++ (e.1, v) :: b))
  | .delete _ => (l = [] ∧ r = none ∧ l' = []) ∨ ∃ a e b, l = a ++ e :: b ∧ r = some e ∧ l' = a ++ b

/-- a history in which each operation has its own comparison -/
def LawlessRun (l : List (K × V)) : List ((K → K → Ordering) × OrdOp K V) → List (Option (K × V)) → List (K × V) → Prop
  | [], rs, l' => rs = [] ∧ l' = l
  | (c, o) :: os, rs, l' => ∃ r rs' l1, rs = r :: rs' ∧ LawlessStep c l r l1 o ∧ LawlessRun l1 os rs' l'

/-- the pairs a history inserts -/
def insertedPairs : List ((K → K → Ordering) × OrdOp K V) → List (K × V)
  | [] => []
  | (_, .insert k v) :: os => (k, v) :: insertedPairs os
  | (_, .delete _) :: os => insertedPairs os

/-- run a history of `OrdTreeMap::insert` and `OrdTreeMap::delete` (src/generic_impl/ord.rs:33-87) in which each call sees its own
comparison of keys and its own `binary_search_by` -/
def lawlessRun (m : OrdMap K V) : List ((K → K → Ordering) × SearchFn (Child (OrdCache K)) × OrdOp K V) → M (List (Option (K × V)) × OrdMap K V)
  | [] => .ok ([], m)
  | (c, se, o) :: os => do
    let (r, m) ← @OrdOp.runWith K V ⟨c⟩ se m o
    let (rs, m) ← lawlessRun m os
    pure (r :: rs, m)

end GB
