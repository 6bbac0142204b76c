import Verif.Model.Search

/-!
# The documented contract of `slice::binary_search_by`
-/

namespace GB
variable {α : Type}

/-- the list is partitioned by the comparison: first the elements that are `Less`, then those that are `Equal`, then those that
are `Greater` -/
def Partitioned (cmp : α → Ordering) (l : List α) : Prop :=
  ∃ a b c, l = a ++ (b ++ c) ∧ (∀ x ∈ a, cmp x = .lt) ∧ (∀ x ∈ b, cmp x = .eq) ∧ ∀ x ∈ c, cmp x = .gt

/-- What the library promises for a partitioned slice, and nothing for others: "if the value is found then `Ok` is returned, containing the
index of the matching element; if there are multiple matches, then any one of the matches could be returned; if the value is not found then
`Err` is returned, containing the index where a matching element could be inserted while maintaining sorted order". -/
def SearchContract (search : SearchFn α) : Prop :=
  ∀ (f : α → M Ordering) (l : List α) (cmp : α → Ordering), (∀ x ∈ l, f x = .ok (cmp x)) → Partitioned cmp l →
    (∃ a x b, l = a ++ x :: b ∧ cmp x = .eq ∧ search f l = .ok (.inl a.length)) ∨
    (∃ a b, l = a ++ b ∧ (∀ x ∈ a, cmp x = .lt) ∧ (∀ x ∈ b, cmp x = .gt) ∧ search f l = .ok (.inr a.length))

end GB
