/-!
# Tables of how often a number occurs
-/

namespace GB

/-- `m` is a table of how often each number occurs in `l`: one row for every number that occurs. -/
structure Tally (l : List Nat) (m : List (Nat × Nat)) : Prop where
  keys : (m.map Prod.fst).Nodup
  rows : ∀ k n, (k, n) ∈ m ↔ 0 < n ∧ n = l.count k

end GB
