import Verif.Model.Ops

/-!
# Model of `iter_with_filter` (src/lib.rs:2650-2678) as an iterator

`iterWithFilter` (Verif.Model.Ops) runs the iterator to exhaustion with a closure that is a pure function.  Here the closure is an `FnMut`
with a state `σ`, and the iterator is advanced by single calls of `next`.
-/

namespace GB
variable {E C D R σ : Type}

/-- What the closure given to `from_fn` owns (src/lib.rs:2654-2656): the queue, and the filter with its state. -/
structure FilterIter (R σ : Type) where
  queue : List (Idx × R)
  st : σ

/-- the `for child in node.children` loop (src/lib.rs:2665-2671): the state of the filter, and what is pushed to the queue -/
def filterStChildren (add : R → R → R) (f : σ → C → σ × Bool × R) : σ → List (Child C) → R → σ × List (Idx × R)
  | st, [], _ => (st, [])
  | st, c :: cs, r =>
    let (st, drill, r') := f st c.cache
    let (st, rest) := filterStChildren add f st cs (add r r')
    (st, if drill then (c.arena, r) :: rest else rest)

/-- The `while let` loop (src/lib.rs:2657-2674) of one call of `next`. -/
def filterNextF (add : R → R → R) (f : σ → C → σ × Bool × R) (s : Tree E C) : Nat → FilterIter R σ → M (Option (R × E) × FilterIter R σ)
  | 0, _ => .error .fuel
  | _ + 1, ⟨[], st⟩ => .ok (none, ⟨[], st⟩)
  | _ + 1, ⟨(.leaf l, r) :: q, st⟩ => do
    let leaf ← s.getLf l
    pure (some (r, leaf.elem), ⟨q, st⟩)
  | n + 1, ⟨(.internal x, r) :: q, st⟩ => do
    let node ← s.getIn x
    let (st, new) := filterStChildren add f st node.children r
    filterNextF add f s n ⟨q ++ new, st⟩

/-- `iter_with_filter` before the first `next` (src/lib.rs:2654-2656) -/
def filterStart (zero : R) (s : Tree E C) (st : σ) : FilterIter R σ := ⟨[(.internal s.root, zero)], st⟩

/-- one call of `next` (src/lib.rs:2656-2677) -/
def filterNext (add : R → R → R) (f : σ → C → σ × Bool × R) (s : Tree E C) (it : FilterIter R σ) : M (Option (R × E) × FilterIter R σ) :=
  filterNextF add f s (leafFuel s) it

/-- `k` calls of `next` (src/lib.rs:2656-2677): what they return -/
def filterCalls (add : R → R → R) (f : σ → C → σ × Bool × R) (s : Tree E C) : Nat → FilterIter R σ → M (List (Option (R × E)) × FilterIter R σ)
  | 0, it => .ok ([], it)
  | k + 1, it => do
    let (x, it) ← filterNext add f s it
    let (xs, it) ← filterCalls add f s k it
    pure (x :: xs, it)

end GB
