import Verif.Model.Ops

/-!
# Model of the iterators as values with a method `next`

`Model/Ops.lean` models `iter()` and `iter_range()` by the lists of everything they yield.  Here they are state machines, which a caller
may stop at any time and may ask again after the end.
-/

namespace GB
variable {E C D X S : Type}
open Tree

/-- `n` calls of `next` (src/iter.rs:304-320, the iterators of src/lib.rs:1581, 1722, 1741), with their answers. -/
def calls (next : S → M (Option X × S)) : Nat → S → M (List (Option X) × S)
  | 0, it => .ok ([], it)
  | n + 1, it => do
    let (r, it) ← next it
    let (rs, it) ← calls next n it
    pure (r :: rs, it)

/-- The variables `path` and `iter` captured by the closure of `BTree::iter` (src/lib.rs:1582-1587).  The path is deepest-first. -/
structure ElemIter (C : Type) where
  path : List PIdx
  rest : List (Child C)

/-- `BTree::iter` up to the closure (src/lib.rs:1581-1587). -/
def elemIter (s : Tree E C) : M (ElemIter C) := do
  let path := ((← firstPath s).getD []).tail
  let idx := (path.head?).getD ⟨.internal s.root, 0⟩
  let node ← s.getInIdx idx.arena
  pure ⟨path, node.children⟩

/-- The loop in the closure of `BTree::iter` (src/lib.rs:1588-1609).  When `next_sibling` answers `false` it has not written to the path
(src/lib.rs:2312-2336). -/
def elemNextF (s : Tree E C) : Nat → ElemIter C → M (Option E × ElemIter C)
  | 0, _ => .error .fuel
  | n + 1, it =>
    if it.path = [] then .ok (none, it)
    else
      match it.rest with
      | [] => do
        match ← nextSibling s it.path with
        | none => pure (none, it)
        | some path => do
          let idx ← unwrap path.head?
          let node ← s.getInIdx idx.arena
          elemNextF s n ⟨path, node.children⟩
      | c :: cs => do
        let l ← c.arena.unwrapLeaf
        let leaf ← s.getLf l
        pure (some leaf.elem, ⟨it.path, cs⟩)

/-- `next` of the iterator returned by `BTree::iter` (src/lib.rs:1581-1610). -/
def elemNext (s : Tree E C) : ElemIter C → M (Option E × ElemIter C) := elemNextF s (s.fuel + 1)

/-- `struct Iter` (src/iter.rs:7-12) without the reference to the tree; of `inclusive_end` only the last entry is used. -/
structure NodeIter where
  endLast : Option PIdx
  path : List PIdx
  done : Bool

/-- `Iter::next` (src/iter.rs:301-322). -/
def nodeNext (s : Tree E C) (it : NodeIter) : M (Option (List PIdx × LeafNode E) × NodeIter) :=
  if it.done then .ok (none, it)
  else do
    let done := decide (it.endLast = it.path.head?)
    let last ← unwrap it.path.head?
    let (path, done) ← (do
      match ← nextSibling s it.path with
      | some p => pure (p, done)
      | none => pure (it.path, true) : M (List PIdx × Bool))
    let l ← last.arena.unwrapLeaf
    let leaf ← s.getLf l
    pure (some (it.path, leaf), ⟨it.endLast, path, done⟩)

/-- `_iter_range` up to the `filter_map` (src/lib.rs:1742-1746; `Iter::new`, src/iter.rs:287-296). -/
def rangeIter (s : Tree E C) (start stop : Cursor) : M NodeIter := do
  let sp ← getPath s (.leaf start.leaf)
  let ep ← getPath s (.leaf stop.leaf)
  pure ⟨ep.head?, sp, false⟩

/-- The closure given to `filter_map` (src/lib.rs:1747-1767). -/
def rangeItem (start stop : Cursor) (incl : Bool) (path : List PIdx) (node : LeafNode E) : M (Option (ElemSlice E)) := do
  let last ← unwrap path.head?
  let leaf ← last.arena.unwrapLeaf
  if stop.leaf = leaf ∧ stop.offset = 0 ∧ incl = false then pure none
  else
    pure (some { cursor := ⟨leaf, 0⟩, elem := node.elem,
                 start := if start.leaf = leaf then some start.offset else none,
                 stop := if stop.leaf = leaf then some stop.offset else none })

/-- `next` of the `filter_map`: `Iter::next` is called until the closure answers `Some` or `Iter::next` answers `None`
(src/lib.rs:1747-1767). -/
def rangeNextF (s : Tree E C) (start stop : Cursor) (incl : Bool) : Nat → NodeIter → M (Option (ElemSlice E) × NodeIter)
  | 0, _ => .error .fuel
  | n + 1, it => do
    match ← nodeNext s it with
    | (none, it) => pure (none, it)
    | (some (path, node), it) => do
      match ← rangeItem start stop incl path node with
      | some x => pure (some x, it)
      | none => rangeNextF s start stop incl n it

/-- `next` of the iterator returned by `_iter_range` (src/lib.rs:1735-1768). -/
def rangeNext (s : Tree E C) (start stop : Cursor) (incl : Bool) : NodeIter → M (Option (ElemSlice E) × NodeIter) :=
  rangeNextF s start stop incl (leafFuel s + 1)

/-- The part of `BTree::iter_range` that reads the bounds (src/lib.rs:1723-1732): start, end, and whether the end is inclusive. -/
def rangeEnds (B : Trait E C D) (s : Tree E C) (a b : Bound) : M (Cursor × Cursor × Bool) := do
  let start ← (match a with
    | .included c => pure c
    | .excluded _ => .error .panic
    | .unbounded => do unwrap (← startCursor s) : M Cursor)
  let (incl, stop) ← (match b with
    | .included c => pure (true, c)
    | .excluded c => pure (false, c)
    | .unbounded => do
      let c ← unwrap (← endCursor B s)
      pure (true, c) : M (Bool × Cursor))
  pure (start, stop, incl)

end GB
