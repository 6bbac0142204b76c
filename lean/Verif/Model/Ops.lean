import Verif.Model.Tree

/-!
# Model of `src/lib.rs`, part 2: paths, traversals, bulk operations, update operations, `check`
-/

namespace GB
variable {E C D Q F A R σ : Type}
open Tree

/-! ## Paths -/

/-- `struct Idx` (src/lib.rs:108-118): an arena index with its slot in the parent. -/
structure PIdx where
  arena : Idx
  arr : Nat
deriving DecidableEq, Repr

/-- Capacity of `type NodePath = HeaplessVec<Idx, 10>` (src/lib.rs:120). -/
def PATHCAP : Nat := 10

/-- `path.push(i).unwrap()` on a `NodePath` (src/lib.rs:120; for example 1631, 1658).  Paths are kept *deepest entry first*. -/
def pathPush (p : List PIdx) (i : PIdx) : M (List PIdx) :=
  if p.length < PATHCAP then .ok (i :: p) else .error .panic

/-- The same push on a path under construction from the bottom (`get_path` reverses it at the end,
src/lib.rs:2462): the new entry becomes the last of the deepest-first list. -/
def pathPushTop (p : List PIdx) (i : PIdx) : M (List PIdx) :=
  if p.length < PATHCAP then .ok (p ++ [i]) else .error .panic

/-- Loop of `BTree::get_path`, internal nodes (src/lib.rs:2445-2464). -/
def getPathF : Nat → Tree E C → Nat → List PIdx → M (List PIdx)
  | 0, _, _, _ => .error .fuel
  | n + 1, s, x, acc =>
    if x = s.root then pathPushTop acc ⟨.internal s.root, 0⟩
    else do
      let node ← s.getIn x
      let acc ← pathPushTop acc ⟨.internal x, node.slot⟩
      let p ← unwrap node.parent
      getPathF n s p acc

/-- `BTree::get_path` (src/lib.rs:2442-2464). -/
def getPath (s : Tree E C) (idx : Idx) : M (List PIdx) :=
  match idx with
  | .leaf l => do
    let leaf ← s.getLf l
    let par ← s.getIn leaf.parent
    let i ← getLeafSlot par.children l
    let acc ← pathPushTop [] ⟨.leaf l, i⟩
    getPathF s.fuel s leaf.parent acc
  | .internal x => getPathF s.fuel s x []

/-- `BTree::next_sibling` (src/lib.rs:2312-2336); `none` is the result `false`. -/
def nextSibling (s : Tree E C) : List PIdx → M (Option (List PIdx))
  | [] => .ok none
  | [_] => .ok none
  | this :: parent :: rest => do
    let par ← s.getInIdx parent.arena
    match par.children[this.arr + 1]? with
    | some next => pure (some (⟨next.arena, this.arr + 1⟩ :: parent :: rest))
    | none => do
      match ← nextSibling s (parent :: rest) with
      | none => pure none
      | some [] => .error .panic
      | some (p' :: rest') => do
        let par' ← s.getInIdx p'.arena
        let c ← vget par'.children 0
        pure (some (⟨c.arena, 0⟩ :: p' :: rest'))

/-- Loop of `BTree::first_path` (src/lib.rs:1630-1643). -/
def firstPathF : Nat → Tree E C → Idx → List PIdx → M (List PIdx)
  | 0, _, _, _ => .error .fuel
  | n + 1, s, idx, acc => do
    let acc ← pathPush acc ⟨idx, 0⟩
    match idx with
    | .leaf _ => pure acc
    | .internal x => do
      let node ← s.getIn x
      let c ← vget node.children 0
      firstPathF n s c.arena acc

/-- `BTree::first_path` (src/lib.rs:1622-1646). -/
def firstPath (s : Tree E C) : M (Option (List PIdx)) := do
  if ← isEmpty s then pure none
  else do
    let p ← firstPathF (s.fuel + 1) s (.internal s.root) []
    pure (some p)

/-- Loop of `BTree::last_path` (src/lib.rs:1657-1671). -/
def lastPathF : Nat → Tree E C → Idx → Nat → List PIdx → M (List PIdx)
  | 0, _, _, _, _ => .error .fuel
  | n + 1, s, idx, pos, acc => do
    let acc ← pathPush acc ⟨idx, pos⟩
    match idx with
    | .leaf _ => pure acc
    | .internal x => do
      let node ← s.getIn x
      let c ← vget node.children (node.children.length - 1)
      lastPathF n s c.arena (node.children.length - 1) acc

/-- `BTree::last_path` (src/lib.rs:1648-1674). -/
def lastPath (s : Tree E C) : M (Option (List PIdx)) := do
  if ← isEmpty s then pure none
  else do
    let p ← lastPathF (s.fuel + 1) s (.internal s.root) 0 []
    pure (some p)

/-! ## Iteration -/

/-- the elements behind a list of leaf children (src/lib.rs:1604-1607) -/
def leafElems (s : Tree E C) : List (Child C) → M (List E)
  | [] => .ok []
  | c :: cs => do
    let l ← c.arena.unwrapLeaf
    let leaf ← s.getLf l
    let es ← leafElems s cs
    pure (leaf.elem :: es)

/-- The `from_fn` loop of `BTree::iter` (src/lib.rs:1588-1609), run to exhaustion.
Simplification: the lazy iterator is modelled by the list of all items it yields; `Model/LazyIter.lean` has it call by call. -/
def iterF : Nat → Tree E C → List PIdx → M (List E)
  | 0, _, _ => .error .fuel
  | _ + 1, _, [] => .ok []
  | n + 1, s, i :: path => do
    let node ← s.getInIdx i.arena
    let es ← leafElems s node.children
    match ← nextSibling s (i :: path) with
    | none => pure es
    | some p' => do
      let rest ← iterF n s p'
      pure (es ++ rest)

/-- `BTree::iter` (src/lib.rs:1581-1610). -/
def iter (s : Tree E C) : M (List E) := do
  let path := (← firstPath s).getD []
  iterF s.fuel s path.tail

/-- Number of iterations that suffices for a loop over all leaves (a loop bound of the model; src/lib.rs:1747-1767 and
src/iter.rs:304-320 have none). -/
def leafFuel (s : Tree E C) : Nat := s.inn.items.length + s.lf.items.length + 2

/-- `iter::Iter::next` (src/iter.rs:301-322), run to exhaustion: list of `(path, leaf)`. -/
def iterNodesF : Nat → Tree E C → Option PIdx → List PIdx → M (List (List PIdx × LeafNode E))
  | 0, _, _, _ => .error .fuel
  | n + 1, s, endLast, path => do
    let done := decide (endLast = path.head?)
    let last ← unwrap path.head?
    let next ← nextSibling s path
    let l ← last.arena.unwrapLeaf
    let leaf ← s.getLf l
    match done, next with
    | false, some p' => do
      let rest ← iterNodesF n s endLast p'
      pure ((path, leaf) :: rest)
    | _, _ => pure [(path, leaf)]

/-- `struct ElemSlice` (src/lib.rs:190-200). -/
structure ElemSlice (E : Type) where
  cursor : Cursor
  elem : E
  start : Option Nat
  stop : Option Nat

/-- The `filter_map` of `_iter_range` (src/lib.rs:1747-1767). -/
def rangeSlices (start stop : Cursor) (incl : Bool) :
    List (List PIdx × LeafNode E) → M (List (ElemSlice E))
  | [] => .ok []
  | (path, node) :: rest => do
    let last ← unwrap path.head?
    let leaf ← last.arena.unwrapLeaf
    let tl ← rangeSlices start stop incl rest
    if stop.leaf = leaf ∧ stop.offset = 0 ∧ incl = false then pure tl
    else
      pure ({ cursor := ⟨leaf, 0⟩, elem := node.elem,
              start := if start.leaf = leaf then some start.offset else none,
              stop := if stop.leaf = leaf then some stop.offset else none } :: tl)

/-- `BTree::_iter_range` (src/lib.rs:1736-1768). -/
def iterRangeCore (s : Tree E C) (start stop : Cursor) (incl : Bool) : M (List (ElemSlice E)) := do
  let sp ← getPath s (.leaf start.leaf)
  let ep ← getPath s (.leaf stop.leaf)
  let ns ← iterNodesF (leafFuel s) s ep.head? sp
  rangeSlices start stop incl ns

/-- `BTree::start_cursor` (src/lib.rs:1770-1775). -/
def startCursor (s : Tree E C) : M (Option Cursor) := do
  match ← firstLeaf s with
  | none => pure none
  | some l => pure (some ⟨l, 0⟩)

/-- `BTree::end_cursor` (src/lib.rs:1777-1784). -/
def endCursor (B : Trait E C D) (s : Tree E C) : M (Option Cursor) := do
  match ← lastLeaf s with
  | none => pure none
  | some l => do
    let leaf ← s.getLf l
    pure (some ⟨l, B.rleLen leaf.elem⟩)

/-- A bound of `impl RangeBounds<Cursor>` (src/lib.rs:1721). -/
inductive Bound
  | included (c : Cursor)
  | excluded (c : Cursor)
  | unbounded

/-- `BTree::iter_range` (src/lib.rs:1719-1734). -/
def iterRange (B : Trait E C D) (s : Tree E C) (a b : Bound) : M (List (ElemSlice E)) := do
  let start ← (match a with
    | .included c => pure c
    | .excluded _ => .error .panic
    | .unbounded => do unwrap (← startCursor s) : M Cursor)
  let (incl, stop) ← (match b with
    | .included c => pure (true, c)
    | .excluded c => pure (false, c)
    | .unbounded => do
      let c ← unwrap (← endCursor B s)
      pure (true, c) : M (Bool × Cursor))
  iterRangeCore s start stop incl

/-- Loop of `BTree::depth` (src/lib.rs:2713-2722). -/
def depthF : Nat → Tree E C → Nat → Nat → M Nat
  | 0, _, _, _ => .error .fuel
  | n + 1, s, x, d => do
    let node ← s.getIn x
    let c ← unwrap node.children.head?
    match c.arena with
    | .leaf _ => pure (d + 1)
    | .internal y => depthF n s y (d + 1)

/-- `BTree::depth` (src/lib.rs:2709-2723). -/
def depth (s : Tree E C) : M Nat := depthF s.fuel s s.root 0

/-- `BTree::internal_avg_children_num` (src/lib.rs:2725-2731): the numerator and the denominator.  The final division of
`f64`s is not modelled. -/
def internalAvgChildrenNum (s : Tree E C) : Nat × Nat :=
  ((s.inn.items.filterMap id).foldl (fun sum n => sum + n.children.length) 0, s.inn.len)

/-! ## Cursor arithmetic -/

/-- `BTree::prefer_right` (src/lib.rs:1064-1075). -/
def preferRight (B : Trait E C D) (s : Tree E C) (c : Cursor) : M (Option Cursor) :=
  if c.offset = 0 then .ok (some c)
  else do
    let leaf ← s.getLf c.leaf
    if c.offset = B.rleLen leaf.elem then nextElem s c else pure (some c)

/-- `BTree::prefer_left` (src/lib.rs:1082-1097). -/
def preferLeft (B : Trait E C D) (s : Tree E C) (c : Cursor) : M (Option Cursor) :=
  if c.offset ≠ 0 then .ok (some c)
  else do
    match ← prevElem s c with
    | some e => do
      let leaf ← s.getLf e.leaf
      pure (some ⟨e.leaf, B.rleLen leaf.elem⟩)
    | none => pure none

/-- Loop of `BTree::shift_path_by_one_offset` (src/lib.rs:835-857). -/
def shiftF (B : Trait E C D) : Nat → Tree E C → Nat → Nat → Nat → M (Option Cursor)
  | 0, _, _, _, _ => .error .fuel
  | n + 1, s, p, slot, offset => do
    let par ← s.getIn p
    if slot = par.children.length then do
      match ← nextSameLevelIn s.fuel s p with
      | none => pure none
      | some nx => do
        let p' ← nx.unwrapInternal
        let par' ← s.getIn p'
        -- `elem_slot_index = 0; path.offset = 0;` then the rest of the loop body
        let c ← vget par'.children 0
        let leaf ← s.getLf c.arena.raw
        if B.rleLen leaf.elem ≤ 0 then shiftF B n s p' 1 (0 - B.rleLen leaf.elem)
        else do
          let l ← c.arena.unwrapLeaf
          pure (some ⟨l, 0⟩)
    else do
      let c ← vget par.children slot
      let leaf ← s.getLf c.arena.raw
      if B.rleLen leaf.elem ≤ offset then shiftF B n s p (slot + 1) (offset - B.rleLen leaf.elem)
      else do
        let l ← c.arena.unwrapLeaf
        pure (some ⟨l, offset⟩)

/-- `BTree::shift_path_by_one_offset` (src/lib.rs:821-860). -/
def shiftByOne (B : Trait E C D) (s : Tree E C) (c : Cursor) : M (Option Cursor) := do
  let leaf ← s.getLf c.leaf
  if c.offset + 1 < B.rleLen leaf.elem then pure (some ⟨c.leaf, c.offset + 1⟩)
  else do
    let par ← s.getIn leaf.parent
    let slot ← getLeafSlot par.children c.leaf
    shiftF B (leafFuel s) s leaf.parent slot (c.offset + 1)

/-- The `for` loop of `compare_pos` over the common parent (src/lib.rs:2574-2581). -/
def cmpInParent (a b : Nat) : List (Child C) → Option Ordering
  | [] => none
  | c :: cs =>
    if c.arena.raw = a then some .lt
    else if c.arena.raw = b then some .gt
    else cmpInParent a b cs

/-- The `while` loop of `compare_pos` (src/lib.rs:2585-2590). -/
def cmpClimb : Nat → Tree E C → Node C → Node C → M Ordering
  | 0, _, _, _ => .error .fuel
  | n + 1, s, a, b =>
    if a.parent ≠ b.parent then do
      let pa ← unwrap a.parent
      let a' ← s.getIn pa
      let pb ← unwrap b.parent
      let b' ← s.getIn pb
      cmpClimb n s a' b'
    else .ok (compare a.slot b.slot)

/-- `BTree::compare_pos` (src/lib.rs:2565-2591). -/
def comparePos (s : Tree E C) (a b : Cursor) : M Ordering :=
  if a.leaf = b.leaf then .ok (compare a.offset b.offset)
  else do
    let la ← s.getLf a.leaf
    let lb ← s.getLf b.leaf
    let na ← s.getIn la.parent
    match (if la.parent = lb.parent then cmpInParent a.leaf b.leaf na.children else none) with
    | some o => pure o
    | none => do
      let nb ← s.getIn lb.parent
      cmpClimb s.fuel s na nb

/-- `children[0..k]` visited one by one (src/lib.rs:2622-2625). -/
def cachesUpTo (cs : List (Child C)) : Nat → Nat → M (List C)
  | _, 0 => .ok []
  | i, k + 1 => do
    let c ← vget cs i
    let rest ← cachesUpTo cs (i + 1) k
    pure (c.cache :: rest)

/-- The loop of `visit_previous_caches` (src/lib.rs:2604-2626) along a root-first path. -/
def visitPath (s : Tree E C) : List PIdx → M (List C)
  | [] => .ok []
  | [_] => .ok []
  | p :: q :: rest => do
    let node ← s.getInIdx p.arena
    let cs ← cachesUpTo node.children 0 q.arr
    let tl ← visitPath s (q :: rest)
    pure (cs ++ tl)

/-- `BTree::visit_previous_caches` (src/lib.rs:2598-2633): the caches passed as
`PreviousCache::NodeCache`, in order, and the final `ThisElemAndOffset`. -/
def visitPrevCaches (s : Tree E C) (c : Cursor) : M (List C × (E × Nat)) := do
  let path ← getPath s (.leaf c.leaf)
  let cs ← visitPath s path.reverse
  let leaf ← s.getLf c.leaf
  pure (cs, (leaf.elem, c.offset))

/-! ## Filters -/

/-- the `for child in node.children` loop of `iter_with_filter` (src/lib.rs:2665-2671) -/
def filterChildren (add : R → R → R) (f : C → Bool × R) : List (Child C) → R → List (Idx × R)
  | [], _ => []
  | c :: cs, r =>
    let (drill, r') := f c.cache
    let rest := filterChildren add f cs (add r r')
    if drill then (c.arena, r) :: rest else rest

/-- The queue loop of `iter_with_filter` (src/lib.rs:2657-2674) run to exhaustion.
Simplification: the closure is a pure function; `Model/FilterIter.lean` has the loop call by call with a closure that has a state. -/
def filterF (add : R → R → R) (f : C → Bool × R) : Nat → Tree E C → List (Idx × R) → M (List (R × E))
  | 0, _, _ => .error .fuel
  | _ + 1, _, [] => .ok []
  | n + 1, s, (.leaf l, r) :: q => do
    let leaf ← s.getLf l
    let rest ← filterF add f n s q
    pure ((r, leaf.elem) :: rest)
  | n + 1, s, (.internal x, r) :: q => do
    let node ← s.getIn x
    filterF add f n s (q ++ filterChildren add f node.children r)

/-- `BTree::iter_with_filter` (src/lib.rs:2650-2678); `zero`, `add` are `R::default()` and `+=`. -/
def iterWithFilter (zero : R) (add : R → R → R) (f : C → Bool × R) (s : Tree E C) : M (List (R × E)) :=
  filterF add f (leafFuel s) s [(.internal s.root, zero)]

/-- the `for child in node.children.iter_mut()` loop (src/lib.rs:2699-2703): the updated children and
the arenas pushed on the stack, in order; `σ` is the state of the `FnMut` closure -/
def filterMutChildren (f : σ → C → σ × C × Bool) : σ → List (Child C) → σ × List (Child C) × List Idx
  | st, [] => (st, [], [])
  | st, c :: cs =>
    let (st, c', drill) := f st c.cache
    let (st, cs', push) := filterMutChildren f st cs
    (st, { c with cache := c' } :: cs', if drill then c.arena :: push else push)

/-- The stack loop of `update_cache_and_elem_with_filter` (src/lib.rs:2691-2706); the two closures
share the threaded state `σ`. -/
def filterMutF (f : σ → C → σ × C × Bool) (g : σ → E → σ × E) : Nat → σ → Tree E C → List Idx → M (σ × Tree E C)
  | 0, _, _, _ => .error .fuel
  | _ + 1, st, s, [] => .ok (st, s)
  | n + 1, st, s, .leaf l :: stack => do
    let leaf ← s.getLf l
    let (st, e) := g st leaf.elem
    filterMutF f g n st (s.setLf l { leaf with elem := e }) stack
  | n + 1, st, s, .internal x :: stack => do
    let node ← s.getIn x
    let (st, cs, push) := filterMutChildren f st node.children
    filterMutF f g n st (s.setIn x { node with children := cs }) (push.reverse ++ stack)

/-- `BTree::update_cache_and_elem_with_filter` (src/lib.rs:2685-2707). -/
def updateCacheAndElemWithFilter (f : σ → C → σ × C × Bool) (g : σ → E → σ × E) (st : σ)
    (s : Tree E C) : M (σ × Tree E C) :=
  filterMutF f g (leafFuel s) st s [.internal s.root]

/-! ## Batched insertion -/

/-- `slice::swap` (src/lib.rs:2748). -/
def vswap {α : Type} (l : List α) (i j : Nat) : M (List α) := do
  let a ← vget l i
  let b ← vget l j
  pure ((l.set i b).set j a)

/-- The `while` loop of `merge_adj` (src/lib.rs:2740-2753); returns the vector, `to_delete_start`
and `del_len`. -/
def mergeAdjF (B : Trait E C D) (last : Nat) : Nat → List E → Nat → Nat → Nat → M (List E × Nat × Nat)
  | 0, _, _, _, _ => .error .fuel
  | n + 1, data, i, start, dl =>
    if i < last then do
      let a ← vget data i
      let b ← vget data (i + 1)
      if B.canMerge a b then do
        let a' ← B.mergeRight a b
        let data := data.set i a'
        let start := if dl = 0 then i + 1 else start
        let data ← vswap data (i + 1) (start + dl)
        mergeAdjF B last n data (i + 2) start (dl + 1)
      else mergeAdjF B last n data (i + 1) start dl
    else .ok (data, start, dl)

/-- `merge_adj` (src/lib.rs:2734-2758). -/
def mergeAdj (B : Trait E C D) (data : List E) : M (List E) := do
  assertM (decide (0 < data.length))
  let (data, start, dl) ← mergeAdjF B (data.length - 1) (data.length + 1) data 0 0 0
  if 0 < dl then delRange data start (start + dl) else pure data

/-- `l[i] = x` (panics out of bounds; heapless and std vectors alike; src/lib.rs:783, 803). -/
def vset {α : Type} (l : List α) (i : Nat) (x : α) : M (List α) :=
  if i < l.length then .ok (l.set i x) else .error .panic

/-- The inner loop of `create_subtrees_from_elem` (src/lib.rs:766-784). -/
def subtreeLeaves (B : Trait E C D) : Tree E C → Nat → List E → Nat → M (Tree E C)
  | s, _, [], _ => .ok s
  | s, p, e :: es, i => do
    let (child, s) := allocLeafChild B s e p
    let node ← s.getIn p
    let cs ← vset node.children i child
    subtreeLeaves B (s.setIn p { node with children := cs }) p es (i + 1)

/-- `BTree::create_subtrees_from_elem`, first loop (src/lib.rs:757-785), one chunk of at most 12
elements per round. -/
def subtreeParents (B : Trait E C D) : Nat → Tree E C → List E → M (List Nat × Tree E C)
  | 0, _, _ => .error .fuel
  | _ + 1, s, [] => .ok ([], s)
  | n + 1, s, data => do
    let (p, inn) := s.inn.insert ⟨none, 0, []⟩
    let s ← subtreeLeaves B { s with inn := inn } p (data.take MAXC) 0
    let (ps, s) ← subtreeParents B n s (data.drop MAXC)
    pure (p :: ps, s)

/-- The inner loop of the level loop of `create_subtrees_from_elem` (src/lib.rs:797-809). -/
def subtreeLink (B : Trait E C D) : Tree E C → Nat → List Nat → Nat → M (Tree E C)
  | s, _, [], _ => .ok s
  | s, p, y :: ys, i => do
    let par ← s.getIn p
    let child ← s.getIn y
    let (c, _) ← B.calcC B.dflt (child.children.map Child.cache)
    let cs ← vset par.children i ⟨.internal y, c⟩
    let s := (s.setIn p { par with children := cs }).setIn y { child with parent := some p, slot := i }
    subtreeLink B s p ys (i + 1)

/-- One level of `create_subtrees_from_elem` (src/lib.rs:788-811). -/
def subtreeLevel (B : Trait E C D) : Nat → Tree E C → List Nat → M (List Nat × Tree E C)
  | 0, _, _ => .error .fuel
  | _ + 1, s, [] => .ok ([], s)
  | n + 1, s, nodes => do
    let (p, inn) := s.inn.insert ⟨none, 0, []⟩
    let s ← subtreeLink B { s with inn := inn } p (nodes.take MAXC) 0
    let (ps, s) ← subtreeLevel B n s (nodes.drop MAXC)
    pure (p :: ps, s)

/-- The level loop of `create_subtrees_from_elem` (src/lib.rs:787-815). -/
def subtreeLevels (B : Trait E C D) : Nat → Tree E C → List Nat → M (Nat × Tree E C)
  | 0, _, _ => .error .fuel
  | n + 1, s, nodes =>
    if 1 < nodes.length then do
      let (nodes', s) ← subtreeLevel B (nodes.length + 1) s nodes
      subtreeLevels B n s nodes'
    else do
      let r ← vget nodes 0
      pure (r, s)

/-- `BTree::create_subtrees_from_elem` (src/lib.rs:754-816). -/
def createSubtrees (B : Trait E C D) (s : Tree E C) (data : List E) : M (Nat × Tree E C) := do
  let (nodes, s) ← subtreeParents B (data.length + 1) s data
  subtreeLevels B (nodes.length + 1) s nodes

/-- The merge loop of `insert_many_by_cursor` into the left neighbour (src/lib.rs:733-737): the new
left element and the remaining data. -/
def mergeIntoLeft (B : Trait E C D) : E → List E → M (E × List E)
  | e, [] => .ok (e, [])
  | e, d :: ds =>
    if B.canMerge e d then do
      let e' ← B.mergeRight e d
      mergeIntoLeft B e' ds
    else .ok (e, d :: ds)

/-- The final loop of `insert_many_by_cursor` (src/lib.rs:745-748), items already reversed. -/
def insertAll (B : Trait E C D) : Tree E C → Cursor → List E → M (Tree E C)
  | s, _, [] => .ok s
  | s, pos, e :: es => do
    let ((p, _), s) ← insertByPath B s pos e
    insertAll B s p es

/-- `BTree::insert_many_by_cursor` (src/lib.rs:677-749). -/
def insertMany (B : Trait E C D) (s : Tree E C) (cursor : Option Cursor) (data : List E) : M (Tree E C) :=
  match data with
  | [] => .ok s
  | [e] =>
    match cursor with
    | some c => do
      let (_, s) ← insertByPath B s c e
      pure s
    | none => do
      let (_, s) ← push B s e
      pure s
  | _ => do
    let data ← mergeAdj B data
    match data, cursor with
    | [e], some c => do
      let (_, s) ← insertByPath B s c e
      pure s
    | [e], none => do
      let (_, s) ← push B s e
      pure s
    | data, cursor => do
      let emp ← isEmpty s
      match cursor with
      | none =>
        if emp then do
          let (r, s) ← createSubtrees B s data
          let _ ← s.getIn s.root
          pure { s with inn := s.inn.remove s.root, root := r }
        else .error .panic
      | some c => do
        let (info, s) ← splitLeafIfNeeded B s c
        let (rest, s) ← (match info.leftNeighbour with
          | some l => do
            let leaf ← s.getLf l
            let (e', rest) ← mergeIntoLeft B leaf.elem data
            let s := s.setLf l { leaf with elem := e' }
            let s ← recursiveUpdateCache B s (.leaf l) B.useDiff none
            pure (rest, s)
          | none => pure (data, s) : M (List E × Tree E C))
        insertAll B s (info.newPos.getD c) rest.reverse

/-! ## Dirty-cache propagation -/

/-- Iteration orders of the hash maps used by `update_dirty_cache_map` (src/lib.rs:1512-1561) and
`update_leaves_with_arg_in_ranges` (src/lib.rs:1404, 1488), and the order of leaf indices used for grouping: arbitrary
functions; theorems assume only that they permute their argument. -/
structure HashOrd (E : Type) where
  idx : List Idx → List Idx
  cur : List (Cursor × List E) → List (Cursor × List E)
  grp : List Nat → List Nat

/-- `FxHashMap::get`/`remove` lookups on an association list (src/lib.rs:1522, 1540, 1548). -/
def dmGet (dm : List (Idx × D)) (k : Idx) : Option D := (dm.find? (fun p => p.1 = k)).map Prod.snd

/-- `FxHashMap::remove` (src/lib.rs:1522, 1540). -/
def dmErase (dm : List (Idx × D)) (k : Idx) : List (Idx × D) := dm.filter (fun p => p.1 ≠ k)

/-- `diff_map.get_mut` + `merge_cache_diff`, or `insert` (src/lib.rs:1548-1552). -/
def dmMerge (B : Trait E C D) (dm : List (Idx × D)) (k : Idx) (d : D) : List (Idx × D) :=
  match dmGet dm k with
  | some e => (k, B.mergeDiff e d) :: dmErase dm k
  | none => (k, d) :: dm

/-- `FxHashMap::insert` (src/lib.rs:1469, 1480, 1551). -/
def dmInsert (dm : List (Idx × D)) (k : Idx) (d : D) : List (Idx × D) := (k, d) :: dmErase dm k

/-- the search loop `for child in parent.children.iter_mut()` (src/lib.rs:1523-1528) -/
def applyToChild (B : Trait E C D) : List (Child C) → Idx → D → M (List (Child C))
  | [], _, _ => .ok []
  | c :: cs, k, d =>
    if c.arena = k then do
      let c' ← B.apply c.cache d
      pure ({ c with cache := c' } :: cs)
    else do
      let cs' ← applyToChild B cs k d
      pure (c :: cs')

/-- The body of the `for child_idx in take(&mut visit_set)` loop (src/lib.rs:1517-1553). -/
def dirtyStep (B : Trait E C D) (s : Tree E C) (dm : List (Idx × D)) (visit : List Idx) (k : Idx) :
    M (Tree E C × List (Idx × D) × List Idx) :=
  match k with
  | .leaf l => do
    let leaf ← s.getLf l
    let par ← s.getIn leaf.parent
    let d ← unwrap (dmGet dm k)
    let dm := dmErase dm k
    let cs ← applyToChild B par.children k d
    let s := s.setIn leaf.parent { par with children := cs }
    pure (s, dmMerge B dm (.internal leaf.parent) d, visit.insert (.internal leaf.parent))
  | .internal x => do
    let node ← s.getIn x
    match node.parent with
    | none => pure (s, dm, visit)
    | some p => do
      -- `get2_mut` (src/lib.rs:1537)
      assertM (decide (x ≠ p))
      let par ← s.getIn p
      let ch ← vget par.children node.slot
      let (c', d) ← calcCache B node ch.cache (dmGet dm k)
      let dm := dmErase dm k
      let s := s.setIn p { par with children := par.children.set node.slot { ch with cache := c' } }
      pure (s, dmMerge B dm (.internal p) d, visit.insert (.internal p))

/-- The `for` loop over one level (src/lib.rs:1516-1553). -/
def dirtyLevel (B : Trait E C D) : Tree E C → List (Idx × D) → List Idx → List Idx →
    M (Tree E C × List (Idx × D) × List Idx)
  | s, dm, visit, [] => .ok (s, dm, visit)
  | s, dm, visit, k :: ks => do
    let (s, dm, visit) ← dirtyStep B s dm visit k
    dirtyLevel B s dm visit ks

/-- The `while !visit_set.is_empty()` loop (src/lib.rs:1515-1554). -/
def dirtyF (B : Trait E C D) (ho : HashOrd E) : Nat → Tree E C → List (Idx × D) → List Idx → M (Tree E C)
  | 0, _, _, _ => .error .fuel
  | n + 1, s, dm, visit =>
    match visit with
    | [] => .ok s
    | _ => do
      let (s, dm, visit') ← dirtyLevel B s dm [] (ho.idx visit)
      dirtyF B ho n s dm visit'

/-- `BTree::update_dirty_cache_map` (src/lib.rs:1512-1560). -/
def updateDirty (B : Trait E C D) (ho : HashOrd E) (s : Tree E C) (dm : List (Idx × D)) : M (Tree E C) := do
  let s ← dirtyF B ho (s.fuel + 2) s dm (dm.map Prod.fst)
  updateRootCache B s

/-! ## `update` -/

/-- The main loop of `BTree::update` (src/lib.rs:1015-1039).  The state `σ` of the `FnMut` closure is
threaded.  Returns closure state, tree, `to_remove` and the dirty map. -/
def updateF (B : Trait E C D) (f : σ → E → M (σ × E × Option D)) (stop : Option Nat) :
    Nat → σ → Tree E C → List PIdx → List Nat → List (Idx × D) →
    M (σ × Tree E C × List Nat × List (Idx × D))
  | 0, _, _, _, _, _ => .error .fuel
  | n + 1, st, s, path, rm, dm => do
    let cur ← unwrap path.head?
    let l ← cur.arena.unwrapLeaf
    if stop = some l then pure (st, s, rm, dm)
    else do
      let leaf ← s.getLf l
      let (st, e, d) ← f st leaf.elem
      let s := s.setLf l { leaf with elem := e }
      let rm := if B.canRemove e then rm ++ [l] else rm
      let dm := match d with
        | some d => dmInsert dm (.leaf l) d
        | none => dm
      match ← nextSibling s path with
      | none => pure (st, s, rm, dm)
      | some p' => updateF B f stop n st s p' rm dm

/-- The final removal loop of `BTree::update` (src/lib.rs:1050-1055). -/
def removeAll (B : Trait E C D) : Tree E C → List Nat → M (Tree E C)
  | s, [] => .ok s
  | s, l :: ls => do
    let (_, s) ← removeLeaf B s ⟨l, 0⟩
    removeAll B s ls

/-- `BTree::update` (src/lib.rs:989-1057). Returns the closure state, the splitted leaves and the tree. -/
def update (B : Trait E C D) (ho : HashOrd E) (f : σ → E → M (σ × E × Option D)) (st : σ)
    (s : Tree E C) (start stop : Cursor) : M (σ × List Nat × Tree E C) := do
  let (ei, s) ← splitLeafIfNeeded B s stop
  let (si, s) ← splitLeafIfNeeded B s start
  let splitted := ei.newLeaf.toList ++ si.newLeaf.toList
  match si.newPos with
  | none => pure (st, splitted, s)
  | some start => do
    let path ← getPath s (.leaf start.leaf)
    let (st, s, rm, dm) ← updateF B f (ei.newPos.map Cursor.leaf) (leafFuel s) st s path [] []
    let s ← (match dm with
      | [] => updateRootCache B s
      | _ => updateDirty B ho s dm : M (Tree E C))
    let s ← removeAll B s rm
    pure (st, splitted, s)

/-! ## `update_leaf` -/

/-- Normalisation of the closure result in `update_leaf` (src/lib.rs:1274-1298):
`(elem, new_insert_1, new_insert_2)`. -/
def normalizeUpd (B : Trait E C D) (e : E) (n1 n2 : Option E) : E × Option E × Option E :=
  let (n1, n2) := match n1 with
    | some a =>
      if B.canRemove a then
        -- `new_insert_1 = new_insert_2.take()`, dropped again if removable
        ((match n2 with
          | some b => if B.canRemove b then none else some b
          | none => none), none)
      else (n1, n2)
    | none => (n1, n2)
  let (n1, n2) := match n2 with
    | some b =>
      if B.canRemove b then (n1, none)
      else match n1 with
        | none => (some b, none)
        | some _ => (n1, n2)
    | none => (n1, n2)
  if B.canRemove e then
    match n1 with
    | some a => (a, n2, none)
    | none => (e, n1, n2)
  else (e, n1, n2)

/-- `BTree::update_leaf` (src/lib.rs:1258-1384). -/
def updateLeaf (B : Trait E C D) (s : Tree E C) (l : Nat) (f : E → M (E × Bool × Option E × Option E)) :
    M (Bool × List Nat × Tree E C) := do
  let node ← s.getLf l
  let (e, need, n1, n2) ← f node.elem
  let (e, n1, n2) := normalizeUpd B e n1 n2
  let s := s.setLf l { node with elem := e }
  let s ← (if need then recursiveUpdateCache B s (.leaf l) B.useDiff none else pure s : M (Tree E C))
  let p := node.parent
  if B.canRemove e then do
    -- `debug_assert!` (src/lib.rs:1308-1309)
    assertM (n1.isNone && n2.isNone)
    let s := { s with lf := s.lf.remove l }
    let par ← s.getIn p
    let slot ← getLeafSlot par.children l
    let (_, cs) ← vremove par.children slot
    let par := { par with children := cs }
    let s := s.setIn p par
    let s ← (if par.isLack then handleLack B s p else pure s : M (Tree E C))
    pure (false, [], s)
  else
    match n1 with
    | none => do
      -- `debug_assert!` (src/lib.rs:1321)
      assertM n2.isNone
      pure (true, [], s)
    | some a => do
      let merged ← (match n2 with
        | none => do
          let par ← s.getIn p
          let slot ← getLeafSlot par.children l
          match par.children[slot + 1]? with
          | some c => do
            let nl := c.arena.raw
            let next ← s.getLf nl
            if B.canMerge a next.elem then do
              let e' ← B.mergeLeft next.elem a
              let s := s.setLf nl { next with elem := e' }
              let s ← recursiveUpdateCache B s (.leaf nl) B.useDiff none
              pure (some (true, [nl], s))
            else pure none
          | none => pure none
        | some _ => pure none : M (Option (Bool × List Nat × Tree E C)))
      match merged with
      | some r => pure r
      | none => do
        let news := a :: n2.toList
        let par ← s.getIn p
        let (p, s) ← (if MAXC ≤ par.children.length + news.length then do
            let s ← split B s p
            let node ← s.getLf l
            pure (node.parent, s)
          else pure (p, s) : M (Nat × Tree E C))
        let par ← s.getIn p
        let (c1, s) := allocLeafChild B s a p
        let (c2, s) := match n2 with
          | some b =>
            let (c, s) := allocLeafChild B s b p
            (some c, s)
          | none => (none, s)
        let slot ← getLeafSlot par.children l
        let cs ← vinsert par.children (slot + 1) c1
        let cs ← (match c2 with
          | some c => vinsert cs (slot + 2) c
          | none => pure cs : M (List (Child C)))
        let par := { par with children := cs }
        let s := s.setIn p par
        assertM (!par.isFull)
        let s ← recursiveUpdateCache B s (.internal p) B.useDiff none
        pure (true, c1.arena.raw :: (c2.map (·.arena.raw)).toList, s)

/-! ## `update_leaf_by_search` -/

/-- The descent of `update_leaf_by_search` (src/lib.rs:1124-1134): leaf, its slot, the path of internal
nodes (deepest first), the finder. -/
def searchPathF (q : Query E C Q F) (arg : Q) : Nat → Tree E C → Idx → Nat → List PIdx → F →
    M (Nat × Nat × List PIdx × F)
  | 0, _, _, _, _, _ => .error .fuel
  | n + 1, s, idx, arr, path, fd =>
    match idx with
    | .leaf l => .ok (l, arr, path, fd)
    | .internal x => do
      let path ← pathPush path ⟨.internal x, arr⟩
      let node ← s.getIn x
      let (r, fd) ← q.findNode fd arg node.children
      let c ← vget node.children r.index
      searchPathF q arg n s c.arena r.index path fd

/-- The deletion loop (src/lib.rs:1165-1187).  `child`, `arr`: `child_idx`, `child_arr_pos`. -/
def searchDelF (B : Trait E C D) (diff : D) : Tree E C → List PIdx → Bool → Bool → Idx → Nat →
    M (Bool × Tree E C)
  | s, [], _, lack, _, _ => .ok (lack, s)
  | s, pi :: rest, isFirst, childLack, child, arr => do
    let p ← pi.arena.unwrapInternal
    let par ← s.getIn p
    let cs ← (if isFirst then do
        let (_, cs) ← vremove par.children arr
        pure cs
      else do
        let ch ← vget par.children arr
        let c' ← B.apply ch.cache diff
        pure (par.children.set arr { ch with cache := c' }) : M (List (Child C)))
    let par := { par with children := cs }
    let s := s.setIn p par
    let lack := par.isLack
    let s ← (if childLack then do
        let c ← child.unwrapInternal
        let (_, s) ← handleLackSingle B s c
        pure s
      else pure s : M (Tree E C))
    searchDelF B diff s rest false lack pi.arena pi.arr

/-- The insertion/update loop (src/lib.rs:1209-1240). -/
def searchInsF (B : Trait E C D) (diff : D) : Tree E C → List PIdx → Option (C × Child C) → Nat →
    M (Option (C × Child C) × Tree E C)
  | s, [], nc, _ => .ok (nc, s)
  | s, pi :: rest, nc, arr => do
    let p ← pi.arena.unwrapInternal
    let par ← s.getIn p
    match nc with
    | some (cache, child) => do
      let ch ← vget par.children arr
      let cs ← vinsert (par.children.set arr { ch with cache := cache }) (arr + 1) child
      let par := { par with children := cs }
      let s := s.setIn p par
      let s ← (if par.isChildLeaf then pure s else updSlotsFrom s p (arr + 1) : M (Tree E C))
      if par.isFull then do
        let ((_, _, thisCache, right), s) ← splitNode B s p
        searchInsF B diff s rest (some (thisCache, right)) pi.arr
      else searchInsF B diff s rest none pi.arr
    | none => do
      let ch ← vget par.children arr
      let c' ← B.apply ch.cache diff
      let s := s.setIn p { par with children := par.children.set arr { ch with cache := c' } }
      searchInsF B diff s rest none pi.arr

/-- `BTree::update_leaf_by_search` (src/lib.rs:1107-1249). -/
def updateLeafBySearch (B : Trait E C D) (q : Query E C Q F) (s : Tree E C) (arg : Q)
    (f : E → QueryResult → M (E × Option (D × Option E × Option E))) :
    M (Option Cursor × List Nat × Tree E C) := do
  if ← isEmpty s then .error .panic
  else do
    let (l, arr, path, fd) ← searchPathF q arg (s.fuel + 1) s (.internal s.root) 0 [] (q.init arg)
    let leaf ← s.getLf l
    let ((offset, found), _) ← q.confirm fd arg leaf.elem
    let ans : QueryResult := ⟨⟨l, offset⟩, found⟩
    let (e, r) ← f leaf.elem ans
    let s := s.setLf l { leaf with elem := e }
    match r with
    | none => pure (some ans.cursor, [], s)
    | some (_, _, some _) => .error .panic
    | some (diff, n1, none) =>
      if B.canRemove e then do
        assertM n1.isNone
        let s := { s with lf := s.lf.remove l }
        let (lack, s) ← searchDelF B diff s path true false (.leaf l) arr
        let rc ← B.apply s.rootCache diff
        let s := { s with rootCache := rc }
        let root ← s.getIn s.root
        let s ← (if lack ∧ root.children.length = 1 ∧ root.isChildLeaf = false then tryReduceLevels s
          else pure s : M (Tree E C))
        pure (none, [], s)
      else do
        let (nc, spl, s) ← (match n1 with
          | some a => do
            let top ← unwrap path.head?
            let (child, s) := allocLeafChild B s a top.arena.raw
            pure (some (B.elemCache e, child), [child.arena.raw], s)
          | none => pure (none, [], s) : M (Option (C × Child C) × List Nat × Tree E C))
        let (nc, s) ← searchInsF B diff s path nc arr
        match nc with
        | some (cache, child) => do
          let s ← splitRoot B s cache child
          pure (some ans.cursor, spl, s)
        | none => do
          let rc ← B.apply s.rootCache diff
          pure (some ans.cursor, spl, { s with rootCache := rc })

/-! ## `update_leaves_with_arg_in_ranges` -/

/-- `BTreeSet::insert` on a sorted duplicate-free list (src/lib.rs:1416-1417). -/
def setInsert (l : List Nat) (x : Nat) : List Nat :=
  match l with
  | [] => [x]
  | y :: ys => if x < y then x :: y :: ys else if x = y then y :: ys else y :: setInsert ys x

/-- The split points of one group (src/lib.rs:1412-1421). -/
def splitPoints (len : Nat) (group : List (Nat × Nat × A)) : List Nat :=
  ((group.flatMap fun g => [g.1, g.2.1]).foldl setInsert []).filter fun x => x ≠ 0 ∧ x ≠ len

/-- Apply `f` for every group entry whose range passes the test (src/lib.rs:1439-1443, 1450-1454,
1462-1466). -/
def applyGroup (f : σ → E → A → M (σ × E)) (test : Nat → Nat → Bool) :
    List (Nat × Nat × A) → σ → E → M (σ × E)
  | [], st, e => .ok (st, e)
  | (a, b, arg) :: gs, st, e =>
    if test a b then do
      let (st, e) ← f st e arg
      applyGroup f test gs st e
    else applyGroup f test gs st e

/-- The loop over the middle pieces (src/lib.rs:1447-1459). Returns closure state, `new_elems`, `elem`. -/
def middlePieces (B : Trait E C D) (f : σ → E → A → M (σ × E)) (group : List (Nat × Nat × A)) :
    List Nat → σ → Nat → E → M (σ × List E × E)
  | [], st, _, e => .ok (st, [], e)
  | index :: rest, st, last, e => do
    let (e, next) ← B.split e (index - last)
    let (st, e) ← applyGroup f (fun a b => decide (a ≤ last ∧ index ≤ b)) group st e
    let (st, es, fin) ← middlePieces B f group rest st index next
    pure (st, e :: es, fin)

/-- Processing of one leaf (src/lib.rs:1410-1480): closure state, new leaf element, new elements. -/
def updOneLeaf (B : Trait E C D) (f : σ → E → A → M (σ × E)) (group : List (Nat × Nat × A)) (st : σ)
    (e : E) : M (σ × E × Option (List E)) := do
  let len := B.rleLen e
  match splitPoints len group with
  | [] => do
    assertM (group.all fun g => g.1 = 0 ∧ g.2.1 = len)
    let (st, e) ← applyGroup f (fun _ _ => true) group st e
    pure (st, e, none)
  | first :: rest => do
    let (e, tail) ← B.split e first
    let (st, e) ← applyGroup f (fun a _ => a = 0) group st e
    let (st, mids, lastE) ← middlePieces B f group rest st first tail
    let (st, lastE) ← applyGroup f (fun _ b => b = len) group st lastE
    pure (st, e, some (mids ++ [lastE]))

/-- The group loop (src/lib.rs:1405-1481). -/
def updGroups (B : Trait E C D) (f : σ → E → A → M (σ × E)) (args : List (Nat × Nat × Nat × A)) :
    List Nat → σ → Tree E C → List (Idx × D) → List (Cursor × List E) →
    M (σ × Tree E C × List (Idx × D) × List (Cursor × List E))
  | [], st, s, dm, nw => .ok (st, s, dm, nw)
  | l :: ls, st, s, dm, nw => do
    let leaf ← s.getLf l
    let group := (args.filter fun a => a.1 = l).map Prod.snd
    let (st, e, es) ← updOneLeaf B f group st leaf.elem
    let s := s.setLf l { leaf with elem := e }
    let nw := match es with
      | some es => nw ++ [(⟨l, B.rleLen e⟩, es)]
      | none => nw
    let dm := dmInsert dm (.leaf l) (B.subCache (B.elemCache e) (B.elemCache leaf.elem))
    updGroups B f args ls st s dm nw

/-- The inner insertion loop (src/lib.rs:1489-1499). -/
def insertChain (B : Trait E C D) : Tree E C → Cursor → List E → List Nat → M (List Nat × Tree E C)
  | s, _, [], out => .ok (out, s)
  | s, cur, e :: es, out => do
    let ((c, splitted), s) ← insertByPath B s cur e
    let elem ← unwrap (getElem s c.leaf)
    -- `debug_assert_eq!` (src/lib.rs:1494)
    assertM splitted.isEmpty
    insertChain B s ⟨c.leaf, B.rleLen elem⟩ es (out ++ [c.leaf])

/-- The outer insertion loop (src/lib.rs:1488-1500). -/
def insertChains (B : Trait E C D) : Tree E C → List (Cursor × List E) → List Nat → M (List Nat × Tree E C)
  | s, [], out => .ok (out, s)
  | s, (cur, es) :: rest, out => do
    let (out, s) ← insertChain B s cur es out
    insertChains B s rest out

/-- `BTree::update_leaves_with_arg_in_ranges` (src/lib.rs:1396-1503).  Entries of `args` are
`(leaf, range.start, range.end, arg)`.  `sort_by_key` followed by `group_by` is modelled as: the
distinct leaves in an arbitrary order (`ho.grp`), each with its entries in their original order (the
sort is stable). The inner closure asserts of lines 1427-1428 are checked before the calls of `f`
instead of in between (a panic either way). -/
def updateLeavesWithArg (B : Trait E C D) (ho : HashOrd E) (f : σ → E → A → M (σ × E)) (st : σ)
    (s : Tree E C) (args : List (Nat × Nat × Nat × A)) : M (σ × List Nat × Tree E C) := do
  let leaves := ho.grp (args.map fun a => a.1).eraseDups
  let (st, s, dm, nw) ← updGroups B f args leaves st s [] []
  let s ← updateDirty B ho s dm
  let (out, s) ← insertChains B s (ho.cur nw) []
  pure (st, out, s)

/-! ## `from_iter` -/

/-- `struct TempInternalNode` (src/lib.rs:2863-2867). -/
structure TempNode (C : Type) where
  children : List (Child C)
  cache : C
  arena : Nat

/-- `max_child_size = MAX_CHILDREN_NUM - 2` (src/lib.rs:2861). -/
def MAXCS : Nat := MAXC - 2

/-- `tree.in_nodes.insert(Default::default())` together with the fresh temp node
(src/lib.rs:2871-2876, 2885-2890, 2916-2921, 2935-2940). -/
def newTemp (B : Trait E C D) (s : Tree E C) : TempNode C × Tree E C :=
  let (i, inn) := s.inn.insert ⟨none, SLOT_MAX, []⟩
  (⟨[], B.dflt, i⟩, { s with inn := inn })

/-- `match internal_nodes.last_mut()` (src/lib.rs:2880-2894, 2930-2944): `internal_nodes` is kept as
finished nodes plus last node; returns the node to extend. -/
def tempRoom (B : Trait E C D) (s : Tree E C) (done : List (TempNode C)) (last : TempNode C) :
    M (Tree E C × List (TempNode C) × TempNode C) :=
  if last.children.length < MAXCS then .ok (s, done, last)
  else do
    let (c, _) ← B.calcC last.cache (last.children.map Child.cache)
    let (t, s) := newTemp B s
    pure (s, done ++ [{ last with cache := c }], t)

/-- The leaf loop (src/lib.rs:2879-2910). -/
def fromIterLeaves (B : Trait E C D) : Tree E C → List (TempNode C) → TempNode C → List E →
    M (Tree E C × List (TempNode C))
  | s, done, last, [] => .ok (s, done ++ [last])
  | s, done, last, e :: es => do
    let (s, done, last) ← tempRoom B s done last
    let (child, s) := allocLeafChild B s e last.arena
    let cs ← vpush last.children child
    fromIterLeaves B s done { last with children := cs } es

/-- The inner `for mut child in children` loop (src/lib.rs:2929-2959). -/
def fromIterLevel (B : Trait E C D) : Tree E C → List (TempNode C) → TempNode C → Nat →
    List (TempNode C) → M (Tree E C × List (TempNode C))
  | s, done, last, _, [] => .ok (s, done ++ [last])
  | s, done, last, slot, t :: ts => do
    let (s, done, last) ← tempRoom B s done last
    let (c, _) ← B.calcC t.cache (t.children.map Child.cache)
    let _ ← s.getIn t.arena
    let s := s.setIn t.arena ⟨some last.arena, slot, t.children⟩
    let cs ← vpush last.children ⟨.internal t.arena, c⟩
    fromIterLevel B s done { last with children := cs } ((slot + 1) % MAXCS) ts

/-- The `while internal_nodes.len() > 1` loop (src/lib.rs:2913-2965). -/
def fromIterLevels (B : Trait E C D) : Nat → Tree E C → List (TempNode C) → M (Tree E C × TempNode C)
  | 0, _, _ => .error .fuel
  | n + 1, s, nodes =>
    match nodes with
    | [] => .error .panic
    | [t] => .ok (s, t)
    | _ => do
      let (t, s) := newTemp B s
      let (s, nodes') ← fromIterLevel B s [] t 0 nodes
      -- `debug_assert_eq!` (src/lib.rs:2961)
      assertM (decide ((nodes.length + MAXCS - 1) / MAXCS = nodes'.length))
      fromIterLevels B n s nodes'

/-- `BTree::from_iter` (src/lib.rs:2855-2972). Simplification: `Into<B::Elem>` is applied beforehand. -/
def fromIter (B : Trait E C D) (data : List E) : M (Tree E C) := do
  let s := newTree B
  let (t, s) := newTemp B s
  let (s, nodes) ← fromIterLeaves B s [] t data
  let (s, t) ← fromIterLevels B (nodes.length + 1) s nodes
  let (rc, _) ← B.calcC s.rootCache (t.children.map Child.cache)
  let s := { s with rootCache := rc, inn := s.inn.remove s.root, root := t.arena }
  let node ← s.getIn t.arena
  pure (s.setIn t.arena { node with children := t.children })

/-! ## `check` -/

/-- run a check on every element of a list (the loops of `check`, src/lib.rs:2772-2852) -/
def checkAll {α : Type} (f : α → M Unit) : List α → M Unit
  | [] => .ok ()
  | a :: as => do
    f a
    checkAll f as

/-- The child checks of `BTree::check` (src/lib.rs:2780-2794). -/
def checkChildren [DecidableEq C] (B : Trait E C D) (s : Tree E C) (index : Nat) (node : Node C) :
    List (Child C) → Nat → M Unit
  | [], _ => .ok ()
  | c :: cs, i => do
    match c.arena with
    | .leaf _ => pure ()
    | .internal y => do
      assertM (!node.isChildLeaf)
      let child ← s.getIn y
      let (cache, _) ← calcCache B child B.dflt none
      assertM (decide (child.slot = i))
      assertM (decide (child.parent = some index))
      assertM (decide (cache = c.cache))
    checkChildren B s index node cs (i + 1)

/-- The per-internal-node part of `BTree::check` (src/lib.rs:2775-2812). -/
def checkNode [DecidableEq C] (B : Trait E C D) (s : Tree E C) (x : Nat) : M Unit :=
  match s.inn.get x with
  | none => .ok ()
  | some node => do
    if x ≠ s.root then assertM (!node.isEmpty)
    checkChildren B s x node node.children 0
    match node.parent with
    | some p => do
      let par ← s.getIn p
      let c ← vget par.children node.slot
      assertM (decide (c.arena = .internal x))
      let _ ← getPath s (.internal x)
      pure ()
    | none => assertM (decide (x = s.root))

/-- The `while node_idx != self.root` loop of `check` (src/lib.rs:2822-2826). -/
def levelF : Nat → Tree E C → Nat → Nat → M Nat
  | 0, _, _, _ => .error .fuel
  | n + 1, s, x, len =>
    if x = s.root then .ok len
    else do
      let node ← s.getIn x
      let p ← unwrap node.parent
      levelF n s p (len + 1)

/-- The leaf loop of `BTree::check` (src/lib.rs:2819-2851). -/
def checkLeaves [DecidableEq C] (B : Trait E C D) (s : Tree E C) : List Nat → Option Nat → M Unit
  | [], _ => .ok ()
  | l :: ls, lvl =>
    match s.lf.get l with
    | none => checkLeaves B s ls lvl
    | some leaf => do
      let len ← levelF s.fuel s leaf.parent 1
      (match lvl with
        | some e => assertM (decide (len = e))
        | none => pure () : M Unit)
      let par ← s.getIn leaf.parent
      let i ← getLeafSlot par.children l
      let c ← vget par.children i
      assertM (decide (c.cache = B.elemCache leaf.elem))
      let _ ← getPath s (.leaf l)
      checkLeaves B s ls (some len)

/-- `BTree::check` (src/lib.rs:2772-2852). -/
def check [DecidableEq C] (B : Trait E C D) (s : Tree E C) : M Unit := do
  checkAll (checkNode B s) (List.range s.inn.items.length)
  let root ← s.getIn s.root
  let (rc, _) ← calcCache B root B.dflt none
  assertM (decide (s.rootCache = rc))
  checkLeaves B s (List.range s.lf.items.length) none

end GB
