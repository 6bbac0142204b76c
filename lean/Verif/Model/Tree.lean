import Verif.Model.Trait

/-!
# Model of `src/lib.rs`, part 1: allocation, caches, splitting, rebalancing

All functions are `State → … → Except Err (… × State)`.  Loops that follow parent links are
recursive with a fuel argument; the callers supply `Tree.fuel`, the number of arena positions plus
one, which the invariant of `Proof/Inv.lean` shows to be enough.
-/

namespace GB
variable {E C D Q F : Type}

namespace Tree

/-- Loop bound for loops along a root path (the loops of the code, for example src/lib.rs:889-919, have none). -/
def fuel (s : Tree E C) : Nat := s.inn.items.length + 1

/-- `get_internal` / `get_internal_mut` / `in_nodes.get(..).unwrap()` (src/lib.rs:1946-1948, 1967-1969). -/
def getIn (s : Tree E C) (x : Nat) : M (Node C) := unwrap (s.inn.get x)

/-- `get_leaf` / `get_leaf_mut` / `leaf_nodes.get(..).unwrap()` (src/lib.rs:1951-1953, 1972-1974). -/
def getLf (s : Tree E C) (l : Nat) : M (LeafNode E) := unwrap (s.lf.get l)

/-- write through a `&mut Node` (for example src/lib.rs:551-552) -/
def setIn (s : Tree E C) (x : Nat) (n : Node C) : Tree E C := { s with inn := s.inn.set x n }

/-- write through a `&mut LeafNode` (for example src/lib.rs:512-515) -/
def setLf (s : Tree E C) (l : Nat) (n : LeafNode E) : Tree E C := { s with lf := s.lf.set l n }

/-- `get_internal` on an `ArenaIndex` (panics on a leaf index, src/lib.rs:1967-1969). -/
def getInIdx (s : Tree E C) (x : Idx) : M (Node C) := do
  let i ← x.unwrapInternal
  s.getIn i

end Tree

open Tree

/-- `BTree::new` (src/lib.rs:478-487). -/
def newTree (B : Trait E C D) : Tree E C :=
  let (root, inn) := (Arena.new (V := Node C)).insert ⟨none, SLOT_MAX, []⟩
  { inn := inn, lf := Arena.new, root := root, rootCache := B.dflt }

/-- `BTree::node_len` (src/lib.rs:492-494). -/
def nodeLen (s : Tree E C) : Nat := s.inn.len + s.lf.len

/-- `BTree::clear` (src/lib.rs:2428-2430): `*self = Self::new()`. -/
def clear (B : Trait E C D) (_s : Tree E C) : Tree E C := newTree B

/-- `BTree::is_empty` (src/lib.rs:2438-2440). -/
def isEmpty (s : Tree E C) : M Bool := do
  let r ← s.getIn s.root
  pure r.isEmpty

/-- `Node::calc_cache` (src/lib.rs:451-459). -/
def calcCache (B : Trait E C D) (n : Node C) (c : C) (diff : Option D) : M (C × D) :=
  match diff with
  | some d => do
    let c' ← B.apply c d
    pure (c', d)
  | none => B.calcC c (n.children.map Child.cache)

/-- `BTree::get_leaf_slot` (src/lib.rs:862-868): `position(|x| x.arena.unwrap_leaf() == l).unwrap()`. -/
def getLeafSlot : List (Child C) → Nat → M Nat
  | [], _ => .error .panic
  | c :: cs, l => do
    let y ← c.arena.unwrapLeaf
    if y = l then pure 0
    else do
      let i ← getLeafSlot cs l
      pure (i + 1)

/-- `BTree::recursive_update_cache_with_diff` (src/lib.rs:2275-2287). -/
def recUpdDiff (B : Trait E C D) : Nat → Tree E C → Nat → D → M (Tree E C)
  | 0, _, _, _ => .error .fuel
  | n + 1, s, x, d => do
    let node ← s.getIn x
    match node.parent with
    | none => do
      let rc ← B.apply s.rootCache d
      pure { s with rootCache := rc }
    | some p => do
      let par ← s.getIn p
      let ch ← vget par.children node.slot
      let c' ← B.apply ch.cache d
      recUpdDiff B n (s.setIn p { par with children := par.children.set node.slot { ch with cache := c' } }) p d

/-- The `while node.parent.is_some()` loop of `recursive_update_cache` with `can_use_diff = false`
followed by the recomputation of the root cache (src/lib.rs:2256-2272).  `get2_mut` (2258, 1956-1962)
panics if the two indices are the same. -/
def recUpdCalc (B : Trait E C D) : Nat → Tree E C → Nat → M (Tree E C)
  | 0, _, _ => .error .fuel
  | n + 1, s, x => do
    let node ← s.getIn x
    match node.parent with
    | none => do
      let root ← s.getIn s.root
      let (rc, _) ← calcCache B root s.rootCache none
      pure { s with rootCache := rc }
    | some p => do
      assertM (decide (x ≠ p))
      let par ← s.getIn p
      let ch ← vget par.children node.slot
      let (c', _) ← calcCache B node ch.cache none
      recUpdCalc B n (s.setIn p { par with children := par.children.set node.slot { ch with cache := c' } }) p

/-- `BTree::recursive_update_cache` (src/lib.rs:2220-2273). -/
def recursiveUpdateCache (B : Trait E C D) (s : Tree E C) (idx : Idx) (canUseDiff : Bool)
    (diff : Option D) : M (Tree E C) := do
  let (s, x) ← (match idx with
    | .leaf l => do
      let leaf ← s.getLf l
      let c := B.elemCache leaf.elem
      let node ← s.getIn leaf.parent
      let i ← getLeafSlot node.children l
      let ch ← vget node.children i
      pure (s.setIn leaf.parent { node with children := node.children.set i { ch with cache := c } },
        leaf.parent)
    | .internal x => pure (s, x) : M (Tree E C × Nat))
  match canUseDiff, diff with
  | true, some d => recUpdDiff B s.fuel s x d
  | true, none => do
    let node ← s.getIn x
    match node.parent with
    | some p => do
      -- `get2_mut` (src/lib.rs:2250)
      assertM (decide (x ≠ p))
      let par ← s.getIn p
      let ch ← vget par.children node.slot
      let (c', d) ← calcCache B node ch.cache none
      let s := s.setIn p { par with children := par.children.set node.slot { ch with cache := c' } }
      recUpdDiff B s.fuel s p d
    | none => do
      let root ← s.getIn s.root
      let (rc, _) ← calcCache B root s.rootCache none
      pure { s with rootCache := rc }
  | false, _ => recUpdCalc B s.fuel s x

/-- `BTree::update_root_cache` (src/lib.rs:1505-1510). -/
def updateRootCache (B : Trait E C D) (s : Tree E C) : M (Tree E C) := do
  let root ← s.getIn s.root
  let (rc, _) ← calcCache B root s.rootCache none
  pure { s with rootCache := rc }

/-- Loop body of `update_children_parent_slot_from` (src/lib.rs:1889-1893). -/
def setSlots : Tree E C → List (Child C) → Nat → M (Tree E C)
  | s, [], _ => .ok s
  | s, c :: cs, i => do
    let y ← c.arena.unwrapInternal
    let node ← s.getIn y
    setSlots (s.setIn y { node with slot := i }) cs (i + 1)

/-- `BTree::update_children_parent_slot_from` (src/lib.rs:1881-1896).  The Rust code moves the
children out of the parent during the loop and puts them back; the loop does not read them. -/
def updSlotsFrom (s : Tree E C) (p : Nat) (index : Nat) : M (Tree E C) := do
  let par ← s.getIn p
  if par.children.length ≤ index ∨ par.isChildLeaf then pure s
  else setSlots s (par.children.drop index) index

/-- Re-parenting of a list of children, numbering internal children from `i`
(src/lib.rs:1837-1845 in `split_node`, 1932-1940 in `split_root`). -/
def reparent : Tree E C → List (Child C) → Nat → Nat → M (Tree E C)
  | s, [], _, _ => .ok s
  | s, c :: cs, r, i =>
    match c.arena with
    | .internal y => do
      let node ← s.getIn y
      reparent (s.setIn y { node with parent := some r, slot := i }) cs r (i + 1)
    | .leaf l => do
      let leaf ← s.getLf l
      reparent (s.setLf l { leaf with parent := r }) cs r (i + 1)

/-- `BTree::split_node` (src/lib.rs:1807-1856) with `at = None` (the only value ever passed). -/
def splitNode (B : Trait E C D) (s : Tree E C) (x : Nat) :
    M ((Option Nat × Nat × C × Child C) × Tree E C) := do
  let node ← s.getIn x
  let k := node.children.length / 2
  let rightCh := node.children.drop k
  let s := s.setIn x { node with children := node.children.take k }
  let (r, inn) := s.inn.insert ⟨node.parent, SLOT_MAX, []⟩
  let s := { s with inn := inn }
  let left ← s.getIn x
  let (thisCache, _) ← calcCache B left B.dflt none
  let s ← reparent s rightCh r 0
  let right ← s.getIn r
  let right := { right with children := rightCh }
  let s := s.setIn r right
  let (rightCache, _) ← calcCache B right B.dflt none
  pure ((node.parent, node.slot, thisCache, ⟨.internal r, rightCache⟩), s)

/-- `BTree::split_root` (src/lib.rs:1899-1943). -/
def splitRoot (B : Trait E C D) (s : Tree E C) (newCache : C) (right : Child C) : M (Tree E C) := do
  let ri ← right.arena.unwrapInternal
  let rightNode ← s.getIn ri
  let s := s.setIn ri { rightNode with slot := 1, parent := some s.root }
  let root ← s.getIn s.root
  -- `mem::replace(root, Node { parent: None, parent_slot: 0, children: [] })`
  let leftNode : Node C := { parent := some s.root, slot := 0, children := root.children }
  let s := s.setIn s.root { parent := none, slot := 0, children := [] }
  let (l, inn) := s.inn.insert leftNode
  let s := { s with inn := inn }
  let newRoot ← s.getIn s.root
  let newRoot := { newRoot with children := [⟨.internal l, newCache⟩, right] }
  let s := s.setIn s.root newRoot
  -- the old root cache is passed to `calc_cache` and the result written back
  let (rc, _) ← calcCache B newRoot s.rootCache none
  let s ← reparent s leftNode.children l 0
  pure { s with rootCache := rc }

/-- `BTree::split` / `split_at` / `inner_insert_node` (src/lib.rs:1790-1805, 1859-1878). -/
def splitF (B : Trait E C D) : Nat → Tree E C → Nat → M (Tree E C)
  | 0, _, _ => .error .fuel
  | n + 1, s, x => do
    let ((par, slot, thisCache, rightChild), s) ← splitNode B s x
    match par with
    | some p => do
      let pn ← s.getIn p
      let ch ← vget pn.children slot
      let cs ← vinsert (pn.children.set slot { ch with cache := thisCache }) (slot + 1) rightChild
      let pn := { pn with children := cs }
      let s := s.setIn p pn
      let s ← updSlotsFrom s p (slot + 1)
      if pn.isFull then splitF B n s p else pure s
    | none => splitRoot B s thisCache rightChild

/-- `BTree::split` (src/lib.rs:1790-1792). -/
def split (B : Trait E C D) (s : Tree E C) (x : Nat) : M (Tree E C) := splitF B s.fuel s x

/-- `BTree::alloc_leaf_child` (src/lib.rs:570-584) and `alloc_new_leaf` (669-672). -/
def allocLeafChild (B : Trait E C D) (s : Tree E C) (data : E) (parent : Nat) : Child C × Tree E C :=
  let (l, lf) := s.lf.insert ⟨data, parent⟩
  (⟨.leaf l, B.elemCache data⟩, { s with lf := lf })

/-- `BTree::next_same_level_in_node`, internal case (src/lib.rs:2355-2366). -/
def nextSameLevelIn : Nat → Tree E C → Nat → M (Option Idx)
  | 0, _, _ => .error .fuel
  | n + 1, s, x => do
    let node ← s.getIn x
    match node.parent with
    | none => pure none
    | some p => do
      let par ← s.getIn p
      match par.children[node.slot + 1]? with
      | some next => pure (some next.arena)
      | none => do
        match ← nextSameLevelIn n s p with
        | some pn => do
          let pnode ← s.getInIdx pn
          pure (pnode.children.head?.map Child.arena)
        | none => pure none

/-- `BTree::next_same_level_in_node`, leaf case (src/lib.rs:2340-2354). -/
def nextSameLevelLeaf (s : Tree E C) (l : Nat) : M (Option Idx) := do
  let leaf ← s.getLf l
  let par ← s.getIn leaf.parent
  let i ← getLeafSlot par.children l
  match par.children[i + 1]? with
  | some c => pure (some c.arena)
  | none => do
    match ← nextSameLevelIn s.fuel s leaf.parent with
    | some pn => do
      let pnode ← s.getInIdx pn
      let c ← unwrap pnode.children.head?
      pure (some c.arena)
    | none => pure none

/-- `BTree::next_elem` (src/lib.rs:2404-2410). -/
def nextElem (s : Tree E C) (pos : Cursor) : M (Option Cursor) := do
  match ← nextSameLevelLeaf s pos.leaf with
  | some i => do
    let l ← i.unwrapLeaf
    pure (some ⟨l, 0⟩)
  | none => pure none

/-- `BTree::prev_same_level_in_node`, internal case (src/lib.rs:2385-2399). -/
def prevSameLevelIn : Nat → Tree E C → Nat → M (Option Idx)
  | 0, _, _ => .error .fuel
  | n + 1, s, x => do
    let node ← s.getIn x
    match node.parent with
    | none => pure none
    | some p => do
      let par ← s.getIn p
      if 0 < node.slot then do
        let c ← vget par.children (node.slot - 1)
        pure (some c.arena)
      else do
        match ← prevSameLevelIn n s p with
        | some pn => do
          let pnode ← s.getInIdx pn
          pure (pnode.children.getLast?.map Child.arena)
        | none => pure none

/-- `BTree::prev_same_level_in_node`, leaf case (src/lib.rs:2372-2384). -/
def prevSameLevelLeaf (s : Tree E C) (l : Nat) : M (Option Idx) := do
  let leaf ← s.getLf l
  let par ← s.getIn leaf.parent
  let i ← getLeafSlot par.children l
  if 0 < i then do
    let c ← vget par.children (i - 1)
    pure (some c.arena)
  else do
    match ← prevSameLevelIn s.fuel s leaf.parent with
    | some pn => do
      let pnode ← s.getInIdx pn
      let c ← unwrap pnode.children.getLast?
      pure (some c.arena)
    | none => pure none

/-- `BTree::prev_elem` (src/lib.rs:2412-2418). -/
def prevElem (s : Tree E C) (pos : Cursor) : M (Option Cursor) := do
  match ← prevSameLevelLeaf s pos.leaf with
  | some i => do
    let l ← i.unwrapLeaf
    pure (some ⟨l, 0⟩)
  | none => pure none

/-- `struct SplitInfo` (src/lib.rs:2975-2981). -/
structure SplitInfo where
  newPos : Option Cursor
  leftNeighbour : Option Nat
  parentIdx : Nat
  insertSlot : Nat
  newLeaf : Option Nat

/-- `BTree::split_leaf_if_needed` (src/lib.rs:589-667).  The recursive call (line 629) is bounded by
fuel; it happens at most once. -/
def splitLeafIfNeededF (B : Trait E C D) : Nat → Tree E C → Cursor → M (SplitInfo × Tree E C)
  | 0, _, _ => .error .fuel
  | n + 1, s, pos => do
    let leaf ← s.getLf pos.leaf
    let parent ← s.getIn leaf.parent
    let slot ← unwrap (parent.children.findIdx? (fun c => c.arena.raw == pos.leaf))
    let leftNb ← (if slot = 0 then pure none
      else do
        let c ← vget parent.children (slot - 1)
        pure (some c.arena.raw) : M (Option Nat))
    if pos.offset = 0 then
      pure (⟨some pos, leftNb, leaf.parent, slot, none⟩, s)
    else if pos.offset = B.rleLen leaf.elem then do
      let newPos ← (match parent.children[slot + 1]? with
        | some c => pure (some ⟨c.arena.raw, 0⟩)
        | none => nextElem s pos : M (Option Cursor))
      pure (⟨newPos, leftNb, leaf.parent, slot + 1, none⟩, s)
    else do
      assertM (decide (pos.offset < B.rleLen leaf.elem))
      if MAXC ≤ parent.children.length + 1 then do
        let s ← split B s leaf.parent
        splitLeafIfNeededF B n s pos
      else do
        let (a, b) ← B.split leaf.elem pos.offset
        let s := s.setLf pos.leaf { leaf with elem := a }
        let (newChild, s) := allocLeafChild B s b leaf.parent
        let c ← vget parent.children slot
        let cs ← vinsert (parent.children.set slot { c with cache := B.elemCache a }) (slot + 1) newChild
        let s := s.setIn leaf.parent { parent with children := cs }
        pure (⟨some ⟨newChild.arena.raw, 0⟩, leftNb, leaf.parent, slot + 1, some newChild.arena.raw⟩, s)

/-- `BTree::split_leaf_if_needed` (src/lib.rs:589-667). -/
def splitLeafIfNeeded (B : Trait E C D) (s : Tree E C) (pos : Cursor) : M (SplitInfo × Tree E C) :=
  splitLeafIfNeededF B 3 s pos

/-- `BTree::insert_by_path` (src/lib.rs:510-568).  Result: `(cursor, splitted leaves)`. -/
def insertByPath (B : Trait E C D) (s : Tree E C) (cursor : Cursor) (data : E) :
    M ((Cursor × List Nat) × Tree E C) := do
  let leaf ← s.getLf cursor.leaf
  let diff : Option D := if B.useDiff then some (B.newCacheToDiff (B.elemCache data)) else none
  match ← B.tryInsert leaf.elem cursor.offset data with
  | .inl e' => do
    let s := s.setLf cursor.leaf { leaf with elem := e' }
    let s ← recursiveUpdateCache B s (.leaf cursor.leaf) B.useDiff diff
    pure ((cursor, []), s)
  | .inr data =>
    if cursor.offset = 0 ∧ B.canMerge data leaf.elem then do
      let e' ← B.mergeLeft leaf.elem data
      let s := s.setLf cursor.leaf { leaf with elem := e' }
      let s ← recursiveUpdateCache B s (.leaf cursor.leaf) B.useDiff diff
      pure ((⟨cursor.leaf, 0⟩, []), s)
    else if cursor.offset = B.rleLen leaf.elem ∧ B.canMerge leaf.elem data then do
      let offset := B.rleLen leaf.elem
      let e' ← B.mergeRight leaf.elem data
      let s := s.setLf cursor.leaf { leaf with elem := e' }
      let s ← recursiveUpdateCache B s (.leaf cursor.leaf) B.useDiff diff
      pure ((⟨cursor.leaf, offset⟩, []), s)
    else do
      let (info, s) ← splitLeafIfNeeded B s cursor
      let (child, s) := allocLeafChild B s data info.parentIdx
      let parent ← s.getIn info.parentIdx
      let cs ← vinsert parent.children info.insertSlot child
      let parent := { parent with children := cs }
      let s := s.setIn info.parentIdx parent
      let s ← recursiveUpdateCache B s (.leaf cursor.leaf) B.useDiff diff
      let s ← (if parent.isFull then split B s info.parentIdx else pure s : M (Tree E C))
      pure ((⟨child.arena.raw, 0⟩, info.newLeaf.toList), s)

/-- Loop of `BTree::last_leaf` (src/lib.rs:1692-1706). -/
def lastLeafF : Nat → Tree E C → Nat → M (Option Nat)
  | 0, _, _ => .error .fuel
  | n + 1, s, x => do
    let node ← s.getIn x
    match node.children.getLast? with
    | none => pure none
    | some c =>
      match c.arena with
      | .leaf l => pure (some l)
      | .internal y => lastLeafF n s y

/-- `BTree::last_leaf` (src/lib.rs:1692-1706). -/
def lastLeaf (s : Tree E C) : M (Option Nat) := lastLeafF s.fuel s s.root

/-- Loop of `BTree::first_leaf` (src/lib.rs:1676-1690). -/
def firstLeafF : Nat → Tree E C → Nat → M (Option Nat)
  | 0, _, _ => .error .fuel
  | n + 1, s, x => do
    let node ← s.getIn x
    match node.children.head? with
    | none => pure none
    | some c =>
      match c.arena with
      | .leaf l => pure (some l)
      | .internal y => firstLeafF n s y

/-- `BTree::first_leaf` (src/lib.rs:1676-1690). -/
def firstLeaf (s : Tree E C) : M (Option Nat) := firstLeafF s.fuel s s.root

/-- `BTree::push` (src/lib.rs:2466-2520). -/
def push (B : Trait E C D) (s : Tree E C) (elem : E) : M (Cursor × Tree E C) := do
  let cache := B.elemCache elem
  let diff : Option D := if B.useDiff then some (B.newCacheToDiff cache) else none
  if ← isEmpty s then do
    let (child, s) := allocLeafChild B s elem s.root
    let parent ← s.getIn s.root
    let cs ← vpush parent.children child
    let s := s.setIn s.root { parent with children := cs }
    let s ← recursiveUpdateCache B s (.internal s.root) B.useDiff diff
    pure (⟨child.arena.raw, 0⟩, s)
  else do
    let l ← unwrap (← lastLeaf s)
    let leaf ← s.getLf l
    if B.canMerge leaf.elem elem then do
      let offset := B.rleLen leaf.elem
      let e' ← B.mergeRight leaf.elem elem
      let s := s.setLf l { leaf with elem := e' }
      let s ← recursiveUpdateCache B s (.leaf l) B.useDiff diff
      pure (⟨l, offset⟩, s)
    else do
      let (child, s) := allocLeafChild B s elem leaf.parent
      let parent ← s.getIn leaf.parent
      let cs ← vpush parent.children child
      let parent := { parent with children := cs }
      let s := s.setIn leaf.parent parent
      let s ← recursiveUpdateCache B s (.internal leaf.parent) B.useDiff diff
      let s ← (if parent.isFull then split B s leaf.parent else pure s : M (Tree E C))
      pure (⟨child.arena.raw, 0⟩, s)

/-- `BTree::prepend` (src/lib.rs:2522-2562). -/
def prepend (B : Trait E C D) (s : Tree E C) (elem : E) : M (Cursor × Tree E C) := do
  match ← firstLeaf s with
  | none => do
    -- early return: no cache update (src/lib.rs:2523-2533)
    let (child, s) := allocLeafChild B s elem s.root
    let parent ← s.getIn s.root
    let cs ← vpush parent.children child
    let s := s.setIn s.root { parent with children := cs }
    pure (⟨child.arena.raw, 0⟩, s)
  | some l => do
    let leaf ← s.getLf l
    if B.canMerge elem leaf.elem then do
      let e' ← B.mergeLeft leaf.elem elem
      let s := s.setLf l { leaf with elem := e' }
      let s ← recursiveUpdateCache B s (.leaf l) B.useDiff none
      pure (⟨l, 0⟩, s)
    else do
      let (child, s) := allocLeafChild B s elem leaf.parent
      let parent ← s.getIn leaf.parent
      let cs ← vinsert parent.children 0 child
      let parent := { parent with children := cs }
      let s := s.setIn leaf.parent parent
      let s ← recursiveUpdateCache B s (.leaf l) B.useDiff none
      let s ← (if parent.isFull then split B s leaf.parent else pure s : M (Tree E C))
      pure (⟨child.arena.raw, 0⟩, s)

/-- Loop of `BTree::query_with_finder_return` (src/lib.rs:889-919). -/
def queryF (q : Query E C Q F) (arg : Q) : Nat → Tree E C → Nat → F → Bool → M (QueryResult × F)
  | 0, _, _, _, _ => .error .fuel
  | n + 1, s, x, fd, found => do
    let node ← s.getIn x
    let (r, fd) ← q.findNode fd arg node.children
    -- `debug_assert!` (src/lib.rs:894)
    assertM (!node.isEmpty)
    let found := found && r.found
    let c ← vget node.children r.index
    match c.arena with
    | .internal y => queryF q arg n s y fd found
    | .leaf l => do
      let leaf ← s.getLf l
      let ((offset, lfound), fd) ← q.confirm fd arg leaf.elem
      pure (⟨⟨l, offset⟩, found && lfound⟩, fd)

/-- `BTree::query_with_finder_return` (src/lib.rs:880-920). -/
def queryWithFinder (q : Query E C Q F) (s : Tree E C) (arg : Q) : M (Option QueryResult × F) := do
  let fd := q.init arg
  if ← isEmpty s then pure (none, fd)
  else do
    let (r, fd) ← queryF q arg s.fuel s s.root fd true
    pure (some r, fd)

/-- `BTree::query` (src/lib.rs:873-878). -/
def query (q : Query E C Q F) (s : Tree E C) (arg : Q) : M (Option QueryResult) := do
  let (r, _) ← queryWithFinder q s arg
  pure r

/-- `BTree::insert` (src/lib.rs:499-508). -/
def insert (B : Trait E C D) (q : Query E C Q F) (s : Tree E C) (arg : Q) (data : E) :
    M ((Cursor × List Nat) × Tree E C) := do
  match ← query q s arg with
  | none => do
    let (c, s) ← push B s data
    pure ((c, []), s)
  | some r => insertByPath B s r.cursor data

/-- `BTree::range` (src/lib.rs:1708-1717). -/
def range (q : Query E C Q F) (s : Tree E C) (a b : Q) : M (Option (QueryResult × QueryResult)) := do
  if ← isEmpty s then pure none
  else do
    let x ← unwrap (← query q s a)
    let y ← unwrap (← query q s b)
    pure (some (x, y))

/-- `BTree::get_elem` (src/lib.rs:927-929). -/
def getElem (s : Tree E C) (l : Nat) : Option E := (s.lf.get l).map LeafNode.elem

/-- `BTree::get_elem_mut` (src/lib.rs:922-925), followed by a write through the reference that turns the element `e` into
`f e`.  Returns the element before the write. -/
def getElemMut (s : Tree E C) (l : Nat) (f : E → E) : Option E × Tree E C :=
  match s.lf.get l with
  | none => (none, s)
  | some n => (some n.elem, s.setLf l { n with elem := f n.elem })

/-! ## Removing and rebalancing -/

/-- Loop of `BTree::purge` (src/lib.rs:2289-2306); the stack is a list, top first. -/
def purgeF : Nat → Tree E C → List Idx → M (Tree E C)
  | 0, _, _ => .error .fuel
  | _ + 1, s, [] => .ok s
  | n + 1, s, .leaf l :: st => purgeF n { s with lf := s.lf.remove l } st
  | n + 1, s, .internal x :: st =>
    match s.inn.get x with
    | none => purgeF n s st
    | some node => purgeF n { s with inn := s.inn.remove x } ((node.children.map Child.arena).reverse ++ st)

/-- `BTree::purge` (src/lib.rs:2289-2306). Bound: every pop removes an internal node or consumes one
of at most 12 pushed children of a removed node. -/
def purge (s : Tree E C) (idx : Idx) : M (Tree E C) :=
  purgeF ((s.inn.items.length + 1) * (MAXC + 1) + 1) s [idx]

/-- `BTree::reset_children_parent_pointer` (src/lib.rs:2183-2198), loop over the children. -/
def resetParents : Tree E C → List (Child C) → Nat → M (Tree E C)
  | s, [], _ => .ok s
  | s, c :: cs, p =>
    match c.arena with
    | .internal y => do
      let node ← s.getIn y
      resetParents (s.setIn y { node with parent := some p }) cs p
    | .leaf l => do
      let leaf ← s.getLf l
      resetParents (s.setLf l { leaf with parent := p }) cs p

/-- The `while` loop of `BTree::try_reduce_levels` (src/lib.rs:2161-2173); the flag is `reduced`. -/
def reduceLoop : Nat → Tree E C → Bool → M (Bool × Tree E C)
  | 0, _, _ => .error .fuel
  | n + 1, s, reduced => do
    let root ← s.getIn s.root
    match root.children with
    | [c] =>
      match c.arena with
      | .leaf _ => pure (reduced, s)
      | .internal y => do
        let child ← unwrap (s.inn.get y)
        let s := { s with inn := s.inn.remove y }
        let _ ← s.getIn s.root
        reduceLoop n (s.setIn s.root child) true
    | _ => pure (reduced, s)

/-- `BTree::try_reduce_levels` (src/lib.rs:2159-2181). -/
def tryReduceLevels (s : Tree E C) : M (Tree E C) := do
  let (reduced, s) ← reduceLoop s.fuel s false
  if reduced then do
    let root ← s.getIn s.root
    let s := s.setIn s.root { root with parent := none, slot := SLOT_MAX }
    resetParents s root.children s.root
  else pure s

/-- `BTree::pair_neighbor` (src/lib.rs:2200-2216): `((a, slot of a), (b, slot of b))`. -/
def pairNeighbor (s : Tree E C) (x : Nat) : M (Option ((Idx × Nat) × (Idx × Nat))) := do
  let node ← s.getIn x
  let p ← unwrap node.parent
  let par ← s.getIn p
  if node.slot = 0 then
    pure (par.children[1]?.map fun c => ((.internal x, node.slot), (c.arena, 1)))
  else
    pure (par.children[node.slot - 1]?.map fun c => ((c.arena, node.slot - 1), (.internal x, node.slot)))

/-- The final loop over the `re_parent` map in `handle_lack_single_layer` (src/lib.rs:2137-2149).
The Rust map is keyed by child; entries for different children touch different nodes and a later
insertion for the same child overrides, so applying the insertions in order has the same effect as
iterating over the map in any order. -/
def applyReparent : Tree E C → List (Idx × Nat × Nat) → M (Tree E C)
  | s, [] => .ok s
  | s, (.leaf l, p, _) :: rest => do
    let leaf ← s.getLf l
    applyReparent (s.setLf l { leaf with parent := p }) rest
  | s, (.internal y, p, i) :: rest => do
    let node ← s.getIn y
    applyReparent (s.setIn y { node with parent := some p, slot := i }) rest

/-- `re_parent.insert(child.arena, (p, i + index))` for all children of a list
(src/lib.rs:2033, 2038, 2044, 2054, 2076, 2094, 2097). -/
def reparentEntries : List (Child C) → Nat → Nat → List (Idx × Nat × Nat)
  | [], _, _ => []
  | c :: cs, p, i => (c.arena, p, i) :: reparentEntries cs p (i + 1)

/-- `BTree::handle_lack_single_layer` (src/lib.rs:1996-2157).  Returns `parent_lack`. -/
def handleLackSingle (B : Trait E C D) (s : Tree E C) (x : Nat) : M (Option Nat × Tree E C) := do
  if s.root = x then do
    let s ← tryReduceLevels s
    pure (none, s)
  else do
    let node ← s.getIn x
    let p ← unwrap node.parent
    let par ← s.getIn p
    -- `debug_assert_eq!` (src/lib.rs:2005)
    let here ← vget par.children node.slot
    assertM (decide (here.arena = .internal x))
    if node.children.length = 0 then do
      let (_, cs) ← vremove par.children node.slot
      let s := s.setIn p { par with children := cs }
      let s := { s with inn := s.inn.remove x }
      let s ← updSlotsFrom s p node.slot
      pure (some p, s)
    else do
      match ← pairNeighbor s x with
      | none => pure (some p, s)
      | some ((aI, aArr), (bI, bArr)) => do
        let chA ← vget par.children aArr
        let chB ← vget par.children bArr
        let ai ← aI.unwrapInternal
        let bi ← bI.unwrapInternal
        -- `Arena::get2_mut` (src/lib.rs:2022-2024) panics if the two indices are the same
        assertM (decide (ai ≠ bi))
        let a ← s.getIn ai
        let b ← s.getIn bi
        if MAXC ≤ a.children.length + b.children.length then do
          -- move partially; `a_cache`, `b_cache` were taken out of the parent
          let (aCh, bCh) :=
            if a.children.length < b.children.length then
              let m := (b.children.length - a.children.length) / 2
              (a.children ++ b.children.take m, b.children.drop m)
            else
              let m := (a.children.length - b.children.length) / 2
              (a.children.take (a.children.length - m),
                a.children.drop (a.children.length - m) ++ b.children)
          let rp :=
            if a.children.length < b.children.length then
              let m := (b.children.length - a.children.length) / 2
              reparentEntries (b.children.take m) ai a.children.length ++ reparentEntries bCh bi 0
            else
              let m := (a.children.length - b.children.length) / 2
              reparentEntries b.children bi m ++ reparentEntries bCh bi 0
          assertM (decide (aCh.length ≤ MAXC ∧ bCh.length ≤ MAXC))
          let a' := { a with children := aCh }
          let b' := { b with children := bCh }
          let s := (s.setIn ai a').setIn bi b'
          let (ac, _) ← calcCache B a' chA.cache none
          let (bc, _) ← calcCache B b' chB.cache none
          let par ← s.getIn p
          let par := { par with children :=
            (par.children.set aArr { chA with cache := ac }).set bArr { chB with cache := bc } }
          let s := s.setIn p par
          let s ← applyReparent s rp
          pure (if par.isLack then some p else none, s)
        else if aI = .internal x then do
          -- merge b into a, delete b
          let rp := reparentEntries b.children ai a.children.length
          let a' := { a with children := a.children ++ b.children }
          let s := (s.setIn ai a').setIn bi { b with children := [] }
          let (ac, _) ← calcCache B a' chA.cache none
          let par ← s.getIn p
          let (_, cs) ← vremove (par.children.set aArr { chA with cache := ac }) bArr
          let par := { par with children := cs }
          let s := s.setIn p par
          let s ← purge s bI
          let s ← updSlotsFrom s p bArr
          let s ← applyReparent s rp
          pure (if par.isLack then some p else none, s)
        else do
          -- merge a into b, delete a
          let rp := reparentEntries a.children bi 0 ++ reparentEntries b.children bi a.children.length
          let b' := { b with children := a.children ++ b.children }
          let s := (s.setIn ai { a with children := [] }).setIn bi b'
          let (bc, _) ← calcCache B b' chB.cache none
          let par ← s.getIn p
          let (_, cs) ← vremove (par.children.set bArr { chB with cache := bc }) aArr
          let par := { par with children := cs }
          let s := s.setIn p par
          let s ← purge s aI
          let s ← updSlotsFrom s p aArr
          let s ← applyReparent s rp
          pure (if par.isLack then some p else none, s)

/-- `BTree::handle_lack_recursively` (src/lib.rs:1985-1990). -/
def handleLackF (B : Trait E C D) : Nat → Tree E C → Nat → M (Tree E C)
  | 0, _, _ => .error .fuel
  | n + 1, s, x => do
    match ← handleLackSingle B s x with
    | (some p, s) => handleLackF B n s p
    | (none, s) => pure s

/-- `BTree::handle_lack_recursively` (src/lib.rs:1985-1990). -/
def handleLack (B : Trait E C D) (s : Tree E C) (x : Nat) : M (Tree E C) := handleLackF B s.fuel s x

/-- `BTree::remove_internal_node` (src/lib.rs:955-976). -/
def removeInternalF (B : Trait E C D) : Nat → Tree E C → Nat → M (Tree E C)
  | 0, _, _ => .error .fuel
  | n + 1, s, x =>
    if x = s.root then .ok s
    else do
      let node ← s.getIn x
      let s := { s with inn := s.inn.remove x }
      let p ← unwrap node.parent
      let par ← s.getIn p
      let (_, cs) ← vremove par.children node.slot
      let par := { par with children := cs }
      let s := s.setIn p par
      let s ← updSlotsFrom s p node.slot
      if par.isEmpty then removeInternalF B n s p
      else if par.isLack then handleLack B s p
      else pure s

/-- `BTree::remove_leaf` (src/lib.rs:934-953). -/
def removeLeaf (B : Trait E C D) (s : Tree E C) (pos : Cursor) : M (Option E × Tree E C) :=
  match s.lf.get pos.leaf with
  | none => pure (none, s)
  | some leaf => do
    let parent ← s.getIn leaf.parent
    let i ← getLeafSlot parent.children pos.leaf
    let (child, cs) ← vremove parent.children i
    let par := { parent with children := cs }
    let s := s.setIn leaf.parent par
    -- `debug_assert_eq!` (src/lib.rs:942)
    assertM (decide (child.arena.raw = pos.leaf))
    let removed ← s.getLf child.arena.raw
    let s := { s with lf := s.lf.remove child.arena.raw }
    let s ← recursiveUpdateCache B s (.internal leaf.parent) B.useDiff none
    let s ← (if par.isEmpty then removeInternalF B s.fuel s leaf.parent
      else if par.isLack then handleLack B s leaf.parent
      else pure s : M (Tree E C))
    pure (some removed.elem, s)

end GB
