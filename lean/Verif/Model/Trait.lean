import Verif.Model.Basic

/-!
# The trait callbacks (`BTreeTrait`, `HasLength`, `Sliceable`, `Mergeable`, `TryInsert`, `CanRemove`,
`Query`) as records of functions, and the node types
-/

namespace GB

/-- `enum ArenaIndex` (src/lib.rs:149-153). -/
inductive Idx
  | leaf (i : Nat)
  | internal (i : Nat)
deriving DecidableEq, Repr

namespace Idx

/-- `ArenaIndex::unwrap` (src/lib.rs:156-161). -/
def raw : Idx → Nat
  | leaf i => i
  | internal i => i

/-- `ArenaIndex::unwrap_leaf` (src/lib.rs:163-168). -/
def unwrapLeaf : Idx → M Nat
  | leaf i => .ok i
  | internal _ => .error .panic

/-- `ArenaIndex::unwrap_internal` (src/lib.rs:170-175). -/
def unwrapInternal : Idx → M Nat
  | leaf _ => .error .panic
  | internal i => .ok i

/-- `Child::is_internal` (src/lib.rs:380-382). -/
def isInternal : Idx → Bool
  | leaf _ => false
  | internal _ => true

/-- `Child::is_leaf` (src/lib.rs:386-388). -/
def isLeaf : Idx → Bool
  | leaf _ => true
  | internal _ => false

end Idx

/-- `struct Child<B>` (src/lib.rs:373-376). -/
structure Child (C : Type) where
  arena : Idx
  cache : C
deriving Repr

/-- `struct Node<B>` (src/lib.rs:268-272).  `parent: Option<ArenaIndex>` always holds an
`ArenaIndex::Internal` in the code, so the raw index is stored.  `slot` models the `u8` field
`parent_slot` as a natural number (all stored values are `< 12` or `255`). -/
structure Node (C : Type) where
  parent : Option Nat
  slot : Nat
  children : List (Child C)
deriving Repr

/-- `u8::MAX`, the placeholder slot (src/lib.rs:415, 1817, 2178). -/
def SLOT_MAX : Nat := 255

/-- `struct LeafNode<Elem>` (src/lib.rs:243-246). -/
structure LeafNode (E : Type) where
  elem : E
  parent : Nat
deriving Repr

/-- `struct Cursor` (src/lib.rs:123-126). -/
structure Cursor where
  leaf : Nat
  offset : Nat
deriving DecidableEq, Repr

/-- `struct QueryResult` (src/lib.rs:129-132). -/
structure QueryResult where
  cursor : Cursor
  found : Bool
deriving DecidableEq, Repr

/-- `struct FindResult` (src/lib.rs:84-88). -/
structure FindResult where
  index : Nat
  offset : Nat
  found : Bool
deriving Repr

/-- `trait BTreeTrait` (src/lib.rs:30-47) together with the element traits of src/rle.rs
(`HasLength` 103-105, `Sliceable::split` 34-38, `Mergeable` 94-101, `TryInsert` 107-111,
`CanRemove` 113-115).  A `&mut self` method returns the new value.  Simplification:
`calc_cache_internal` receives only the caches of the children (no implementation in the repo
looks at their arena indices). -/
structure Trait (E C D : Type) where
  /-- `HasLength::rle_len` -/
  rleLen : E → Nat
  /-- `Sliceable::split`: `(self afterwards, returned right part)` -/
  split : E → Nat → M (E × E)
  /-- `Mergeable::can_merge` -/
  canMerge : E → E → Bool
  /-- `Mergeable::merge_right`: `self.merge_right(rhs)` -/
  mergeRight : E → E → M E
  /-- `Mergeable::merge_left`: `self.merge_left(left)` -/
  mergeLeft : E → E → M E
  /-- `TryInsert::try_insert`: `Sum.inl` new self (`Ok(())`), `Sum.inr` the rejected element (`Err`) -/
  tryInsert : E → Nat → E → M (E ⊕ E)
  /-- `CanRemove::can_remove` of the element -/
  canRemove : E → Bool
  /-- `BTreeTrait::USE_DIFF` -/
  useDiff : Bool
  /-- `Cache::default()` -/
  dflt : C
  /-- `BTreeTrait::calc_cache_internal`: `(new cache, diff)` -/
  calcC : C → List C → M (C × D)
  /-- `BTreeTrait::apply_cache_diff` -/
  apply : C → D → M C
  /-- `BTreeTrait::merge_cache_diff` -/
  mergeDiff : D → D → D
  /-- `BTreeTrait::get_elem_cache` -/
  elemCache : E → C
  /-- `BTreeTrait::new_cache_to_diff` -/
  newCacheToDiff : C → D
  /-- `BTreeTrait::sub_cache` -/
  subCache : C → C → D

/-- `trait Query<B>` (src/lib.rs:49-60); `F` is the finder state (`Self`), `Q` the `QueryArg`. -/
structure Query (E C Q F : Type) where
  /-- `Query::init` -/
  init : Q → F
  /-- `Query::find_node` -/
  findNode : F → Q → List (Child C) → M (FindResult × F)
  /-- `Query::confirm_elem`: `((offset, found), finder)` -/
  confirm : F → Q → E → M ((Nat × Bool) × F)

/-- `struct BTree<B>` (src/lib.rs:62-71).  `root: ArenaIndex` is always `Internal`; the raw index
is stored. -/
structure Tree (E C : Type) where
  inn : Arena (Node C)
  lf : Arena (LeafNode E)
  root : Nat
  rootCache : C

namespace Node
variable {C : Type}

/-- `Node::is_full` (src/lib.rs:421-423). -/
def isFull (n : Node C) : Bool := MAXC ≤ n.children.length
/-- `Node::is_lack` (src/lib.rs:426-428). -/
def isLack (n : Node C) : Bool := n.children.length < MAXC / 2
/-- `Node::is_empty` (src/lib.rs:436-438). -/
def isEmpty (n : Node C) : Bool := n.children.length = 0
/-- `Node::is_child_leaf` (src/lib.rs:441-447). -/
def isChildLeaf (n : Node C) : Bool :=
  match n.children with
  | [] => true
  | c :: _ => c.arena.isLeaf

end Node
end GB
