import Verif.Model.Ops

/-!
# Model of `Drain` (src/iter.rs)
-/

namespace GB
variable {E C D Q F : Type}
open Tree

/-- `struct TempStore` (src/iter.rs:14-19).  Paths are deepest-first. -/
structure TempStore where
  startPath : List PIdx
  endPath : List PIdx
  before : Option Idx
  after : Option Idx

/-- `struct Drain` (src/iter.rs:21-27). -/
structure Drain (E C : Type) where
  tree : Tree E C
  path : List PIdx
  done : Bool
  endCursor : Option Cursor
  store : Option TempStore

/-- `Drain::none` (src/iter.rs:87-95). -/
def drainNone (s : Tree E C) : Drain E C := ⟨s, [], true, none, none⟩

/-- `prev_same_level_in_node` on any index (src/lib.rs:2370-2401). -/
def prevSameLevel (s : Tree E C) : Idx → M (Option Idx)
  | .leaf l => prevSameLevelLeaf s l
  | .internal x => prevSameLevelIn s.fuel s x

/-- `next_same_level_in_node` on any index (src/lib.rs:2338-2368). -/
def nextSameLevel (s : Tree E C) : Idx → M (Option Idx)
  | .leaf l => nextSameLevelLeaf s l
  | .internal x => nextSameLevelIn s.fuel s x

/-- `Drain::new` (src/iter.rs:30-85). -/
def drainNew (B : Trait E C D) (s : Tree E C) (a b : Option QueryResult) : M (Drain E C) :=
  match a, b with
  | some a, some b => do
    let (ei, s) ← splitLeafIfNeeded B s b.cursor
    let (si, s) ← splitLeafIfNeeded B s a.cursor
    match si.newPos with
    | none => pure (drainNone s)
    | some st => do
      let sp ← getPath s (.leaf st.leaf)
      let el ← (match ei.newPos with
        | some c => pure c.leaf
        | none => do unwrap (← lastLeaf s) : M Nat)
      let ep ← getPath s (.leaf el)
      let sLast ← unwrap sp.head?
      let before ← (if st.offset = 0 then prevSameLevel s sLast.arena
        else pure (some sLast.arena) : M (Option Idx))
      let eLast ← unwrap ep.head?
      let after ← (match ei.newPos with
        | some e => do
          let leaf ← s.getLf e.leaf
          if B.rleLen leaf.elem = e.offset then nextSameLevel s eLast.arena
          else pure (some eLast.arena)
        | none => pure none : M (Option Idx))
      pure ⟨s, sp, false, ei.newPos, some ⟨sp, ep, before, after⟩⟩
  | _, _ => .ok (drainNone s)

/-- `Drain::next` (src/iter.rs:101-125). -/
def drainNext (d : Drain E C) : M (Option E × Drain E C) :=
  if d.done then .ok (none, d)
  else do
    let last ← unwrap d.path.head?
    let l ← last.arena.unwrapLeaf
    if d.endCursor.map Cursor.leaf = some l then pure (none, d)
    else do
      let (path, done) ← (do
        match ← nextSibling d.tree d.path with
        | some p' => pure (p', false)
        | none => pure (d.path, true) : M (List PIdx × Bool))
      let leaf ← d.tree.getLf l
      pure (some leaf.elem,
        { d with tree := { d.tree with lf := d.tree.lf.remove l }, path := path, done := done })

/-- `Drain::ensure_finished` (src/iter.rs:129-131): the items that were left. -/
def drainFinish : Nat → Drain E C → M (List E × Drain E C)
  | 0, _ => .error .fuel
  | n + 1, d => do
    match ← drainNext d with
    | (none, d) => pure ([], d)
    | (some e, d) => do
      let (es, d) ← drainFinish n d
      pure (e :: es, d)

/-- `n` calls of `next` by the user, collecting the items (`Drain::next`, src/iter.rs:101-125). -/
def drainTake : Nat → Drain E C → M (List E × Drain E C)
  | 0, d => .ok ([], d)
  | n + 1, d => do
    let (r, d) ← drainNext d
    let (es, d) ← drainTake n d
    pure (r.toList ++ es, d)

/-- `filter_deleted_children` (src/lib.rs:1563-1579). -/
def filterDeleted (s : Tree E C) (x : Idx) : M (Tree E C) := do
  let i ← x.unwrapInternal
  let node ← s.getIn i
  let cs := node.children.filter fun c =>
    match c.arena with
    | .leaf l => s.lf.contains l
    -- while the closure runs the node itself is still stored
    | .internal y => s.inn.contains y
  pure (s.setIn i { node with children := cs })

/-- The `while start_path[level].arena != end_path[level].arena` loop of `Drain::drop`
(src/iter.rs:151-202).  `sp`, `ep` are root-first. Returns the level, the deleted nodes, the tree. -/
def dropLoop1 (sp ep : List PIdx) : Nat → Tree E C → List Idx → M (Nat × List Idx × Tree E C)
  | level, s, deleted => do
    let a ← vget sp level
    let b ← vget ep level
    if a.arena = b.arena then pure (level, deleted, s)
    else
      match level with
      | 0 => .error .panic
      | l + 1 => do
        let an ← s.getInIdx a.arena
        let bn ← s.getInIdx b.arena
        let ds := if an.isEmpty then a.arr else a.arr + 1
        let de := if bn.isEmpty then b.arr + 1 else b.arr
        let pa ← vget sp l
        let pb ← vget ep l
        let pai ← pa.arena.unwrapInternal
        let pbi ← pb.arena.unwrapInternal
        if pa.arena = pb.arena then do
          let par ← s.getIn pai
          assertM (decide (ds ≤ de ∧ de ≤ par.children.length))
          let del := ((par.children.take de).drop ds).map Child.arena
          let cs ← delRange par.children ds de
          let s := s.setIn pai { par with children := cs }
          let s ← updSlotsFrom s pai ds
          dropLoop1 sp ep l s (deleted ++ del)
        else do
          let par ← s.getIn pai
          assertM (decide (ds ≤ par.children.length))
          let del1 := (par.children.drop ds).map Child.arena
          let cs ← delRange par.children ds par.children.length
          let s := s.setIn pai { par with children := cs }
          let parE ← s.getIn pbi
          assertM (decide (de ≤ parE.children.length))
          let del2 := (parE.children.take de).map Child.arena
          let csE ← delRange parE.children 0 de
          let s := s.setIn pbi { parE with children := csE }
          let s ← updSlotsFrom s pbi 0
          dropLoop1 sp ep l s (deleted ++ del1 ++ del2)

/-- The `while level >= 1` loop of `Drain::drop` (src/iter.rs:204-222). -/
def dropLoop2 (sp : List PIdx) : Nat → Tree E C → List Idx → M (List Idx × Tree E C)
  | 0, s, deleted => .ok (deleted, s)
  | l + 1, s, deleted => do
    let a ← vget sp (l + 1)
    let pa ← vget sp l
    -- `get2_mut` (src/iter.rs:205-207)
    let ai ← a.arena.unwrapInternal
    let pai ← pa.arena.unwrapInternal
    assertM (decide (ai ≠ pai))
    let child ← s.getIn ai
    let par ← s.getIn pai
    if child.isEmpty then do
      let c ← vget par.children a.arr
      assertM (decide (c.arena = a.arena))
      let (c, cs) ← vremove par.children a.arr
      let s := s.setIn pai { par with children := cs }
      let s ← updSlotsFrom s pai a.arr
      dropLoop2 sp l s (deleted ++ [c.arena])
    else pure (deleted, s)

/-- `for x in deleted { tree.purge(x) }` (src/iter.rs:225-227). -/
def purgeAll : Tree E C → List Idx → M (Tree E C)
  | s, [] => .ok s
  | s, x :: xs => do
    let s ← purge s x
    purgeAll s xs

/-- The inner `for i in 1..path.len() - 1` loop of `handle_lack_on_path_to_leaf`
(src/iter.rs:269-280): over the inner nodes of the path, root side first. Returns `lack_count`. -/
def lackOnPath (B : Trait E C D) : Tree E C → List PIdx → Nat → M (Nat × Tree E C)
  | s, [], k => .ok (k, s)
  | s, i :: rest, k => do
    let x ← i.arena.unwrapInternal
    let node ← s.getIn x
    if node.isLack then do
      let (pl, s) ← handleLackSingle B s x
      lackOnPath B s rest (if pl.isSome then k + 1 else k)
    else lackOnPath B s rest k

/-- The `loop` of `handle_lack_on_path_to_leaf` (src/iter.rs:266-287). -/
def handleLackPathF (B : Trait E C D) : Nat → Tree E C → Idx → Nat → M (Tree E C)
  | 0, _, _, _ => .error .fuel
  | n + 1, s, leaf, lastCount => do
    let path ← getPath s leaf
    -- `1..path.len() - 1` in root-first order
    let (k, s) ← lackOnPath B s ((path.drop 1).dropLast).reverse 0
    if k = 0 ∨ k = lastCount then pure s else handleLackPathF B n s leaf k

/-- `handle_lack_on_path_to_leaf` (src/iter.rs:263-288).  Bound: every round but a few merges two
nodes. -/
def handleLackPath (B : Trait E C D) (s : Tree E C) (leaf : Idx) : M (Tree E C) :=
  handleLackPathF B (4 * s.inn.items.length + 4) s leaf 0

/-- `seal` (src/iter.rs:255-261). -/
def sealTree (B : Trait E C D) (s : Tree E C) (leaf : Idx) : M (Tree E C) := do
  let s ← handleLackPath B s leaf
  let s ← (do
    match ← nextSameLevel s leaf with
    | some sib => handleLackPath B s sib
    | none => pure s : M (Tree E C))
  tryReduceLevels s

/-- `<Drain as Drop>::drop` (src/iter.rs:134-253). Also returns the items discarded by
`ensure_finished`. -/
def drainDrop (B : Trait E C D) (d : Drain E C) : M (List E × Tree E C) := do
  let (rest, d) ← drainFinish (leafFuel d.tree) d
  let st ← unwrap d.store
  let s := d.tree
  let sp := st.startPath.reverse
  let ep := st.endPath.reverse
  assertM (decide (2 ≤ sp.length))
  let level := sp.length - 2
  let a ← vget sp level
  let s ← filterDeleted s a.arena
  let b ← vget ep level
  let s ← filterDeleted s b.arena
  let (level, deleted, s) ← dropLoop1 sp ep level s []
  let (deleted, s) ← dropLoop2 sp level s deleted
  let s ← purgeAll s deleted
  let s ← (match st.after with
    | some af => recursiveUpdateCache B s af (decide (st.after = st.before)) none
    | none => pure s : M (Tree E C))
  let s ← (match st.before with
    | some be => do
      let s ← (if st.before = st.after then recursiveUpdateCache B s be B.useDiff none
        else do
          let s ← recursiveUpdateCache B s be false none
          match st.after with
          | some af => recursiveUpdateCache B s af false none
          | none => pure s : M (Tree E C))
      sealTree B s be
    | none => do
      let s ← updateRootCache B s
      tryReduceLevels s : M (Tree E C))
  pure (rest, s)

/-- `BTree::drain` (src/lib.rs:1612-1614): create, call `next` `k` times, drop. -/
def drain (B : Trait E C D) (s : Tree E C) (a b : QueryResult) (k : Nat) : M (List E × List E × Tree E C) := do
  let d ← drainNew B s (some a) (some b)
  let (es, d) ← drainTake k d
  let (rest, s) ← drainDrop B d
  pure (es, rest, s)

/-- `BTree::drain_by_query` (src/lib.rs:1616-1620): create, call `next` `k` times, drop. -/
def drainByQuery (B : Trait E C D) (q : Query E C Q F) (s : Tree E C) (a b : Q) (k : Nat) :
    M (List E × List E × Tree E C) := do
  let ra ← query q s a
  let rb ← query q s b
  let d ← drainNew B s ra rb
  let (es, d) ← drainTake k d
  let (rest, s) ← drainDrop B d
  pure (es, rest, s)

end GB
