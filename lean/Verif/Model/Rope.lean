import Verif.Model.Iter
import Verif.Model.GapBuffer
import Verif.Model.LenFinder

/-!
# Model of `src/generic_impl/rope.rs`

Strings are byte lists (`str::as_bytes`).  `cap` is `MAX_STRING_SIZE`.
-/

namespace GB
open Tree

/-- `impl BTreeTrait for RopeTrait` (src/generic_impl/rope.rs:276-312) with the element traits of `GapBuffer`
(src/generic_impl/gap_buffer.rs:163-256). `isize` is modelled by `Int`. -/
def ropeTrait : Trait GapBuf Int Int where
  rleLen := GapBuf.len
  split := GapBuf.split
  canMerge := GapBuf.canMerge
  mergeRight := GapBuf.mergeRight
  mergeLeft := GapBuf.mergeLeft
  tryInsert := GapBuf.tryInsert
  canRemove := GapBuf.canRemove
  useDiff := true
  dflt := 0
  calcC := fun c cs => .ok (cs.sum, cs.sum - c)
  apply := fun c d => .ok (c + d)
  mergeDiff := fun a b => a + b
  elemCache := fun e => (e.len : Int)
  newCacheToDiff := fun c => c
  subCache := fun a b => a - b

/-- `UseLengthFinder::get_len` for `RopeTrait` (src/generic_impl/rope.rs:30-35): `*cache as usize`. -/
def ropeLen (c : Int) : Nat := c.toNat

/-- the length query of the rope (src/generic_impl/rope.rs:96) -/
def ropeQuery : Query GapBuf Int Nat LenFinder := lenQuery ropeTrait ropeLen

/-- `struct Cursor` of src/generic_impl/rope.rs:17-21. -/
structure RopeCursor where
  pos : Nat
  leaf : Nat
deriving Repr, DecidableEq

/-- `struct Rope` (src/generic_impl/rope.rs:24-28). -/
structure Rope where
  tree : Tree GapBuf Int
  cursor : Option RopeCursor

namespace Rope

/-- `Rope::new` (src/generic_impl/rope.rs:225-230). -/
def new : Rope := ⟨newTree ropeTrait, none⟩

/-- `Rope::len` (src/generic_impl/rope.rs:39-41). -/
def len (r : Rope) : Nat := r.tree.rootCache.toNat

/-- `Rope::is_empty` (src/generic_impl/rope.rs:44-46). -/
def isEmpty (r : Rope) : Bool := r.tree.rootCache = 0

/-- `for chunk in .. { self.tree.push(chunk); }` (src/generic_impl/rope.rs:54-56). -/
def pushAll : Tree GapBuf Int → List GapBuf → M (Tree GapBuf Int)
  | t, [] => .ok t
  | t, g :: gs => do
    let (_, t) ← push ropeTrait t g
    pushAll t gs

/-- The closure passed to `update_leaf` in `Rope::insert` (src/generic_impl/rope.rs:68-82); the flag `success` is
returned as well. -/
def insertClosure (cap offset : Nat) (bytes : List UInt8) (leaf : GapBuf) :
    M (Bool × (GapBuf × Bool × Option GapBuf × Option GapBuf)) :=
  if leaf.len + bytes.length < cap then do
    let g ← unwrap (← leaf.insertBytes offset bytes)
    pure (true, (g, true, none, none))
  else do
    let (l, right) ← leaf.split offset
    if l.len + bytes.length < cap then do
      match ← l.pushBytes bytes with
      | some l' => pure (true, (l', true, some right, none))
      | none => pure (false, (l, true, some right, none))
    else do
      match ← right.insertBytes 0 bytes with
      | some right' => pure (true, (l, true, some right', none))
      | none => pure (false, (l, true, some right, none))

/-- The cached-cursor fast path of `Rope::insert` (src/generic_impl/rope.rs:60-94).  `none`: not applicable;
`some (success, r)` otherwise. -/
def insertFast (cap : Nat) (r : Rope) (index : Nat) (bytes : List UInt8) : M (Option (Bool × Rope)) :=
  match r.cursor with
  | none => .ok none
  | some ⟨pos, leaf⟩ =>
    if pos ≤ index then do
      let node ← r.tree.getLf leaf
      if index ≤ pos + node.elem.len then do
        let offset := index - pos
        let (success, _) ← insertClosure cap offset bytes node.elem
        let (valid, _, t) ← updateLeaf ropeTrait r.tree leaf (fun e => do
          let (_, res) ← insertClosure cap offset bytes e
          pure res)
        pure (some (success, ⟨t, if valid then r.cursor else none⟩))
      else pure none
    else .ok none

/-- The cursor computed from the query in `Rope::insert` (src/generic_impl/rope.rs:97-115). `usize` subtractions that
would underflow panic. -/
def insertCursor (t : Tree GapBuf Int) (index : Nat) (q : Option QueryResult) (f : LenFinder) :
    M (Option RopeCursor) :=
  match q with
  | none => .ok none
  | some q =>
    if q.cursor.offset = 0 then
      match f.parent with
      | none => .ok none
      | some p =>
        if f.slot = 0 then .ok none
        else do
          let node ← t.getIn p
          let child ← vget node.children (f.slot - 1)
          assertM (decide (child.cache.toNat ≤ index))
          pure (some ⟨index - child.cache.toNat, child.arena.raw⟩)
    else do
      assertM (decide (q.cursor.offset ≤ index))
      pure (some ⟨index - q.cursor.offset, q.cursor.leaf⟩)

/-- The slow path of `Rope::insert` (src/generic_impl/rope.rs:96-118). -/
def insertSlow (cap : Nat) (r : Rope) (index : Nat) (bytes : List UInt8) : M Rope := do
  let (q, f) ← queryWithFinder ropeQuery r.tree index
  let cur ← insertCursor r.tree index q f
  let chunks ← GapBuf.fromStr cap bytes
  let t ← insertMany ropeTrait r.tree (q.map QueryResult.cursor) chunks
  pure ⟨t, cur⟩

/-- `Rope::insert` (src/generic_impl/rope.rs:48-119). -/
def insert (cap : Nat) (r : Rope) (index : Nat) (bytes : List UInt8) : M Rope :=
  if r.len < index then .error .panic
  else if r.isEmpty then do
    let chunks ← GapBuf.fromStr cap bytes
    let t ← pushAll r.tree chunks
    pure { r with tree := t }
  else do
    match ← insertFast cap r index bytes with
    | some (true, r) => pure r
    | some (false, r) => insertSlow cap r index bytes
    | none => insertSlow cap r index bytes

/-- The cached-cursor fast path of `Rope::delete_range` (src/generic_impl/rope.rs:142-163). -/
def deleteFast (r : Rope) (start stop : Nat) : M (Option Rope) :=
  match r.cursor with
  | none => .ok none
  | some ⟨pos, leaf⟩ =>
    if pos ≤ start then do
      let node ← r.tree.getLf leaf
      if stop ≤ pos + node.elem.len then do
        let (valid, _, t) ← updateLeaf ropeTrait r.tree leaf (fun e => do
          let g ← e.delete (start - pos) (stop - pos)
          pure (g, true, none, none))
        pure (some ⟨t, if valid then r.cursor else none⟩)
      else pure none
    else .ok none

/-- `Rope::delete_range` (src/generic_impl/rope.rs:121-202), bounds already resolved to `start..end`. -/
def deleteRange (r : Rope) (start stop : Nat) : M Rope :=
  if r.isEmpty then .ok r
  else
    let stop := min stop r.len
    let start := min start stop
    if start = stop then .ok r
    else do
      match ← deleteFast r start stop with
      | some r => pure r
      | none =>
        if stop - start = 1 then do
          let (c, _, t) ← updateLeafBySearch ropeTrait ropeQuery r.tree start (fun e pos => do
            let g ← e.delete pos.cursor.offset (pos.cursor.offset + 1)
            pure (g, some (-1, none, none)))
          match c with
          | none => pure ⟨t, none⟩
          | some c => do
            assertM (decide (c.offset ≤ start))
            pure ⟨t, some ⟨start - c.offset, c.leaf⟩⟩
        else do
          let a ← query ropeQuery r.tree start
          let b ← query ropeQuery r.tree stop
          match a, b with
          | some a, some b =>
            if a.cursor.leaf = b.cursor.leaf then do
              let leaf ← r.tree.getLf a.cursor.leaf
              if a.cursor.offset = 0 ∧ b.cursor.offset = leaf.elem.len then do
                let (_, t) ← removeLeaf ropeTrait r.tree a.cursor
                pure ⟨t, none⟩
              else do
                let g ← leaf.elem.delete a.cursor.offset b.cursor.offset
                let t := r.tree.setLf a.cursor.leaf { leaf with elem := g }
                let t ← recursiveUpdateCache ropeTrait t (.leaf a.cursor.leaf) true
                  (some ((start : Int) - (stop : Int)))
                pure ⟨t, none⟩
            else do
              let d ← drainNew ropeTrait r.tree (some a) (some b)
              let (_, t) ← drainDrop ropeTrait d
              pure ⟨t, none⟩
          | a, b => do
            let d ← drainNew ropeTrait r.tree a b
            let (_, t) ← drainDrop ropeTrait d
            pure ⟨t, none⟩

/-- `Rope::delete_range` (src/generic_impl/rope.rs:121-202) of any range; the bounds are resolved after the test for emptiness,
which makes no difference. -/
def deleteRangeB (r : Rope) (lo hi : PBound) : M Rope := r.deleteRange lo.start (hi.stop r.len)

/-- `Rope::iter` (src/generic_impl/rope.rs:204-219), run to exhaustion. -/
def iter (r : Rope) : M (List GapBuf) := do
  match ← firstPath r.tree with
  | none => pure []
  | some first => do
    let last ← unwrap (← lastPath r.tree)
    let ns ← iterNodesF (leafFuel r.tree) r.tree last.head? first
    pure (ns.map fun n => n.2.elem)

/-- `<Rope as Display>::fmt` (src/generic_impl/rope.rs:263-274), up to the final UTF-8 check:
the bytes. -/
def toBytes (r : Rope) : M (List UInt8) := do
  let gs ← r.iter
  pure (gs.flatMap fun g => g.asBytes.1 ++ g.asBytes.2)

/-- `<Rope as Display>::fmt` (src/generic_impl/rope.rs:263-274), hence `to_string()`: the final
`std::str::from_utf8(..).unwrap()` panics on bytes that are not UTF-8 (`String.fromUTF8?` of the Lean library is
`std::str::from_utf8`). -/
def toStr (r : Rope) : M String := do
  let bytes ← r.toBytes
  unwrap (String.fromUTF8? bytes.toByteArray)

/-- `Rope::insert` (src/generic_impl/rope.rs:48) takes a `&str`, of which it uses the bytes. -/
def insertStr (cap : Nat) (r : Rope) (i : Nat) (s : String) : M Rope := r.insert cap i s.toUTF8.data.toList

/-- `Rope::clear` (src/generic_impl/rope.rs:242-244): the cached cursor is kept. -/
def clear (r : Rope) : Rope := { r with tree := GB.clear ropeTrait r.tree }

end Rope
end GB
