import Verif.Model.Rle

/-!
# Model of `src/generic_impl/gap_buffer.rs`
-/

namespace GB

/-- `struct GapBuffer` (src/generic_impl/gap_buffer.rs:10-15).  `buffer` is the fixed array; its length
is the capacity `MAX_STRING_SIZE` (128, or 12 under `cfg(test)`), a parameter of the model.  The `u16`
fields are natural numbers (they never exceed the capacity). -/
structure GapBuf where
  buffer : List UInt8
  gapStart : Nat
  gapLen : Nat
deriving Repr, DecidableEq

namespace GapBuf

/-- `GapBuffer::new` (src/generic_impl/gap_buffer.rs:18-24). -/
def new (cap : Nat) : GapBuf := ⟨List.replicate cap 0, 0, cap⟩

/-- `GapBuffer::capacity` (src/generic_impl/gap_buffer.rs:121-123). -/
def capacity (g : GapBuf) : Nat := g.buffer.length

/-- `GapBuffer::len` (src/generic_impl/gap_buffer.rs:126-128). -/
def len (g : GapBuf) : Nat := g.buffer.length - g.gapLen

/-- `slice::copy_within(a..b, d)`: panics if the source or the destination is out of bounds
(src/generic_impl/gap_buffer.rs:38, 44). -/
def copyWithin (buf : List UInt8) (a b d : Nat) : M (List UInt8) :=
  if a ≤ b ∧ b ≤ buf.length ∧ d + (b - a) ≤ buf.length then
    .ok (buf.take d ++ (buf.take b).drop a ++ buf.drop (d + (b - a)))
  else .error .panic

/-- `buf[i..i + bytes.len()].copy_from_slice(bytes)` (src/generic_impl/gap_buffer.rs:72, 89, 90). -/
def copyFrom (buf : List UInt8) (i : Nat) (bytes : List UInt8) : M (List UInt8) :=
  if i + bytes.length ≤ buf.length then
    .ok (buf.take i ++ bytes ++ buf.drop (i + bytes.length))
  else .error .panic

/-- `GapBuffer::shift_at` (src/generic_impl/gap_buffer.rs:26-48). -/
def shiftAt (g : GapBuf) (index : Nat) : M GapBuf :=
  if g.len < index then .error .panic
  else
    let gapEnd := g.gapStart + g.gapLen
    if index = g.gapStart then .ok g
    else if index < g.gapStart then do
      let mv := g.gapStart - index
      let buf ← copyWithin g.buffer index g.gapStart (gapEnd - mv)
      pure { g with buffer := buf, gapStart := g.gapStart - mv }
    else do
      let mv := index - g.gapStart
      let moveEnd := min g.buffer.length (gapEnd + mv)
      let buf ← copyWithin g.buffer gapEnd moveEnd g.gapStart
      pure { g with buffer := buf, gapStart := g.gapStart + mv }

/-- `GapBuffer::push` (src/generic_impl/gap_buffer.rs:51-59): pushes at the gap start (not at the end!). `none` is `Err`. -/
def push (g : GapBuf) (v : UInt8) : M (Option GapBuf) :=
  if g.gapLen = 0 then .ok none
  else if g.gapStart < g.buffer.length then
    .ok (some ⟨g.buffer.set g.gapStart v, g.gapStart + 1, g.gapLen - 1⟩)
  else .error .panic

/-- `GapBuffer::insert_bytes` (src/generic_impl/gap_buffer.rs:66-76); `none` is `Err(())` (buffer unchanged). -/
def insertBytes (g : GapBuf) (index : Nat) (bytes : List UInt8) : M (Option GapBuf) :=
  if g.gapLen < bytes.length then .ok none
  else do
    let g ← g.shiftAt index
    let buf ← copyFrom g.buffer index bytes
    pure (some ⟨buf, g.gapStart + bytes.length, g.gapLen - bytes.length⟩)

/-- `GapBuffer::push_bytes` (src/generic_impl/gap_buffer.rs:62-64). -/
def pushBytes (g : GapBuf) (bytes : List UInt8) : M (Option GapBuf) := g.insertBytes g.len bytes

/-- `GapBuffer::insert_bytes_pair` (src/generic_impl/gap_buffer.rs:78-94). -/
def insertBytesPair (g : GapBuf) (index : Nat) (l r : List UInt8) : M (Option GapBuf) :=
  let len := l.length + r.length
  if g.gapLen < len then .ok none
  else do
    let g ← g.shiftAt index
    let buf ← copyFrom g.buffer index l
    let buf ← copyFrom buf (index + l.length) r
    pure (some ⟨buf, g.gapStart + len, g.gapLen - len⟩)

/-- `GapBuffer::delete` (src/generic_impl/gap_buffer.rs:96-118), bounds already resolved to `start..end`. -/
def delete (g : GapBuf) (start stop : Nat) : M GapBuf :=
  let stop := min stop g.len
  let start := min (min start g.len) stop
  if start = stop then .ok g
  else do
    let g ← g.shiftAt stop
    pure { g with gapStart := start, gapLen := g.gapLen + (stop - start) }

/-- `GapBuffer::delete` (src/generic_impl/gap_buffer.rs:96-118) of any range. -/
def deleteB (g : GapBuf) (lo hi : PBound) : M GapBuf := g.delete lo.start (hi.stop g.len)

/-- `GapBuffer::as_bytes` (src/generic_impl/gap_buffer.rs:130-135). -/
def asBytes (g : GapBuf) : List UInt8 × List UInt8 :=
  (g.buffer.take g.gapStart, g.buffer.drop (g.gapStart + g.gapLen))

/-- `GapBuffer::to_vec` (src/generic_impl/gap_buffer.rs:138-144). -/
def toVec (g : GapBuf) : List UInt8 := g.asBytes.1 ++ g.asBytes.2

/-- Loop of `GapBuffer::from_str` (src/generic_impl/gap_buffer.rs:146-160) on the remaining bytes
`elem[i..]`; the lazy iterator is modelled by the list of its items. -/
def fromStrF (cap : Nat) : Nat → List UInt8 → M (List GapBuf)
  | 0, _ => .error .fuel
  | n + 1, rest =>
    match rest with
    | [] => .ok []
    | _ => do
      let g ← unwrap (← (new cap).pushBytes (rest.take cap))
      let gs ← fromStrF cap n (rest.drop cap)
      pure (g :: gs)

/-- `GapBuffer::from_str` (src/generic_impl/gap_buffer.rs:146-160). -/
def fromStr (cap : Nat) (s : List UInt8) : M (List GapBuf) := fromStrF cap (s.length + 1) s

/-- `l[a..b]` (panics out of bounds; src/generic_impl/gap_buffer.rs:155, 177, 180). -/
def vslice (l : List UInt8) (a b : Nat) : M (List UInt8) :=
  if a ≤ b ∧ b ≤ l.length then .ok ((l.take b).drop a) else .error .panic

/-- `<GapBuffer as Sliceable>::_slice` (src/generic_impl/gap_buffer.rs:170-186). -/
def slice (g : GapBuf) (start stop : Nat) : M GapBuf := do
  let gb := new g.capacity
  let (l, r) := g.asBytes
  let gb ← (if start < l.length then do
      let p ← vslice l start (min stop l.length)
      unwrap (← gb.pushBytes p)
    else pure gb : M GapBuf)
  let gb ← (if l.length < stop then do
    let p ← vslice r (start - l.length) (stop - l.length)
    unwrap (← gb.pushBytes p)
  else pure gb : M GapBuf)
  -- `debug_assert_eq!` (src/generic_impl/gap_buffer.rs:184)
  assertM (decide (start ≤ stop ∧ gb.len = stop - start))
  pure gb

/-- `<GapBuffer as Sliceable>::slice_` (src/generic_impl/gap_buffer.rs:188-206), bounds already resolved. -/
def sliceMut (g : GapBuf) (start stop : Nat) : M GapBuf := do
  let g ← g.delete stop g.len
  let g ← g.delete 0 start
  -- `debug_assert_eq!` (src/generic_impl/gap_buffer.rs:205)
  assertM (decide (start ≤ stop ∧ g.len = stop - start))
  pure g

/-- `<GapBuffer as Sliceable>::slice_` (src/generic_impl/gap_buffer.rs:188-206) of any range. -/
def sliceMutB (g : GapBuf) (lo hi : PBound) : M GapBuf := g.sliceMut lo.start (hi.stop g.len)

/-- `<GapBuffer as Sliceable>::split` (src/generic_impl/gap_buffer.rs:208-218): `(self, right)`. -/
def split (g : GapBuf) (pos : Nat) : M (GapBuf × GapBuf) := do
  let g ← g.shiftAt pos
  let r ← unwrap (← (new g.capacity).pushBytes g.asBytes.2)
  pure ({ g with gapLen := g.capacity - pos }, r)

/-- `<GapBuffer as Mergeable>::can_merge` (src/generic_impl/gap_buffer.rs:222-224). -/
def canMerge (g h : GapBuf) : Bool := g.len + h.len ≤ g.capacity

/-- `<GapBuffer as Mergeable>::merge_right` (src/generic_impl/gap_buffer.rs:226-229). -/
def mergeRight (g rhs : GapBuf) : M GapBuf := do
  unwrap (← g.insertBytesPair g.len rhs.asBytes.1 rhs.asBytes.2)

/-- `<GapBuffer as Mergeable>::merge_left` (src/generic_impl/gap_buffer.rs:231-234). -/
def mergeLeft (g left : GapBuf) : M GapBuf := do
  unwrap (← g.insertBytesPair 0 left.asBytes.1 left.asBytes.2)

/-- `<GapBuffer as TryInsert>::try_insert` (src/generic_impl/gap_buffer.rs:238-249). -/
def tryInsert (g : GapBuf) (pos : Nat) (e : GapBuf) : M (GapBuf ⊕ GapBuf) :=
  if g.capacity < g.len + e.len then .ok (.inr e)
  else do
    let g ← unwrap (← g.insertBytesPair pos e.asBytes.1 e.asBytes.2)
    pure (.inl g)

/-- `<GapBuffer as CanRemove>::can_remove` (src/generic_impl/gap_buffer.rs:253-255). -/
def canRemove (g : GapBuf) : Bool := g.len = 0

end GapBuf
end GB
