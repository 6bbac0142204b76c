import Verif.Model.Trait

/-!
# Model of `src/rle.rs` (the provided methods of `Sliceable`)
-/

namespace GB
variable {E : Type}

/-- `Sliceable::split`, provided version (src/rle.rs:33-38): `right = slice(pos..)`, `self = slice(..pos)`. -/
def defaultSplit (rleLen : E → Nat) (slice : E → Nat → Nat → M E) (e : E) (pos : Nat) : M (E × E) := do
  let right ← slice e pos (rleLen e)
  let left ← slice e 0 pos
  pure (left, right)

/-- `Sliceable::update_with_split` (src/rle.rs:48-91), bounds resolved to `start..end`:
`(self, (first result, second result))`. -/
def updateWithSplit (rleLen : E → Nat) (split : E → Nat → M (E × E)) (e : E) (start stop : Nat)
    (f : E → M E) : M (E × Option E × Option E) :=
  if stop ≤ start then .ok (e, none, none)
  else
    match decide (start = 0), decide (stop = rleLen e) with
    | true, true => do
      let e ← f e
      pure (e, none, none)
    | true, false => do
      let (e, right) ← split e stop
      let e ← f e
      pure (e, some right, none)
    | false, true => do
      let (e, right) ← split e start
      let right ← f right
      pure (e, some right, none)
    | false, false => do
      let (e, right) ← split e stop
      let (e, middle) ← split e start
      let middle ← f middle
      pure (e, some middle, some right)

/-- `core::ops::Bound` of positions (src/rle.rs:12-22). -/
inductive PBound
  | included (x : Nat)
  | excluded (x : Nat)
  | unbounded

/-- The `match range.start_bound()` of `Sliceable::slice` (src/rle.rs:12-16), of `update_with_split` (src/rle.rs:53-57), of
`GapBuffer::delete` and `slice_` (src/generic_impl/gap_buffer.rs:97-101, 192-196) and of `Rope::delete_range`
(src/generic_impl/rope.rs:126-130).  Overflow of `x + 1` is not modelled. -/
def PBound.start : PBound → Nat
  | .included x => x
  | .excluded x => x + 1
  | .unbounded => 0

/-- The `match range.end_bound()` of the same functions (src/rle.rs:18-22, 59-63; src/generic_impl/gap_buffer.rs:102-106,
197-201; src/generic_impl/rope.rs:131-135), with `len` for `self.rle_len()` or `self.len()`. -/
def PBound.stop (len : Nat) : PBound → Nat
  | .included x => x + 1
  | .excluded x => x
  | .unbounded => len

/-- `Sliceable::slice` (src/rle.rs:11-25) in terms of `_slice`. -/
def sliceB (rleLen : E → Nat) (slice : E → Nat → Nat → M E) (e : E) (lo hi : PBound) : M E :=
  slice e lo.start (hi.stop (rleLen e))

/-- `Sliceable::split`, provided version (src/rle.rs:33-38), with the ranges as written there: `slice(pos..)`, then `slice_(..pos)`
(src/rle.rs:29-31), which assigns `slice(..pos)`. -/
def defaultSplitB (rleLen : E → Nat) (slice : E → Nat → Nat → M E) (e : E) (pos : Nat) : M (E × E) := do
  let right ← sliceB rleLen slice e (.included pos) .unbounded
  let left ← sliceB rleLen slice e .unbounded (.excluded pos)
  pure (left, right)

/-- `Sliceable::update_with_split` (src/rle.rs:48-91). -/
def updateWithSplitB (rleLen : E → Nat) (split : E → Nat → M (E × E)) (e : E) (lo hi : PBound) (f : E → M E) : M (E × Option E × Option E) :=
  updateWithSplit rleLen split e lo.start (hi.stop (rleLen e)) f

end GB
