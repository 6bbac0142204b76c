import Verif.Model.Harness
import Verif.Model.Bench
import Verif.Model.Rle

/-!
# Model of the crate's fixed unit tests

The tests of `src/generic_impl/rope.rs`, `src/generic_impl/ord.rs`, `src/generic_impl/gap_buffer.rs` and `tests/integration.rs` that have
their data built in, with these data as parameters.  Where a test compares with a constant, that constant is a parameter here too: what the
right value is, is part of the property (C82), not of the model.  A failed `assert_eq!` is a panic, so a run that passes is `.ok ()`.
-/

namespace GB
open Tree

/-! ## Chunks -/

/-- `gb.insert_bytes(i, bytes).unwrap(); assert_eq!(gb.to_vec(), want)` (src/generic_impl/gap_buffer.rs:265-266, 267-268, 270-271,
272-273). -/
def gapStep (g : GapBuf) (i : Nat) (bytes want : List UInt8) : M GapBuf := do
  let g ← unwrap (← g.insertBytes i bytes)
  assertM (decide (g.toVec = want))
  pure g

/-- The test `basic` of chunks (src/generic_impl/gap_buffer.rs:263-280): the four inserts are `ins` (position, bytes, expected content),
the deleted range is `a..b`, the expected halves are `left` and `right`.  The assertion on the length after the second insert (line 269)
is made after every insert. -/
def gapBasic (cap : Nat) (ins : List (Nat × List UInt8 × List UInt8)) (a b : Nat) (left right : List UInt8) : M Unit := do
  let g ← ins.foldlM (fun g x => do
    let g ← gapStep g x.1 x.2.1 x.2.2
    assertM (decide (g.len = x.2.2.length))
    pure g) (GapBuf.new cap)
  let g ← g.deleteB (.included a) (.excluded b)
  assertM (decide (g.len = left.length + right.length))
  assertM (decide (g.asBytes.1 = left))
  assertM (decide (g.asBytes.2 = right))
  assertM (decide (g.toVec = left ++ right))

/-- The test `slice` of chunks (src/generic_impl/gap_buffer.rs:283-292) for the content `bytes`, the shift to `k`, the range `a..b` and the
expected bytes `want`. -/
def gapSlice (cap : Nat) (bytes : List UInt8) (k a b : Nat) (want : List UInt8) : M Unit := do
  let g ← unwrap (← (GapBuf.new cap).pushBytes bytes)
  let g ← g.shiftAt k
  let s ← sliceB GapBuf.len GapBuf.slice g (.included a) (.excluded b)
  assertM (decide (s.toVec = want))
  let g ← g.sliceMutB (.included a) (.excluded b)
  assertM (decide (g.toVec = want))

/-! ## Ropes -/

/-- The test `test` of ropes (src/generic_impl/rope.rs:351-366): `s` is inserted, `x` at `i`, then `a..b`, `..c` and `..` are deleted;
`w1` and `w2` are the texts expected after the first two deletes. -/
def ropeBasic (cap : Nat) (s x : String) (i a b c : Nat) (w1 w2 : List Char) : M Unit := do
  let r ← Rope.new.insertStr cap 0 s
  assertM (decide (r.len = strLen s.toList))
  let r ← r.insertStr cap i x
  testIndex r
  assertM (decide (r.len = strLen s.toList + strLen x.toList))
  let r ← r.deleteRangeB (.included a) (.excluded b)
  ropeAssert r w1
  let r ← r.deleteRangeB .unbounded (.excluded c)
  ropeAssert r w2
  let r ← r.deleteRangeB .unbounded .unbounded
  ropeAssert r []
  assertM (decide (r.len = 0))

/-- The test `test_delete_middle` (src/generic_impl/rope.rs:368-373) for the text `s`, the range `a..b` and the expected text `want`. -/
def ropeDeleteMiddle (cap : Nat) (s : String) (a b : Nat) (want : List Char) : M Unit := do
  let r ← Rope.new.insertStr cap 0 s
  let r ← r.deleteRangeB (.included a) (.excluded b)
  ropeAssert r want

/-- `rope.insert(1, "x"); rope.insert(2, "y"); rope.insert(3, "z");` (src/generic_impl/rope.rs:379-381) with given positions and
strings. -/
def ropeInserts (cap : Nat) (r : Rope) : List (Nat × String) → M Rope
  | [] => .ok r
  | (i, s) :: l => do
    let r ← r.insertStr cap i s
    ropeInserts cap r l

/-- The test `test_insert_repeatedly` (src/generic_impl/rope.rs:376-384) for the inserts `l` and the expected text `want`. -/
def ropeInsertRepeatedly (cap : Nat) (l : List (Nat × String)) (want : List Char) : M Unit := do
  let r ← ropeInserts cap Rope.new l
  testIndex r
  ropeAssert r want

/-- `Rope::update_in_place` (src/generic_impl/rope.rs:238-240) is `todo!()`. -/
def updateInPlace (_ : Rope) (_ : Nat) (_ : String) : M Rope := .error .panic

/-- The ignored test `test_update` (src/generic_impl/rope.rs:388-394) for any data. -/
def ropeUpdateTest (cap : Nat) (l : List (Nat × String)) (i : Nat) (s : String) (want : List Char) : M Unit := do
  let r ← ropeInserts cap Rope.new l
  let r ← updateInPlace r i s
  ropeAssert r want

/-- The test `test_clear` (src/generic_impl/rope.rs:397-406) for the texts `s` and `t`. -/
def ropeClearTest (cap : Nat) (s t : String) : M Unit := do
  let r ← Rope.new.insertStr cap 0 s
  assertM (decide (r.len = strLen s.toList))
  let r := r.clear
  assertM (decide (r.len = 0))
  ropeAssert r []
  let r ← r.insertStr cap 0 t
  ropeAssert r t.toList

/-- The test `test_clear` (src/generic_impl/rope.rs:397-406) with the inserts `l` and `l'` in place of the single inserts of lines 399 and
404, and with the expected text `want`. -/
def ropeClearTest' (cap : Nat) (l l' : List (Nat × String)) (want : List Char) : M Unit := do
  let r ← ropeInserts cap Rope.new l
  let r ← ropeInserts cap r.clear l'
  ropeAssert r want

/-- The loop of `test_insert_many` (src/generic_impl/rope.rs:413-417) from round `i` on, `n` rounds. -/
def ropeInsertManyLoop (cap : Nat) (s : String) : Nat → Nat → Rope → List Char → M (Rope × List Char)
  | 0, _, r, expected => .ok (r, expected)
  | n + 1, i, r, expected => do
    let expected ← strInsert expected i s.toList
    let r ← r.insertStr cap i s
    ropeAssert r expected
    ropeInsertManyLoop cap s n (i + 1) r expected

/-- The test `test_insert_many` (src/generic_impl/rope.rs:409-418) for the text `s` and `n` rounds. -/
def ropeInsertMany (cap : Nat) (s : String) (n : Nat) : M Unit := do
  let _ ← ropeInsertManyLoop cap s n 0 Rope.new []
  pure ()

/-- The loop of `test_repeat_insert` (src/generic_impl/rope.rs:424-426), `n` rounds. -/
def ropeRepeatLoop (cap : Nat) (t : String) : Nat → Rope → M Rope
  | 0, r => .ok r
  | n + 1, r => do
    let r ← r.insertStr cap (r.len / 2) t
    ropeRepeatLoop cap t n r

/-- The test `test_repeat_insert` (src/generic_impl/rope.rs:421-427) for the texts `s` and `t` and `n` rounds; the rope is returned. -/
def ropeRepeat (cap : Nat) (s t : String) (n : Nat) : M Rope := do
  let r ← Rope.new.insertStr cap 0 s
  ropeRepeatLoop cap t n r

/-- The loop of `ben` (src/generic_impl/rope.rs:2723-2741) with the final assertion (2742).  The two lengths agree after every action, so
that the positions computed from `rope.len()` are those `rawAct` computes from the string: that is what the assertions (2730, 2738) check. -/
def benLoop (cap : Nat) : Rope → List Char → List RopeAction → M Unit
  | r, expected, [] => ropeAssert r expected
  | r, expected, a :: as => do
    let (r, expected) ← (match a with
      | .insert pos content => do
        let pos := pos.toNat % (r.len + 1)
        let s := u8ToString content
        let expected ← strInsert expected pos s.toList
        let r ← r.insertStr cap pos s
        pure (r, expected)
      | .delete pos len => do
        let pos := pos.toNat % (r.len + 1)
        let len := min (len.toNat % 10) (r.len - pos)
        let expected ← strDrain expected pos (pos + len)
        let r ← r.deleteRangeB (.included pos) (.excluded (pos + len))
        pure (r, expected) : M (Rope × List Char))
    assertM (decide (strLen expected = r.len))
    benLoop cap r expected as

/-! ## Ordered sets -/

/-- The test `test_delete` (src/generic_impl/ord.rs:331-336) that inserts `k` and deletes `k'` (in the code both are 12). -/
def ordDeleteTest {K : Type} [Ord K] (k k' : K) : M Unit := do
  let t ← OrdSet.new.insert k
  let (_, t) ← t.delete k'
  assertM (decide (t.map.len = 0))

/-- The loop of `depth_test` (src/generic_impl/ord.rs:394-405) from `i` on, `n` rounds; `i` is an `i32`.  The printed line evaluates
`depth()` and `internal_avg_children_num()`; the latter cannot panic. -/
def depthLoop : Nat → Nat → OrdSet UInt64 → M (OrdSet UInt64)
  | 0, _, t => .ok t
  | n + 1, i, t => do
    let t ← t.insert (UInt64.ofNat i)
    let j : Int32 := Int32.ofNat i
    let m := ~~~j + 1
    (if j &&& m = j then do
      let _ ← depth t.map.tree
      pure () else pure () : M Unit)
    depthLoop n (i + 1) t

/-- The ignored test `depth_test` (src/generic_impl/ord.rs:392-407) for `0..n` in place of `0..2_100_000`. -/
def depthTest (n : Nat) : M Unit := do
  let t ← depthLoop n 0 OrdSet.new
  check (ordTrait UInt64 Unit) t.map.tree

/-! ## The range map -/

/-- The test `basic` of the range map (tests/integration.rs:9-24): `a..b` gets `v`, then `c..d` gets `w`; `ps` and `qs` are the asserted
positions with the expected values. -/
def rangeBasicTest (h1 h2 : HashOrd RElem) (a b c d : Nat) (v w : Int) (ps qs : List (Nat × Option Int)) : M Unit := do
  let s ← RangeMap.insert h1 RangeMap.new a b v
  checkAll (fun p => rangeAssert s p.1 p.2) ps
  let s ← RangeMap.insert h2 s c d w
  checkAll (fun p => rangeAssert s p.1 p.2) qs

end GB
