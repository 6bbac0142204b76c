import Verif.Model.Rope
import Verif.Model.Ord
import Verif.Model.RangeMap

/-!
# Model of the crate's fuzz targets and randomised tests

`fuzz/fuzz_targets/rope.rs`, `fuzz/fuzz_targets/ord.rs`, and the test functions of `src/generic_impl/rope.rs` and
`src/generic_impl/ord.rs` that take their input from a generator, as functions of that input; and the tests of
`tests/integration.rs` with their constants as parameters.  A failed `assert_eq!` is a panic,
so a run that passes is `.ok ()`.
-/

namespace GB
open Tree

/-! ## The reference string -/

/-- `String::len` (standard library; fuzz/fuzz_targets/rope.rs:19): a `String` is modelled by its characters. -/
def strLen (cs : List Char) : Nat := (cs.map Char.utf8Size).sum

/-- The number of characters before byte `p`, if `p` is a character boundary (`str::is_char_boundary`, standard library; the functions below
panic otherwise; called by the reference string of fuzz/fuzz_targets/rope.rs:17-32). -/
def charIdx : List Char → Nat → Option Nat
  | _, 0 => some 0
  | [], _ + 1 => none
  | c :: cs, p + 1 => if c.utf8Size ≤ p + 1 then (charIdx cs (p + 1 - c.utf8Size)).map (· + 1) else none

/-- `String::insert_str` (standard library; fuzz/fuzz_targets/rope.rs:21). -/
def strInsert (cs : List Char) (p : Nat) (s : List Char) : M (List Char) := do
  let k ← unwrap (charIdx cs p)
  pure (cs.take k ++ s ++ cs.drop k)

/-- `String::drain(a..b)`, dropped at once (standard library; fuzz/fuzz_targets/rope.rs:30). -/
def strDrain (cs : List Char) (a b : Nat) : M (List Char) := do
  assertM (decide (a ≤ b))
  let i ← unwrap (charIdx cs a)
  let j ← unwrap (charIdx cs b)
  pure (cs.take i ++ cs.drop j)

/-! ## The rope -/

/-- `enum Action` (src/generic_impl/rope.rs:443-446, fuzz/fuzz_targets/rope.rs:7-11). -/
inductive RopeAction
  | insert (pos content : UInt8)
  | delete (pos len : UInt8)

/-- `u8::to_string` (standard library; called at fuzz/fuzz_targets/rope.rs:20). -/
def u8ToString (n : UInt8) : String := toString n.toNat

/-- One action on the rope and on the reference string (fuzz/fuzz_targets/rope.rs:17-32; src/generic_impl/rope.rs:453-460, 465-473; the `dbg!` output is left out). -/
def ropeAct (cap : Nat) (r : Rope) (truth : List Char) : RopeAction → M (Rope × List Char)
  | .insert pos content => do
    let p := pos.toNat % (strLen truth + 1)
    let s := u8ToString content
    let truth ← strInsert truth p s.toList
    let r ← r.insertStr cap p s
    pure (r, truth)
  | .delete pos len => do
    let p := pos.toNat % (strLen truth + 1)
    let n := min (len.toNat % 10) (strLen truth - p)
    let r ← r.deleteRangeB (.included p) (.excluded (p + n))
    let truth ← strDrain truth p (p + n)
    pure (r, truth)

/-- `assert_eq!(rope.to_string(), truth)` (fuzz/fuzz_targets/rope.rs:36; src/generic_impl/rope.rs:463, 476, 481). -/
def ropeAssert (r : Rope) (truth : List Char) : M Unit := do
  let s ← r.toStr
  assertM (decide (s = String.ofList truth))

/-- The loop of the fuzz target (fuzz/fuzz_targets/rope.rs:16-33) with the final assertions (35-36). -/
def ropeTarget (cap : Nat) : Rope → List Char → List RopeAction → M Unit
  | r, truth, [] => do
    check ropeTrait r.tree
    ropeAssert r truth
  | r, truth, a :: as => do
    let (r, truth) ← ropeAct cap r truth a
    ropeTarget cap r truth as

/-- The loop of `fuzz` (src/generic_impl/rope.rs:451-479), which checks after every action, with the final assertion (481). -/
def ropeFuzz (cap : Nat) : Rope → List Char → List RopeAction → M Unit
  | r, truth, [] => ropeAssert r truth
  | r, truth, a :: as => do
    let (r, truth) ← ropeAct cap r truth a
    check ropeTrait r.tree
    assertM (decide (r.len = strLen truth))
    ropeAssert r truth
    ropeFuzz cap r truth as

/-- `test_prev_length` (src/generic_impl/rope.rs:315-330); `visit_previous_caches` never passes `PrevSiblingElem`. -/
def testPrevLength (r : Rope) (q : QueryResult) : M Nat := do
  let (cs, (_, offset)) ← visitPrevCaches r.tree q.cursor
  pure ((cs.map Int.toNat).sum + offset)

/-- The body of the loop of `test_index` (src/generic_impl/rope.rs:335-337). -/
def testIndexAt (r : Rope) (index : Nat) : M Unit := do
  let q ← unwrap (← query ropeQuery r.tree index)
  let i ← testPrevLength r q
  assertM (decide (i = index))

/-- `test_index` (src/generic_impl/rope.rs:333-339). -/
def testIndex (r : Rope) : M Unit := checkAll (testIndexAt r) (List.range r.len)

/-- The body of the test `from_str` (src/generic_impl/rope.rs:3395-3397) for one string. -/
def fromStrTest (cap : Nat) (s : String) : M Unit := do
  let gs ← GapBuf.fromStr cap s.toUTF8.data.toList
  let g ← unwrap gs.head?
  assertM (decide (s.utf8ByteSize = g.len))

/-- `v.iter().flat_map(|x| GapBuffer::from_str(x.as_str()))` (src/generic_impl/rope.rs:3409-3411). -/
def chunksAll (cap : Nat) : List String → M (List GapBuf)
  | [] => .ok []
  | s :: ss => do
    let g ← GapBuf.fromStr cap s.toUTF8.data.toList
    let gs ← chunksAll cap ss
    pure (g ++ gs)

/-- The test `from_iter` (src/generic_impl/rope.rs:3402-3420) on given strings. -/
def fromIterTest (cap : Nat) (v : List String) : M Unit := do
  let gs ← chunksAll cap v
  let t ← fromIter ropeTrait gs
  let r : Rope := ⟨t, none⟩
  let s := String.join v
  let x ← r.toStr
  assertM (decide (x = s))
  assertM (decide (r.len = s.utf8ByteSize))
  check ropeTrait r.tree

/-- `for i in 0..100000 { rope.insert(0, &i.to_string()); }` (src/generic_impl/rope.rs:3425-3427) with given strings. -/
def insertFront (cap : Nat) (r : Rope) : List String → M Rope
  | [] => .ok r
  | s :: ss => do
    let r ← r.insertStr cap 0 s
    insertFront cap r ss

/-- `while !rope.is_empty() { .. }` (src/generic_impl/rope.rs:3429-3435); every round removes a chunk. -/
def drainLoop : Nat → Rope → M Rope
  | 0, _ => .error .fuel
  | n + 1, r =>
    if r.isEmpty then .ok r
    else do
      let leaf ← unwrap (← firstLeaf r.tree)
      let (_, _, t) ← updateLeaf ropeTrait r.tree leaf (fun e => do
        let g ← e.sliceMutB (.included 1) (.excluded 1)
        pure (g, true, none, none))
      drainLoop n { r with tree := t }

/-- The test `drain` (src/generic_impl/rope.rs:3423-3436) with given strings. -/
def drainTest (cap : Nat) (ss : List String) : M Unit := do
  let r ← insertFront cap Rope.new ss
  let _ ← drainLoop (r.len + 1) r
  pure ()

/-! ## The ordered set -/

/-- `enum Action` (fuzz/fuzz_targets/ord.rs:9-13). -/
inductive OrdAction
  | insert (value : UInt8)
  | delete

/-- `BTreeSet::insert` of the standard library (fuzz/fuzz_targets/ord.rs:21) on the sorted list of members. -/
def bsInsert (x : UInt8) : List UInt8 → List UInt8
  | [] => [x]
  | y :: ys => if x < y then x :: y :: ys else if x = y then y :: ys else y :: bsInsert x ys

/-- `BTreeSet::remove` of the standard library (fuzz/fuzz_targets/ord.rs:27, 32). -/
def bsRemove (x : UInt8) (l : List UInt8) : List UInt8 := l.filter (· ≠ x)

/-- The loop of the fuzz target (fuzz/fuzz_targets/ord.rs:18-38) with the final assertion (40-43). -/
def ordTarget : List UInt8 → OrdSet UInt8 → List OrdAction → M Unit
  | a, t, [] => do
    let ks ← t.iter
    assertM (decide (a = ks))
  | a, t, .insert x :: as => do
    let t ← t.insert x
    ordTarget (bsInsert x a) t as
  | a, t, .delete :: as =>
    match a[3]? with
    | some x => do
      let (_, t) ← t.delete x
      ordTarget (bsRemove x a) t as
    | none =>
      match a[0]? with
      | some x => do
        let (_, t) ← t.delete x
        ordTarget (bsRemove x a) t as
      | none => ordTarget a t as

section
variable {K V : Type} [Ord K]

/-- `for &value in data.iter() { tree.insert(value); }` (src/generic_impl/ord.rs:322-324, 341-343). -/
def setInsertAll (t : OrdSet K) : List K → M (OrdSet K)
  | [] => .ok t
  | k :: ks => do
    let t ← t.insert k
    setInsertAll t ks

/-- `test` (src/generic_impl/ord.rs:318-328) on given data; `sorted` is the vector after `sort_unstable`. -/
def ordTest [DecidableEq K] (data sorted : List K) : M Unit := do
  let t ← setInsertAll OrdSet.new data
  let ks ← t.iter
  assertM (decide (ks = sorted))
  check (ordTrait K Unit) t.map.tree

/-- `for value in data.drain(..) { tree.delete(&value); }` (src/generic_impl/ord.rs:377-382, 384-386). -/
def mapDeleteAll (m : OrdMap K V) : List K → M (OrdMap K V)
  | [] => .ok m
  | k :: ks => do
    let (_, m) ← m.delete k
    mapDeleteAll m ks

/-- `for &value in data.iter() { tree.insert(value, 0); }` (src/generic_impl/ord.rs:374-376). -/
def mapInsertAll (v : V) (m : OrdMap K V) : List K → M (OrdMap K V)
  | [] => .ok m
  | k :: ks => do
    let m ← m.insert k v
    mapInsertAll v m ks

/-- `move_event_test::test` (src/generic_impl/ord.rs:370-387) on given data, cut into the part deleted before the check (lines 377-382)
and the part popped from the end afterwards (lines 384-386). -/
def moveTest [DecidableEq K] (v : V) (first last : List K) : M Unit := do
  let m ← mapInsertAll v OrdMap.new (first ++ last)
  let m ← mapDeleteAll m first
  check (ordTrait K V) m.tree
  let _ ← mapDeleteAll m last.reverse
  pure ()

/-- The body of the inner loop of `test_compare_pos` (src/generic_impl/ord.rs:352-361). -/
def comparePair (t : OrdSet K) (a : Cursor) (j : K) : M Unit := do
  let b ← unwrap (← query (ordQuery K Unit) t.map.tree j)
  let x ← comparePos t.map.tree a b.cursor
  assertM (decide (x = .lt))
  let y ← comparePos t.map.tree b.cursor a
  assertM (decide (y = .gt))

/-- The body of the outer loop (src/generic_impl/ord.rs:346-362); `js` are the keys `i + 1..100`. -/
def compareRow (t : OrdSet K) (i : K) (js : List K) : M Unit := do
  let a ← unwrap (← query (ordQuery K Unit) t.map.tree i)
  let x ← comparePos t.map.tree a.cursor a.cursor
  assertM (decide (x = .eq))
  checkAll (comparePair t a.cursor) js

/-- The outer loop (src/generic_impl/ord.rs:345-362) over the keys in order; the code leaves out the last key. -/
def compareRows (t : OrdSet K) : List K → M Unit
  | [] => .ok ()
  | [_] => .ok ()
  | i :: js => do
    compareRow t i js
    compareRows t js

/-- `test_compare_pos` (src/generic_impl/ord.rs:339-363) with the keys `ks` instead of `0..100`. -/
def compareTest (ks : List K) : M Unit := do
  let t ← setInsertAll OrdSet.new ks
  compareRows t ks

end

/-! ## The range map -/

/-- `for i in 0..n { range_map.insert(i..i + 1, i as isize); }` (tests/integration.rs:29-31, 47-49, 64-66, 81-83); `ho i` is the hash
order in step `i`. -/
def rangeFill (ho : Nat → HashOrd RElem) (n : Nat) : M RangeMap :=
  (List.range n).foldlM (fun s i => RangeMap.insert (ho i) s i (i + 1) i) RangeMap.new

/-- `assert_eq!(range_map.get(i), x)` (tests/integration.rs:12-23, 33, 36, 38, 40). -/
def rangeAssert (s : RangeMap) (i : Nat) (x : Option Int) : M Unit := do
  let y ← s.get i
  assertM (decide (y = x))

/-- The test `write_buffer_get_item` (tests/integration.rs:27-42) for `0..n` and the value `v` in place of `0..100` and 100. -/
def rangeGetTest (ho : Nat → HashOrd RElem) (n : Nat) (v : Int) : M Unit := do
  let s ← rangeFill ho n
  checkAll (fun i => rangeAssert s i (some i)) (List.range n)
  rangeAssert s n none
  let s ← RangeMap.insert (ho n) s 0 n v
  rangeAssert s n none
  checkAll (fun i => rangeAssert s i (some v)) (List.range n)

/-- The test `write_buffer_iter` (tests/integration.rs:45-59) for the constants `n`, `b` and `v`: 100, 50 and 100. -/
def rangeIterTest (ho : Nat → HashOrd RElem) (n b : Nat) (v : Int) : M Unit := do
  let s ← rangeFill ho n
  let s ← RangeMap.insert (ho n) s b n v
  let out ← s.iter
  checkAll (fun x => assertM (decide (x.2 = if x.1.1 < b then (x.1.1 : Int) else v))) out

/-- The test `write_buffer_drain` (tests/integration.rs:62-76) for the constants `n`, `a`, `b`, `c` and `v`: 100, 25, 50, 80 and 100. -/
def rangeDrainTest (ho : Nat → HashOrd RElem) (n a b c : Nat) (v : Int) : M Unit := do
  let s ← rangeFill ho n
  let s ← RangeMap.insert (ho n) s b c v
  let (out, _) ← s.drain a n
  checkAll (fun x => assertM (decide (x.2 = if x.1.1 < b ∨ c ≤ x.1.1 then (x.1.1 : Int) else v))) out

/-- The test `range_plus` (tests/integration.rs:79-94) for the constants `n`, `b`, `c` and `d`: 100, 50, 110 and 100. -/
def rangePlusTest (ho : Nat → HashOrd RElem) (n b c : Nat) (d : Int) : M Unit := do
  let s ← rangeFill ho n
  let s ← RangeMap.plus (ho n) s b c d
  let out ← s.iter
  checkAll (fun x => do
    assertM (decide (x.1.1 < n))
    assertM (decide (x.2 = if x.1.1 < b then (x.1.1 : Int) else x.1.1 + d))) out

end GB
