import Verif.Model.LenFinder
import Verif.Model.Ops
import Verif.Model.Iter

/-!
# Model of `tests/range_num_map/mod.rs`

The map from ranges to numbers that the integration tests build on top of the tree: a third instance of the trait, with
run-length encoded elements, the default `Sliceable::split`, and `update` as its main operation.
-/

namespace GB
open Tree

/-- `struct Elem` (tests/range_num_map/mod.rs:14-18). -/
structure RElem where
  value : Option Int
  len : Nat
deriving DecidableEq, Repr

/-- `Sliceable::_slice` (tests/range_num_map/mod.rs:134-139); `Range::len` is 0 for an inverted range. -/
def RElem.slice (e : RElem) (start stop : Nat) : M RElem := .ok ⟨e.value, stop - start⟩

/-- `impl BTreeTrait for RangeNumMapTrait` (tests/range_num_map/mod.rs:174-216) with the element traits (113-172).
`split` is the provided method (src/rle.rs:34-38): `slice(pos..)` and `slice_(..pos)`, where `slice_` (141-156) only sets the length.
Simplification: `(cache as isize + diff) as usize` is `Int.toNat` (it would wrap if negative). -/
def rangeTrait : Trait RElem Nat Int where
  rleLen := RElem.len
  split := fun e pos => do
    let right ← e.slice pos e.len
    pure (⟨e.value, pos⟩, right)
  canMerge := fun a b => decide (a.value = b.value) || decide (b.len = 0)
  mergeRight := fun a b => .ok ⟨a.value, a.len + b.len⟩
  mergeLeft := fun b a => .ok ⟨b.value, b.len + a.len⟩
  tryInsert := fun _ _ d => .ok (.inr d)
  canRemove := fun e => decide (e.len = 0)
  useDiff := true
  dflt := 0
  calcC := fun c cs => .ok (cs.sum, (cs.sum : Int) - (c : Int))
  apply := fun c d => .ok ((c : Int) + d).toNat
  mergeDiff := fun a b => a + b
  elemCache := RElem.len
  newCacheToDiff := fun c => (c : Int)
  subCache := fun a b => (a : Int) - (b : Int)

/-- `LengthFinder` with `UseLengthFinder::get_len` (tests/range_num_map/mod.rs:107-111). -/
def rangeQuery : Query RElem Nat Nat LenFinder := lenQuery rangeTrait id

/-- `struct RangeNumMap` (tests/range_num_map/mod.rs:9-10). -/
abbrev RangeMap := Tree RElem Nat

namespace RangeMap

/-- `RangeNumMap::new` (tests/range_num_map/mod.rs:21-23). -/
def new : RangeMap := newTree rangeTrait

/-- `RangeNumMap::len` (tests/range_num_map/mod.rs:102-104). -/
def len (s : RangeMap) : Nat := s.rootCache

/-- `RangeNumMap::reserve_range` (tests/range_num_map/mod.rs:76-83). -/
def reserve (s : RangeMap) (stop : Nat) : M RangeMap :=
  if len s < stop then do
    let (_, s) ← push rangeTrait s ⟨none, stop - len s + 10⟩
    pure s
  else .ok s

/-- The closure of `insert` (tests/range_num_map/mod.rs:29-32). -/
def setValue (v : Int) (_ : Unit) (e : RElem) : M (Unit × RElem × Option Int) := .ok ((), { e with value := some v }, none)

/-- The closure of `plus` (tests/range_num_map/mod.rs:66-72). -/
def addValue (d : Int) (_ : Unit) (e : RElem) : M (Unit × RElem × Option Int) :=
  .ok ((), { e with value := e.value.map (· + d) }, none)

/-- `RangeNumMap::insert` (tests/range_num_map/mod.rs:25-40); `ho` is the hash order used by `update`. -/
def insert (ho : HashOrd RElem) (s : RangeMap) (start stop : Nat) (v : Int) : M RangeMap := do
  let s ← reserve s stop
  match ← range rangeQuery s start stop with
  | some (a, b) => do
    let (_, _, s) ← update rangeTrait ho (setValue v) () s a.cursor b.cursor
    pure s
  | none => do
    assertM (decide (start = 0))
    let (_, s) ← push rangeTrait s ⟨some v, stop - start⟩
    pure s

/-- `RangeNumMap::plus` (tests/range_num_map/mod.rs:62-74). -/
def plus (ho : HashOrd RElem) (s : RangeMap) (start stop : Nat) (d : Int) : M RangeMap := do
  let s ← reserve s stop
  match ← range rangeQuery s start stop with
  | some (a, b) => do
    let (_, _, s) ← update rangeTrait ho (addValue d) () s a.cursor b.cursor
    pure s
  | none => pure s

/-- `RangeNumMap::get` (tests/range_num_map/mod.rs:42-49). -/
def get (s : RangeMap) (i : Nat) : M (Option Int) := do
  match ← query rangeQuery s i with
  | none => pure none
  | some r => if r.found then pure ((getElem s r.cursor.leaf).bind RElem.value) else pure none

/-- The `filter_map` closure of `iter` and `drain` (tests/range_num_map/mod.rs:53-59, 93-99), run over the
elements: `elem.value?` returns before the index is advanced. -/
def ranges : Nat → List RElem → List ((Nat × Nat) × Int)
  | _, [] => []
  | i, e :: es =>
    match e.value with
    | none => ranges i es
    | some v => ((i, i + e.len), v) :: ranges (i + e.len) es

/-- `RangeNumMap::iter` (tests/range_num_map/mod.rs:51-60). -/
def iter (s : RangeMap) : M (List ((Nat × Nat) × Int)) := do
  let es ← GB.iter s
  pure (ranges 0 es)

/-- `RangeNumMap::drain` (tests/range_num_map/mod.rs:85-100), run to exhaustion and dropped. -/
def drain (s : RangeMap) (start stop : Nat) : M (List ((Nat × Nat) × Int) × RangeMap) := do
  let a ← query rangeQuery s start
  let b ← query rangeQuery s stop
  let d ← drainNew rangeTrait s a b
  let (es, s) ← drainDrop rangeTrait d
  pure (ranges start es, s)

end RangeMap
end GB
