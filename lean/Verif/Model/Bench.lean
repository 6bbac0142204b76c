import Verif.Model.Harness

/-!
# The programs of `benches/` and `examples/`

What is measured and drawn (`criterion`, `pprof`), the random generator and the reading of the data set are left out: the programs are
run on any data.  Criterion repeats a benchmark on a new rope each time, so one run is modelled.
-/

namespace GB
open Tree

/-- The body of the loop of "Rope 10K insert/delete" (benches/bench_rope.rs:31-43) and of the example (examples/rope.rs:70-82).
`rope.len() - pos` cannot underflow, because `pos` is a remainder of division by `rope.len() + 1`. -/
def benchAct (cap : Nat) (r : Rope) : RopeAction → M Rope
  | .insert pos content => r.insertStr cap (pos.toNat % (r.len + 1)) (u8ToString content)
  | .delete pos len =>
    let p := pos.toNat % (r.len + 1)
    let n := min (len.toNat % 10) (r.len - p)
    r.deleteRangeB (.included p) (.excluded (p + n))

/-- The loop of "Rope 10K insert/delete" (benches/bench_rope.rs:30-44). -/
def benchRope (cap : Nat) : Rope → List RopeAction → M Rope
  | r, [] => .ok r
  | r, a :: as => do
    let r ← benchAct cap r a
    benchRope cap r as

/-- The body of the loop of "RawString" (benches/bench_rope.rs:53-65). -/
def rawAct (raw : List Char) : RopeAction → M (List Char)
  | .insert pos content => strInsert raw (pos.toNat % (strLen raw + 1)) (u8ToString content).toList
  | .delete pos len =>
    let p := pos.toNat % (strLen raw + 1)
    let n := min (len.toNat % 10) (strLen raw - p)
    strDrain raw p (p + n)

/-- The loop of "RawString" (benches/bench_rope.rs:52-66). -/
def benchRaw : List Char → List RopeAction → M (List Char)
  | raw, [] => .ok raw
  | raw, a :: as => do
    let raw ← rawAct raw a
    benchRaw raw as

/-- The loops of the example on random actions (examples/rope.rs:68-84): the same actions `k` times, on one rope. -/
def exampleRope (cap : Nat) : Nat → Rope → List RopeAction → M Rope
  | 0, r, _ => .ok r
  | k + 1, r, as => do
    let r ← benchRope cap r as
    exampleRope cap k r as

/-- `struct TextAction` (benches/automerge.rs:7-12, examples/rope.rs:17-22). -/
structure TextAction where
  pos : Nat
  ins : String
  del : Nat

/-- The body of the loop of "Automerge paper" (benches/bench_rope.rs:100-105) and of `bench` (examples/rope.rs:93-98).  Overflow of
`action.pos + action.del` is not modelled. -/
def textAct (cap : Nat) (r : Rope) (a : TextAction) : M Rope := do
  let r ← (if 0 < a.del then r.deleteRangeB (.included a.pos) (.excluded (a.pos + a.del)) else pure r : M Rope)
  if a.ins ≠ "" then r.insertStr cap a.pos a.ins else pure r

/-- The loop of "Automerge paper" (benches/bench_rope.rs:99-106) and of one round of `bench` (examples/rope.rs:92-99). -/
def textBench (cap : Nat) : Rope → List TextAction → M Rope
  | r, [] => .ok r
  | r, a :: as => do
    let r ← textAct cap r a
    textBench cap r as

/-- "OrdTree 100K insert" (benches/bench_ord.rs:14-17). -/
def benchOrd {K : Type} [Ord K] (data : List K) : M (OrdSet K) := setInsertAll OrdSet.new data

/-- `BTreeSet::insert` of the standard library, on the sorted list of the members (called at benches/bench_ord.rs:26): a key that is
there already stays. -/
def stdInsert {K : Type} [Ord K] (x : K) : List K → List K
  | [] => [x]
  | y :: l =>
    match compare x y with
    | .lt => x :: y :: l
    | .eq => y :: l
    | .gt => y :: stdInsert x l

/-- "std BTree 100K insert" (benches/bench_ord.rs:24-27). -/
def benchStd {K : Type} [Ord K] : List K → List K → List K
  | l, [] => l
  | l, x :: xs => benchStd (stdInsert x l) xs

end GB
