/-!
# Basic vocabulary of the model

Results of Rust functions, generational arenas (`thunderdome::Arena`) and
fixed-capacity vectors (`heapless::Vec`).
-/

namespace GB

/-- Abnormal outcomes. `panic` models every Rust panic (`unwrap` of `None`, index out of
bounds, `assert!`, `unreachable!`, `unimplemented!`, overflow of a `heapless::Vec`).
`fuel` is not a Rust outcome: it marks a loop bound of the model that was too small.  All positive
theorems conclude `Except.ok`, all negative ones conclude `Except.error Err.panic`, so `fuel` never
stands for behaviour of the code.  Panics of the first kind: src/lib.rs:512, 603, 618; of a full vector: src/lib.rs:552. -/
inductive Err
  | panic
  | fuel
deriving DecidableEq, Repr

/-- Result of a Rust function that may panic (all of src/lib.rs:476-3016 and of the other files). -/
abbrev M := Except Err

/-- A Rust panic (for example src/lib.rs:618-621). -/
def panic {α : Type} : M α := .error .panic

/-- `Option::unwrap` (standard library; for example src/lib.rs:512, 551, 943). -/
def unwrap {α : Type} : Option α → M α
  | some a => .ok a
  | none => .error .panic

/-- `assert!(b)` (for example src/lib.rs:618, 715, 1157, 1380). -/
def assertM (b : Bool) : M Unit := if b then .ok () else .error .panic

/-- Model of `thunderdome::Arena<V>` (external crate; used in src/lib.rs:13-14, 62-71).
Position `i` of `items` is the slot ever allocated `i`-th; a removed entry becomes `none` and its
position is never reused.  Simplification: thunderdome reuses slots but tags indices with a
generation, so that an index handed out before never equals a later one (up to wrap-around of the
32-bit generation); never reusing a position models exactly this freshness. -/
structure Arena (V : Type) where
  items : List (Option V)

namespace Arena
variable {V : Type}

/-- `Arena::new` (src/lib.rs:479, 483). -/
def new : Arena V := ⟨[]⟩

/-- `Arena::get` / the value seen through `Arena::get_mut` (for example src/lib.rs:512, 551, 923). -/
def get (a : Arena V) (i : Nat) : Option V := a.items[i]?.join

/-- `Arena::insert`: returns the fresh index (for example src/lib.rs:480, 637, 1828). -/
def insert (a : Arena V) (v : V) : Nat × Arena V := (a.items.length, ⟨a.items ++ [some v]⟩)

/-- Writing through the reference returned by `Arena::get_mut` (only used on live
indices; for example src/lib.rs:551-552). -/
def set (a : Arena V) (i : Nat) (v : V) : Arena V := ⟨a.items.set i (some v)⟩

/-- `Arena::remove` (the removed value is `get` before the call; for example src/lib.rs:717, 943, 960). -/
def remove (a : Arena V) (i : Nat) : Arena V := ⟨a.items.set i none⟩

/-- `Arena::len`: number of live entries (src/lib.rs:493, 2730). -/
def len (a : Arena V) : Nat := a.items.countP Option.isSome

/-- `Arena::contains` (src/lib.rs:1571-1572). -/
def contains (a : Arena V) (i : Nat) : Bool := (a.get i).isSome

end Arena

/-- `const MAX_CHILDREN_NUM: usize = 12` (src/lib.rs:27). -/
def MAXC : Nat := 12

/-- `heapless::Vec<T, MAX_CHILDREN_NUM>::push(x).unwrap()` (for example src/lib.rs:1926, 2034). -/
def vpush {α : Type} (l : List α) (x : α) : M (List α) :=
  if l.length < MAXC then .ok (l ++ [x]) else .error .panic

/-- `heapless::Vec<T, MAX_CHILDREN_NUM>::insert(i, x).unwrap()`: panics if `i > len` or full
(for example src/lib.rs:552, 1220, 1377). -/
def vinsert {α : Type} (l : List α) (i : Nat) (x : α) : M (List α) :=
  if i ≤ l.length ∧ l.length < MAXC then .ok (l.take i ++ x :: l.drop i) else .error .panic

/-- `heapless::Vec::remove(i)`: panics out of bounds; returns the removed element and the rest
(for example src/lib.rs:939, 963, 1313). -/
def vremove {α : Type} (l : List α) (i : Nat) : M (α × List α) :=
  match l[i]? with
  | some x => .ok (x, l.eraseIdx i)
  | none => .error .panic

/-- Slice indexing `l[i]` (for example src/lib.rs:603, 847, 1868). -/
def vget {α : Type} (l : List α) (i : Nat) : M α := unwrap l[i]?

/-- `delete_range(arr, a..b)` (src/lib.rs:2989-3016), bounds already resolved. -/
def delRange {α : Type} (l : List α) (a b : Nat) : M (List α) :=
  if a = b then .ok l
  else if a < b ∧ b ≤ l.length then .ok (l.take a ++ l.drop b)
  else .error .panic

end GB
