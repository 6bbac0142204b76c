import Verif.Model.Basic

/-!
# Generational arenas

The dependency behind `Verif.GB.Arena`: `loro-thunderdome` 0.6.2 (/repo/Cargo.toml:22), used by src/lib.rs:13-14, 62-71.
Its source is not part of /repo; the definitions below follow the published behaviour of `thunderdome::Arena`: slots are reused
through a free list, and every index carries the generation of its slot.  They are not used by the model of
the tree; `Props/C71.lean` compares them with the simpler `Arena` of `Model/Basic.lean`, which is.
-/

namespace GB

/-- Largest generation, `u32::MAX` (`thunderdome::generation::Generation` wraps a `NonZeroU32`; dependency of /repo/Cargo.toml:22). -/
def GMAX : Nat := 4294967295

/-- `Generation::next`: the successor, `1` after the largest (dependency of /repo/Cargo.toml:22). -/
def nextGen (g : Nat) : Nat := if g = GMAX then 1 else g + 1

/-- `thunderdome::Index` (used in src/lib.rs:62-71). -/
structure GIdx where
  slot : Nat
  gen : Nat
deriving DecidableEq

/-- `thunderdome::arena::Entry` (dependency of /repo/Cargo.toml:22). -/
inductive GEntry (V : Type)
  | occ (gen : Nat) (v : V)
  | emp (gen : Nat) (next : Option Nat)

/-- `thunderdome::Arena` (the type of `in_nodes` and `leaf_nodes`, src/lib.rs:62-71): `storage`, `len`, `first_free`. -/
structure GArena (V : Type) where
  entries : List (GEntry V)
  len : Nat
  free : Option Nat

namespace GArena
variable {V : Type}

/-- `Arena::new` (called in src/lib.rs:478-480). -/
def new : GArena V := ⟨[], 0, none⟩

/-- `Arena::insert` (called in src/lib.rs:570-584).  Panics if the length or the number of slots does not fit `u32`, or if the free
list is broken. -/
def insert (a : GArena V) (v : V) : M (GIdx × GArena V) :=
  if GMAX ≤ a.len then .error .panic
  else
    match a.free with
    | some s =>
      match a.entries[s]? with
      | some (.emp g nx) =>
        .ok (⟨s, nextGen g⟩, ⟨a.entries.set s (.occ (nextGen g) v), a.len + 1, nx⟩)
      | _ => .error .panic
    | none =>
      if GMAX < a.entries.length then .error .panic
      else .ok (⟨a.entries.length, 1⟩, ⟨a.entries ++ [.occ 1 v], a.len + 1, none⟩)

/-- `Arena::get` (called in src/lib.rs:1953-1957 and throughout). -/
def get (a : GArena V) (i : GIdx) : Option V :=
  match a.entries[i.slot]? with
  | some (.occ g v) => if g = i.gen then some v else none
  | _ => none

/-- Writing through the reference returned by `Arena::get_mut`, if there is one (src/lib.rs:1945-1957). -/
def set (a : GArena V) (i : GIdx) (v : V) : GArena V :=
  match a.get i with
  | some _ => { a with entries := a.entries.set i.slot (.occ i.gen v) }
  | none => a

/-- `Arena::remove` (called in src/lib.rs:1310, src/iter.rs:119-123): the value, and the slot put on the free list. -/
def remove (a : GArena V) (i : GIdx) : Option V × GArena V :=
  match a.get i with
  | some v => (some v, ⟨a.entries.set i.slot (.emp i.gen a.free), a.len - 1, some i.slot⟩)
  | none => (none, a)

end GArena

/-- A program that uses an arena (as src/lib.rs:476-3016 does): it may store, read, write, remove and compare indices, and go on
depending on what it sees.  Indices are named by the number of the insertion that returned them, so that it cannot make up
indices (`thunderdome::Index` has no public constructor used in /repo/src). -/
inductive Client (V R : Type)
  | ret (r : R)
  | insert (v : V) (k : Client V R)
  | get (i : Nat) (k : Option V → Client V R)
  | set (i : Nat) (v : V) (k : Client V R)
  | remove (i : Nat) (k : Option V → Client V R)
  | same (i j : Nat) (k : Bool → Client V R)
  | len (k : Nat → Client V R)

/-- Run on the arena of the model (`Arena`, src/lib.rs:62-71), with at most `n` insertions (`fuel` beyond that). -/
def Client.runA {V R : Type} : Client V R → Nat → Arena V → M R
  | .ret r, _, _ => .ok r
  | .insert v k, n, a => match n with
    | 0 => .error .fuel
    | n + 1 => k.runA n (a.insert v).2
  | .get i k, n, a => if i < a.items.length then (k (a.get i)).runA n a else .error .panic
  | .set i v k, n, a =>
    if i < a.items.length then k.runA n (if a.contains i then a.set i v else a) else .error .panic
  | .remove i k, n, a => if i < a.items.length then (k (a.get i)).runA n (a.remove i) else .error .panic
  | .same i j k, n, a =>
    if i < a.items.length ∧ j < a.items.length then (k (decide (i = j))).runA n a else .error .panic
  | .len k, n, a => (k a.len).runA n a

/-- Run on an arena with generations (src/lib.rs:62-71); `hs` are the indices returned so far. -/
def Client.runG {V R : Type} : Client V R → List GIdx → GArena V → M R
  | .ret r, _, _ => .ok r
  | .insert v k, hs, g => do
    let (h, g) ← g.insert v
    k.runG (hs ++ [h]) g
  | .get i k, hs, g => match hs[i]? with
    | some h => (k (g.get h)).runG hs g
    | none => .error .panic
  | .set i v k, hs, g => match hs[i]? with
    | some h => k.runG hs (g.set h v)
    | none => .error .panic
  | .remove i k, hs, g => match hs[i]? with
    | some h => (k (g.remove h).1).runG hs (g.remove h).2
    | none => .error .panic
  | .same i j k, hs, g => match hs[i]?, hs[j]? with
    | some h, some h' => (k (decide (h = h'))).runG hs g
    | _, _ => .error .panic
  | .len k, hs, g => (k g.len).runG hs g

end GB
