import Verif.Model.Tree

/-!
# Model of `src/lib.rs`: `Debug` output and `diagnose_balance`
-/

namespace GB
variable {E C D : Type}
open Tree

/-- One line of the `Debug` output (src/lib.rs:294-344).  Simplification: the line is a record of what is written, not the text; numbers, elements
and caches are formatted by their own `Debug` implementations.
* `root`: src/lib.rs:338-341,
* `node`: src/lib.rs:310-314 (`parent_slot`, arena index, cache),
* `leaf`: src/lib.rs:317-321 (element, arena index, parent, cache).
`indent` counts the four spaces of `indent` (src/lib.rs:329-334). -/
inductive DebugLine (C E : Type) where
  | root (indent arena : Nat) (cache : C)
  | node (indent slot arena : Nat) (cache : C)
  | leaf (indent : Nat) (elem : E) (arena parent : Nat) (cache : C)

/-- The loop over the children in `fmt_node` (src/lib.rs:306-323).  `rec` is the recursive call on an inner child. -/
def fmtChildren (s : Tree E C) (rec : Idx → M (List (DebugLine C E))) (indent : Nat) : List (Child C) → M (List (DebugLine C E))
  | [] => .ok []
  | c :: cs => do
    let here ← (if c.arena.isInternal then do
        let childNode ← s.getInIdx c.arena
        let below ← rec c.arena
        pure (.node indent childNode.slot c.arena.raw c.cache :: below)
      else do
        let l ← c.arena.unwrapLeaf
        let node ← s.getLf l
        pure [.leaf indent node.elem l node.parent c.cache] : M (List (DebugLine C E)))
    let rest ← fmtChildren s rec indent cs
    pure (here ++ rest)

/-- `fmt_node` (src/lib.rs:296-327).  The recursion is bounded by fuel. -/
def fmtNode (s : Tree E C) : Nat → Idx → Nat → M (List (DebugLine C E))
  | _, .leaf _, _ => .ok []
  | 0, .internal _, _ => .error .fuel
  | n + 1, .internal x, indent => do
    let node ← s.getIn x
    fmtChildren s (fun a => fmtNode s n a (indent + 1)) indent node.children

/-- `impl Debug for BTree`: `fmt` (src/lib.rs:294-344), without the first line `BTree`. -/
def debugFmt (s : Tree E C) : M (List (DebugLine C E)) := do
  let lines ← fmtNode s s.fuel (.internal s.root) 1
  pure (.root 1 s.root s.rootCache :: lines)

/-- A `FxHashMap<usize, usize>` used as a counter (src/lib.rs:2636-2639): the entries, in any order.
`*map.entry(k).or_default() += 1`. -/
def bump (k : Nat) : List (Nat × Nat) → List (Nat × Nat)
  | [] => [(k, 1)]
  | (k', n) :: m => if k' = k then (k', n + 1) :: m else (k', n) :: bump k m

/-- `BTree::diagnose_balance` (src/lib.rs:2635-2647): the two tables that it prints with `dbg!`. -/
def diagnoseBalance (B : Trait E C D) (s : Tree E C) : List (Nat × Nat) × List (Nat × Nat) :=
  ((s.inn.items.filterMap id).foldl (fun m node => bump node.children.length m) [],
   (s.lf.items.filterMap id).foldl (fun m node => bump (B.rleLen node.elem) m) [])

end GB
