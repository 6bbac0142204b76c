import Verif.Model.Unwind
import Verif.Spec.Edit

/-!
# Histories in which closures panic and the panics are caught
-/

namespace GB
variable {E C D α : Type}

/-- An operation whose panic is caught: if the closure panics, one goes on with the tree that is left. -/
inductive UOp (E C D : Type) : Type 1
  /-- an operation in which nothing panics -/
  | op (o : BOp E C D)
  /-- `update(a..b, f)`, caught -/
  | update {σ : Type} (f : σ → E → Except E (σ × E × Option D)) (st : σ) (a b : Cursor)
  /-- `update_leaf(l, f)`, caught -/
  | leaf (l : Nat) (f : E → Except E (E × Bool × Option E × Option E))
  /-- `update_leaf_by_search(arg, f)`, caught -/
  | search {Q F : Type} (q : Query E C Q F) (arg : Q) (f : E → QueryResult → Except E (E × Option (D × Option E × Option E)))
  /-- `update_leaves_with_arg_in_ranges(args, f)`, caught -/
  | ranges {σ Arg : Type} (f : σ → E → Arg → Except E (σ × E)) (st : σ) (args : List (Nat × Nat × Nat × Arg))

/-- the tree that one goes on with -/
def caught (get : α → Tree E C) : Except (Tree E C) α → Tree E C
  | .error t => t
  | .ok a => get a

/-- one step -/
def UOp.run (B : Trait E C D) (ho : HashOrd E) (s : Tree E C) : UOp E C D → M (Tree E C)
  | .op o => o.run B ho s
  | .update f st a b => do
    let r ← updateU B ho f st s a b
    pure (caught (fun x => x.2.2) r)
  | .leaf l f => do
    let r ← updateLeafU B s l f
    pure (caught (fun x => x.2.2) r)
  | .search q arg f => do
    let r ← bySearchU B q s arg f
    pure (caught (fun x => x.2.2) r)
  | .ranges f st args => do
    let r ← updateLeavesU B ho f st s args
    pure (caught (fun x => x.2.2) r)

/-- a history -/
def runU (B : Trait E C D) (ho : HashOrd E) : Tree E C → List (UOp E C D) → M (Tree E C)
  | s, [] => .ok s
  | s, o :: os => do
    let s ← o.run B ho s
    runU B ho s os

/-- the leaves that a step may change, as for the operations in which nothing panics -/
def UOp.touches (B : Trait E C D) (s : Tree E C) (t : Seq E) : UOp E C D → Nat → Prop
  | .op o, l => o.touches B s t l
  | .update _ _ a b, l => ¬ Before t l a.leaf ∧ ¬ Before t b.leaf l
  | .leaf k _, l => l = k
  | .search q arg _, l => ∃ r, query q s arg = .ok (some r) ∧ l = r.cursor.leaf
  | .ranges _ _ args, l => l ∈ args.map fun a => a.1

/-- leaf `l` is touched by some step of the history -/
def touchedU (B : Trait E C D) (ho : HashOrd E) (view : Tree E C → Seq E) : Tree E C → List (UOp E C D) → Nat → Prop
  | _, [], _ => False
  | s, o :: os, l => o.touches B s (view s) l ∨ ∃ s', o.run B ho s = .ok s' ∧ touchedU B ho view s' os l

end GB
