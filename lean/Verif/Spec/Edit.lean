import Verif.Model.Iter
import Verif.Spec.History
import Verif.Spec.Range
import Verif.Spec.Ranges

/-!
# Histories of all element-level operations, and what they leave alone

`BOp` extends `Op` by `update_leaf`, `drain`, `update`, `update_leaves_with_arg_in_ranges`,
`insert_many_by_cursor` and `update_leaf_by_search`.  `Edit S t t'` says that an
operation changed the sequence `t` into `t'` and touched only leaves in `S`.
-/

namespace GB
variable {E C D : Type}
open Tree

/-- a mutating operation with its arguments -/
inductive BOp (E C D : Type) : Type 1
  | basic (o : Op E)
  /-- `update_leaf(l, f)` -/
  | updateLeaf (l : Nat) (f : E → M (E × Bool × Option E × Option E))
  /-- `drain(a..b)`, of which `k` elements are taken before it is dropped -/
  | drain (a b : Cursor) (k : Nat)
  /-- `update(a..b, f)` -/
  | update {σ : Type} (f : σ → E → M (σ × E × Option D)) (st : σ) (a b : Cursor)
  /-- `update_leaves_with_arg_in_ranges(args, f)` -/
  | ranges {σ Arg : Type} (f : σ → E → Arg → M (σ × E)) (st : σ) (args : List (Nat × Nat × Nat × Arg))
  /-- `insert_many_by_cursor(Some(c), data)` -/
  | insertMany (c : Cursor) (data : List E)
  /-- `update_leaf_by_search(arg, f)` -/
  | bySearch {Q F : Type} (q : Query E C Q F) (arg : Q) (f : E → QueryResult → M (E × Option (D × Option E × Option E)))

/-- run an operation on a tree -/
def BOp.run (B : Trait E C D) (ho : HashOrd E) (s : Tree E C) : BOp E C D → M (Tree E C)
  | .basic o => o.run B s
  | .updateLeaf l f => do
    let (_, _, s) ← GB.updateLeaf B s l f
    pure s
  | .drain a b k => do
    let (_, _, s) ← GB.drain B s ⟨a, true⟩ ⟨b, true⟩ k
    pure s
  | .update f st a b => do
    let (_, _, s) ← GB.update B ho f st s a b
    pure s
  | .ranges f st args => do
    let (_, _, s) ← updateLeavesWithArg B ho f st s args
    pure s
  | .insertMany c data => GB.insertMany B s (some c) data
  | .bySearch q arg f => do
    let (_, _, s) ← updateLeafBySearch B q s arg f
    pure s

/-- leaf `k` comes before leaf `l` -/
def Before (t : Seq E) (k l : Nat) : Prop := ∃ U e V, t.es = U ++ (l, e) :: V ∧ k ∈ U.map Prod.fst

/-- the leaves whose elements an operation on tree `s` with sequence `t` may change or remove -/
def BOp.touches (B : Trait E C D) (s : Tree E C) (t : Seq E) : BOp E C D → Nat → Prop
  | .basic (.push e), l => ∃ U x, t.es = U ++ [(l, x)] ∧ B.canMerge x e = true
  | .basic (.prepend e), l => ∃ x V, t.es = (l, x) :: V ∧ B.canMerge e x = true
  | .basic (.insertAt cur _), l => l = cur.leaf
  | .basic (.remove cur), l => l = cur.leaf
  | .basic .clear, _ => True
  | .updateLeaf k _, l => l = k ∨ ∃ U x z V, t.es = U ++ (k, x) :: (l, z) :: V
  | .drain a b _, l => ¬ Before t l a.leaf ∧ ¬ Before t b.leaf l
  | .update _ _ a b, l => ¬ Before t l a.leaf ∧ ¬ Before t b.leaf l
  | .ranges _ _ args, l => l ∈ args.map fun a => a.1
  | .insertMany c _, l => l = c.leaf ∨ (∃ U x z V, t.es = U ++ (l, x) :: (c.leaf, z) :: V) ∨ ∃ U x z V, t.es = U ++ (c.leaf, x) :: (l, z) :: V
  | .bySearch q arg _, l => ∃ r, query q s arg = .ok (some r) ∧ l = r.cursor.leaf

/-- `t'` arises from `t` by an edit that touches only leaves in `S`: all other leaves keep their elements, leaves
of `t` that remain keep their order, and all other leaves of `t'` have new numbers -/
structure Edit (S : Nat → Prop) (t t' : Seq E) : Prop where
  keep : ∀ l e, ¬ S l → (l, e) ∈ t.es → (l, e) ∈ t'.es
  order : ((t'.es.map Prod.fst).filter fun l => l < t.next).Sublist (t.es.map Prod.fst)
  next : t.next ≤ t'.next

/-- run a history -/
def runB (B : Trait E C D) (ho : HashOrd E) : Tree E C → List (BOp E C D) → M (Tree E C)
  | s, [] => .ok s
  | s, o :: os => do
    let s ← o.run B ho s
    runB B ho s os

/-- leaf `l` is touched by some step of the history; `view` reads the sequence off a tree -/
def touchedB (B : Trait E C D) (ho : HashOrd E) (view : Tree E C → Seq E) : Tree E C → List (BOp E C D) → Nat → Prop
  | _, [], _ => False
  | s, o :: os, l => o.touches B s (view s) l ∨ ∃ s', o.run B ho s = .ok s' ∧ touchedB B ho view s' os l

end GB
