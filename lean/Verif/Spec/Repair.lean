import Verif.Model.Tree
import Verif.Proof.Law

/-!
# Writing through `get_elem_mut` and repairing the caches by hand

A program of writes and of calls of the public `recursive_update_cache`, and a ledger of what it has done: for every leaf the
element it holds now and the element the caches were last told about.
-/

namespace GB
variable {E C D : Type}

/-- a write through `get_elem_mut` (src/lib.rs:922-925), or a call of `recursive_update_cache` (src/lib.rs:2220-2273) on a leaf -/
inductive RepairOp (E D : Type) where
  | write (l : Nat) (f : E → E)
  | fix (l : Nat) (canUseDiff : Bool) (diff : Option D)

/-- one step (src/lib.rs:922-925, 2220-2273) -/
def RepairOp.run (B : Trait E C D) (s : Tree E C) : RepairOp E D → M (Tree E C)
  | .write l f => pure (getElemMut s l f).2
  | .fix l c d => recursiveUpdateCache B s (.leaf l) c d

/-- a program of writes and repairs (src/lib.rs:922-925, 2220-2273) -/
def repairRun (B : Trait E C D) (s : Tree E C) : List (RepairOp E D) → M (Tree E C)
  | [] => pure s
  | o :: os => do
    let s ← o.run B s
    repairRun B s os

/-- a leaf, the element it holds, the element its caches were computed from -/
abbrev Ledger (E : Type) := List (Nat × E × E)

/-- before any write the caches are up to date -/
def ledgerOf (es : List (Nat × E)) : Ledger E := es.map fun x => (x.1, x.2, x.2)

/-- a write changes the element, a repair tells the caches -/
def RepairOp.book (o : RepairOp E D) (k : Ledger E) : Ledger E :=
  match o with
  | .write l f => k.map fun x => if x.1 = l then (x.1, f x.2.1, x.2.2) else x
  | .fix l _ _ => k.map fun x => if x.1 = l then (x.1, x.2.1, x.2.1) else x

/-- the ledger at the end of a program -/
def bookAll (os : List (RepairOp E D)) (k : Ledger E) : Ledger E := os.foldl (fun k o => o.book k) k

/-- The written elements are admissible; a repair is of a live leaf, with `can_use_diff` only if the trait supports diffs, and
a given diff is the one from the element the caches know to the element in the leaf. -/
def RepairOp.valid {B : Trait E C D} (A : Law B) (o : RepairOp E D) (k : Ledger E) : Prop :=
  match o with
  | .write l f => ∀ x ∈ k, x.1 = l → A.okE (f x.2.1)
  | .fix l c d => l ∈ k.map Prod.fst ∧ (c = true → B.useDiff = true) ∧
      ∀ d', c = true → d = some d' → ∀ x ∈ k, x.1 = l → A.IsDiff (B.elemCache x.2.2) d' (B.elemCache x.2.1)

/-- every step is valid when it is made -/
def validRepairs {B : Trait E C D} (A : Law B) : Ledger E → List (RepairOp E D) → Prop
  | _, [] => True
  | k, o :: os => o.valid A k ∧ validRepairs A (o.book k) os

end GB
