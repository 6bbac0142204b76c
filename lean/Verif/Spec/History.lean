import Verif.Model.Tree
import Verif.Spec.Seq

/-!
# Histories of mutating operations

`Op` lists the mutating operations, `Op.run` executes one on a tree of the model (dropping returned values),
`Op.spec` executes it on the abstract sequence, and `Op.valid` is its precondition, stated on the abstract
sequence.
-/

namespace GB
variable {E C D : Type}
open Tree

/-- a mutating operation with its arguments -/
inductive Op (E : Type)
  /-- `push(e)` -/
  | push (e : E)
  /-- `prepend(e)` -/
  | prepend (e : E)
  /-- `insert_by_path(cursor, e)` -/
  | insertAt (cur : Cursor) (e : E)
  /-- `remove_leaf(cursor)` -/
  | remove (cur : Cursor)
  /-- `clear()` -/
  | clear

/-- run an operation on a tree -/
def Op.run (B : Trait E C D) (s : Tree E C) : Op E → M (Tree E C)
  | .push e => do
    let (_, s) ← GB.push B s e
    pure s
  | .prepend e => do
    let (_, s) ← GB.prepend B s e
    pure s
  | .insertAt cur e => do
    let (_, s) ← insertByPath B s cur e
    pure s
  | .remove cur => do
    let (_, s) ← removeLeaf B s cur
    pure s
  | .clear => .ok (GB.clear B s)

/-- run an operation on the abstract sequence -/
def Op.spec (B : Trait E C D) (t : Seq E) : Op E → M (Seq E)
  | .push e => do
    let (_, t) ← specPush B t e
    pure t
  | .prepend e => do
    let (_, t) ← specPrepend B t e
    pure t
  | .insertAt cur e => do
    let (_, t) ← specInsert B t cur e
    pure t
  | .remove cur => .ok (specRemove t cur.leaf).2
  | .clear => .ok ⟨0, []⟩

/-- precondition of an operation: inserted elements are well-formed, cursors point into the sequence (a removed
leaf may be passed to `remove_leaf`), and `prepend` is not used on an empty tree -/
def Op.valid (B : Trait E C D) (okE : E → Prop) (t : Seq E) : Op E → Prop
  | .push e => okE e
  | .prepend e => okE e ∧ t.es ≠ []
  | .insertAt cur e => okE e ∧ ∃ x, (cur.leaf, x) ∈ t.es ∧ cur.offset ≤ B.rleLen x
  | .remove _ => True
  | .clear => True

/-- run a history on a tree -/
def runAll (B : Trait E C D) : Tree E C → List (Op E) → M (Tree E C)
  | s, [] => .ok s
  | s, o :: os => do
    let s ← o.run B s
    runAll B s os

/-- run a history on the abstract sequence -/
def specAll (B : Trait E C D) : Seq E → List (Op E) → M (Seq E)
  | t, [] => .ok t
  | t, o :: os => do
    let t ← o.spec B t
    specAll B t os

/-- every operation of the history meets its precondition when it is executed -/
def validAll (B : Trait E C D) (okE : E → Prop) : Seq E → List (Op E) → Prop
  | _, [] => True
  | t, o :: os => o.valid B okE t ∧ ∀ t', o.spec B t = .ok t' → validAll B okE t' os

end GB
