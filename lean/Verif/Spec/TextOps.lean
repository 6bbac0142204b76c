import Verif.Model.Iter
import Verif.Model.LenFinder
import Verif.Spec.Seq

/-!
# Editing by position

`TextOp` lists the operations that take positions (numbers of units) instead of cursors: the tree is asked for the position with the
length query and the cursors go to the operation, as the rope and the range map do it.  `TextOp.edit` is the same edit on the list of
units, `TextOp.valid` its precondition, stated on the list of units.
-/

namespace GB
variable {E C D X : Type}
open Tree

/-- edits of a tree at positions of the sequence -/
inductive TextOp (E D X : Type)
  /-- `push(e)` -/
  | push (e : E)
  /-- `prepend(e)` -/
  | prepend (e : E)
  /-- `insert::<Finder>(i, e)` -/
  | insert (i : Nat) (e : E)
  /-- `drain_by_query::<Finder>(i..j)`, of which `k` elements are taken before it is dropped -/
  | drain (i j k : Nat)
  /-- `update` on the cursors of `i` and `j`, with a closure that changes every unit by `g` -/
  | map (i j : Nat) (f : E → E) (d : E → Option D) (g : X → X)
  /-- `clear()` -/
  | clear

/-- `update` between two positions -/
def updateAt (B : Trait E C D) (getLen : C → Nat) (ho : HashOrd E) (f : E → E) (d : E → Option D) (s : Tree E C) (i j : Nat) : M (Tree E C) := do
  match ← query (lenQuery B getLen) s i, ← query (lenQuery B getLen) s j with
  | some a, some b => do
    let (_, _, s) ← update B ho (fun (_ : Unit) e => .ok ((), f e, d e)) () s a.cursor b.cursor
    pure s
  | _, _ => .error .panic

/-- run an operation on a tree; a drain also returns the elements it yielded and those it dropped -/
def TextOp.run (B : Trait E C D) (getLen : C → Nat) (ho : HashOrd E) (s : Tree E C) : TextOp E D X → M (List E × List E × Tree E C)
  | .push e => do
    let (_, s) ← GB.push B s e
    pure ([], [], s)
  | .prepend e => do
    let (_, s) ← GB.prepend B s e
    pure ([], [], s)
  | .insert i e => do
    let (_, s) ← GB.insert B (lenQuery B getLen) s i e
    pure ([], [], s)
  | .drain i j k => drainByQuery B (lenQuery B getLen) s i j k
  | .map i j f d _ => do
    let s ← updateAt B getLen ho f d s i j
    pure ([], [], s)
  | .clear => .ok ([], [], GB.clear B s)

/-- the edit on the list of units -/
def TextOp.edit (cont : E → List X) (xs : List X) : TextOp E D X → List X
  | .push e => xs ++ cont e
  | .prepend e => cont e ++ xs
  | .insert i e => splice xs i (cont e)
  | .drain i j _ => xs.take i ++ xs.drop j
  | .map i j _ _ g => xs.take i ++ ((xs.drop i).take (j - i)).map g ++ xs.drop j
  | .clear => []

/-- the units that leave the tree through a drain, what was yielded and what was dropped -/
def TextOp.yields (cont : E → List X) (xs : List X) : TextOp E D X → List E → List E → Prop
  | .drain i j k, out, rest => out.flatMap cont ++ rest.flatMap cont = (xs.drop i).take (j - i) ∧ out.length ≤ k ∧ (out.length < k → rest = [])
  | _, out, rest => out = [] ∧ rest = []

/-- precondition: elements are well-formed and not of length 0, positions are in the list; `prepend` is not used on the empty tree (C02) and
a drain does not begin at the end (C19).  `okD c d c'` says that the diff `d` leads from cache `c` to `c'`. -/
def TextOp.valid (B : Trait E C D) (okE : E → Prop) (okD : C → D → C → Prop) (cont : E → List X) (xs : List X) : TextOp E D X → Prop
  | .push e => okE e ∧ 0 < B.rleLen e
  | .prepend e => okE e ∧ 0 < B.rleLen e ∧ xs ≠ []
  | .insert i e => okE e ∧ 0 < B.rleLen e ∧ i ≤ xs.length
  | .drain i j _ => i ≤ j ∧ j ≤ xs.length ∧ i < xs.length
  | .map i j f d g => i ≤ j ∧ j ≤ xs.length ∧ xs ≠ [] ∧ ∀ e, okE e → okE (f e) ∧ cont (f e) = (cont e).map g ∧
      (∀ x, d e = some x → okD (B.elemCache e) x (B.elemCache (f e))) ∧ (d e = none → B.elemCache (f e) = B.elemCache e)
  | .clear => True

/-- run a history -/
def textRun (B : Trait E C D) (getLen : C → Nat) (ho : HashOrd E) : Tree E C → List (TextOp E D X) → M (List (List E × List E) × Tree E C)
  | s, [] => .ok ([], s)
  | s, o :: os => do
    let (out, rest, s) ← o.run B getLen ho s
    let (outs, s) ← textRun B getLen ho s os
    pure ((out, rest) :: outs, s)

/-- the same edits on the list of units -/
def textEdit (cont : E → List X) : List X → List (TextOp E D X) → List X
  | xs, [] => xs
  | xs, o :: os => textEdit cont (o.edit cont xs) os

/-- all preconditions hold, on the lists on the way -/
def textValid (B : Trait E C D) (okE : E → Prop) (okD : C → D → C → Prop) (cont : E → List X) : List X → List (TextOp E D X) → Prop
  | _, [] => True
  | xs, o :: os => o.valid B okE okD cont xs ∧ textValid B okE okD cont (o.edit cont xs) os

/-- all lists on the way have fewer than `n` units -/
def textShort (cont : E → List X) (n : Nat) : List X → List (TextOp E D X) → Prop
  | xs, [] => xs.length < n
  | xs, o :: os => xs.length < n ∧ textShort cont n (o.edit cont xs) os

/-- every step yields what it should -/
def textYields (cont : E → List X) : List X → List (TextOp E D X) → List (List E × List E) → Prop
  | _, [], outs => outs = []
  | xs, o :: os, outs => ∃ out rest outs', outs = (out, rest) :: outs' ∧ o.yields cont xs out rest ∧ textYields cont (o.edit cont xs) os outs'

end GB
