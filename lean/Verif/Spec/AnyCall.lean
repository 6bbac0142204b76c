import Verif.Model.Ops
import Verif.Model.Iter
import Verif.Spec.Skel
import Verif.Spec.Update
import Verif.Spec.Range

/-!
# Histories that also change ranges and single elements
-/

namespace GB
variable {E C D : Type}
open Tree

/-- one call -/
inductive AnyCall (E D : Type)
  | op (o : Op E)
  /-- a drain from one cursor to another that is dropped after `k` elements -/
  | drain (a b : Cursor) (k : Nat)
  | updateLeaf (l : Nat) (f : E → M (E × Bool × Option E × Option E))
  | update (f : Unit → E → M (Unit × E × Option D)) (a b : Cursor)

/-- run the call; `ho` is the order in which the hash maps of `update` are walked -/
def AnyCall.run (B : Trait E C D) (ho : HashOrd E) (s : Tree E C) : AnyCall E D → M (Tree E C)
  | .op o => o.run B s
  | .drain a b k => do let (_, _, s) ← GB.drain B s ⟨a, true⟩ ⟨b, true⟩ k; pure s
  | .updateLeaf l f => do let (_, _, s) ← GB.updateLeaf B s l f; pure s
  | .update f a b => do let (_, _, s) ← GB.update B ho f () s a b; pure s

/-- run the calls one after another -/
def runCalls (B : Trait E C D) (ho : HashOrd E) : Tree E C → List (AnyCall E D) → M (Tree E C)
  | s, [] => pure s
  | s, e :: es => do let s ← e.run B ho s; runCalls B ho s es

/-- both cursors point into the sequence, the first not behind the second, nor (if so asked) at the end -/
def RangeFits (B : Trait E C D) (t : Seq E) (a b : Cursor) (notEnd : Prop) : Prop :=
  ∃ Ua Va Ub Vb ea eb, t.es = Ua ++ (a.leaf, ea) :: Va ∧ a.offset ≤ B.rleLen ea ∧ t.es = Ub ++ (b.leaf, eb) :: Vb ∧ b.offset ≤ B.rleLen eb ∧
    unitLen B Ua + a.offset ≤ unitLen B Ub + b.offset ∧ (notEnd → unitLen B Ua + a.offset < unitLen B t.es)

/-- precondition of a call; nothing is asked of caches and of the differences that closures report -/
def AnyCall.fits (B : Trait E C D) (okE : E → Prop) (t : Seq E) : AnyCall E D → Prop
  | .op o => o.fits B okE t
  | .drain a b _ => RangeFits B t a b True
  | .updateLeaf l f => ∃ U V e e1 need n1 n2, t.es = U ++ (l, e) :: V ∧ f e = .ok (e1, need, n1, n2) ∧ okE e1 ∧
      (∀ b, n1 = some b → okE b) ∧ (∀ b, n2 = some b → okE b)
  | .update f a b => RangeFits B t a b False ∧ ∀ e, okE e → ∃ e' d, f () e = .ok ((), e', d) ∧ okE e'

/-- what the call does to the sequence -/
def AnyCall.spec (B : Trait E C D) (t t' : Seq E) : AnyCall E D → Prop
  | .op o => o.spec B t = .ok t'
  | .drain a b _ => ∃ Y, specDrain B t a b = .ok (Y, t')
  | .updateLeaf l f => ∃ U V e e1 need n1 n2 b ids, t.es = U ++ (l, e) :: V ∧ f e = .ok (e1, need, n1, n2) ∧
      UpdRel B t.next l U V (survivors B e1 n1 n2) b ids t'.next t'.es
  | .update f a b => specUpdate B f () t a b = .ok ((), t')

/-- what the calls do to the sequence -/
def specCalls (B : Trait E C D) : Seq E → List (AnyCall E D) → Seq E → Prop
  | t, [], t' => t' = t
  | t, e :: es, t' => ∃ t1, e.spec B t t1 ∧ specCalls B t1 es t'

/-- every call meets its precondition when it is executed -/
def fitsCalls (B : Trait E C D) (okE : E → Prop) : Seq E → List (AnyCall E D) → Prop
  | _, [] => True
  | t, e :: es => e.fits B okE t ∧ ∀ t', e.spec B t t' → fitsCalls B okE t' es

end GB
