import Verif.Model.Tree
import Verif.Spec.History

/-!
# Trees that differ in their caches only
-/

namespace GB
variable {E C C' D D' : Type}

/-- the same node but for the caches next to the children -/
structure NodeSame (n : Node C) (n' : Node C') : Prop where
  parent : n.parent = n'.parent
  slot : n.slot = n'.slot
  kids : n.children.map Child.arena = n'.children.map Child.arena

/-- both absent, or both present and related -/
inductive OptRel {α β : Type} (R : α → β → Prop) : Option α → Option β → Prop
  | none : OptRel R none none
  | some {a : α} {b : β} : R a b → OptRel R (some a) (some b)

/-- the same tree but for the caches, node for node -/
structure TreeSame (s : Tree E C) (t : Tree E C') : Prop where
  len : s.inn.items.length = t.inn.items.length
  inn : ∀ x, OptRel NodeSame (s.inn.get x) (t.inn.get x)
  lf : s.lf = t.lf
  root : s.root = t.root

/-- the same failure, or related results -/
inductive MRel {α β : Type} (R : α → β → Prop) : M α → M β → Prop
  | ok {a : α} {b : β} : R a b → MRel R (.ok a) (.ok b)
  | err (e : Err) : MRel R (.error e) (.error e)

/-- the functions on elements are the same; those on caches may differ, also in their types -/
structure ElemSame (B : Trait E C D) (B' : Trait E C' D') : Prop where
  rleLen : B.rleLen = B'.rleLen
  split : B.split = B'.split
  canMerge : B.canMerge = B'.canMerge
  mergeRight : B.mergeRight = B'.mergeRight
  mergeLeft : B.mergeLeft = B'.mergeLeft
  tryInsert : B.tryInsert = B'.tryInsert
  canRemove : B.canRemove = B'.canRemove
  useDiff : B.useDiff = B'.useDiff

/-- the functions on caches do not panic; nothing else is asked of them -/
structure CacheTotal (B : Trait E C D) : Prop where
  calcOk : ∀ c cs, ∃ r, B.calcC c cs = .ok r
  applyOk : ∀ c d, ∃ c', B.apply c d = .ok c'

/-- the trait without caches: the same elements, and the unit value for every cache and every cache difference -/
def bare (B : Trait E C D) : Trait E Unit Unit where
  rleLen := B.rleLen
  split := B.split
  canMerge := B.canMerge
  mergeRight := B.mergeRight
  mergeLeft := B.mergeLeft
  tryInsert := B.tryInsert
  canRemove := B.canRemove
  useDiff := B.useDiff
  dflt := ()
  calcC := fun _ _ => .ok ((), ())
  apply := fun _ _ => .ok ()
  mergeDiff := fun _ _ => ()
  elemCache := fun _ => ()
  newCacheToDiff := fun _ => ()
  subCache := fun _ _ => ()

/-- what is asked of the functions on elements: they do not panic on well-formed elements and return well-formed ones -/
structure ElemLaw (B : Trait E C D) (okE : E → Prop) : Prop where
  right : ∀ a b, okE a → okE b → B.canMerge a b = true → ∃ e, B.mergeRight a b = .ok e ∧ okE e
  left : ∀ a b, okE a → okE b → B.canMerge a b = true → ∃ e, B.mergeLeft b a = .ok e ∧ okE e
  splits : ∀ e i, okE e → 0 < i → i < B.rleLen e → ∃ a b, B.split e i = .ok (a, b) ∧ okE a ∧ okE b
  insert : ∀ e i d, okE e → okE d → i ≤ B.rleLen e →
    (∃ e', B.tryInsert e i d = .ok (.inl e') ∧ okE e') ∨ B.tryInsert e i d = .ok (.inr d)

/-- precondition of an operation: as `Op.valid`, but `prepend` may be used on an empty tree -/
def Op.fits (B : Trait E C D) (okE : E → Prop) (t : Seq E) : Op E → Prop
  | .push e => okE e
  | .prepend e => okE e
  | .insertAt cur e => okE e ∧ ∃ x, (cur.leaf, x) ∈ t.es ∧ cur.offset ≤ B.rleLen x
  | .remove _ => True
  | .clear => True

/-- every operation of the history meets its precondition when it is executed -/
def fitsAll (B : Trait E C D) (okE : E → Prop) : Seq E → List (Op E) → Prop
  | _, [] => True
  | t, o :: os => o.fits B okE t ∧ ∀ t', o.spec B t = .ok t' → fitsAll B okE t' os

end GB
