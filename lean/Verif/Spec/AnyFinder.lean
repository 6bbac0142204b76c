import Verif.Model.Tree

/-!
# Finders that may be wrong
-/

namespace GB
variable {E C D Q F : Type}

/-- At every node that has children, with caches that satisfy `okC`, the finder picks one of the children: any of them, in any state. -/
def PicksChild (q : Query E C Q F) (arg : Q) (okC : C → Prop) : Prop :=
  ∀ fd (cs : List (Child C)), cs ≠ [] → (∀ c ∈ cs, okC c.cache) → ∃ r fd', q.findNode fd arg cs = .ok (r, fd') ∧ r.index < cs.length

/-- At every well-formed element the finder answers with some offset, the length of the element at most. -/
def PicksOffset (B : Trait E C D) (okE : E → Prop) (q : Query E C Q F) (arg : Q) : Prop :=
  ∀ fd e, okE e → ∃ o found fd', q.confirm fd arg e = .ok ((o, found), fd') ∧ o ≤ B.rleLen e

end GB
