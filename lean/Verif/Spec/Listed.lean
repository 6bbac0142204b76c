import Verif.Model.Trait

/-!
# The lists of leaves of a tree
-/

namespace GB

/-- Every leaf that a node lists is stored and names that node as its parent, no node lists a leaf twice, and the root has no
parent.  This is about the entries that `check()` skips. -/
structure Listed {E C : Type} (s : Tree E C) : Prop where
  live : ∀ (p : Nat) (N : Node C) (i : Nat) (c : Child C) (l : Nat), s.inn.get p = some N → N.children[i]? = some c → c.arena = .leaf l →
    ∃ L, s.lf.get l = some L ∧ L.parent = p
  once : ∀ (p : Nat) (N : Node C) (i j : Nat) (c c' : Child C) (l : Nat), s.inn.get p = some N → N.children[i]? = some c → c.arena = .leaf l →
    N.children[j]? = some c' → c'.arena = .leaf l → i = j
  top : ∀ N, s.inn.get s.root = some N → N.parent = none

end GB
