import Verif.Spec.Shape

/-!
# The caches of a nested list and the elements each of them stands for
-/

namespace GB

/-- a cache that stands for the elements at the positions `lo ≤ i < hi` -/
structure Piece (C : Type) where
  cache : C
  lo : Nat
  hi : Nat

/-- `f` at every member of a list, with the position it begins at -/
def spread {X P : Type} (len : X → Nat) (f : Nat → X → List P) : Nat → List X → List P
  | _, [] => []
  | a, x :: xs => f a x ++ spread len f (a + len x) xs

/-- All the caches of a nested list, of all levels, with the positions of the elements below them; `a` is the position of the first element. -/
def Shape.pieces {C E : Type} : (n : Nat) → Nat → Shape C E n → List (Piece C)
  | 0, _, _ => []
  | n + 1, a, cs => spread (fun x => (Shape.elems n x.2).length)
      (fun a x => ⟨x.1, a, a + (Shape.elems n x.2).length⟩ :: Shape.pieces n a x.2) a cs

/-- the pieces follow each other without gap and without overlap, from `a` to `b` -/
def Adjoin {C : Type} : Nat → List (Piece C) → Nat → Prop
  | a, [], b => a = b
  | a, p :: ps, b => p.lo = a ∧ Adjoin p.hi ps b

/-- Caches of `t`, in any order and possibly overlapping, that stand for the first `k` elements and for no other element. -/
def Covers {C E : Type} (n : Nat) (t : Shape C E n) (k : Nat) (ps : List (Piece C)) : Prop :=
  (∀ p ∈ ps, p ∈ Shape.pieces n 0 t ∧ p.hi ≤ k) ∧ ∀ i, i < k → ∃ p ∈ ps, p.lo ≤ i ∧ i < p.hi

end GB
