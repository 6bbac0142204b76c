import Verif.Model.Trait

/-!
# Model of `src/generic_impl/len_finder.rs`
-/

namespace GB
variable {E C D : Type}

/-- `struct LengthFinder` (src/generic_impl/len_finder.rs:9-13). -/
structure LenFinder where
  left : Nat
  slot : Nat
  parent : Option Nat
deriving Repr, DecidableEq

/-- The loop of `LengthFinder::find_node` (src/generic_impl/len_finder.rs:59-72): `none` when the loop runs through, with
the final `(left, last_left)`; otherwise the found child index, its arena, `left`. -/
def lenLoop (getLen : C → Nat) : List (Child C) → Nat → Nat → Nat → (Nat × Idx × Nat) ⊕ (Nat × Nat)
  | [], _, left, lastLeft => .inr (left, lastLeft)
  | c :: cs, i, left, _ =>
    if getLen c.cache ≤ left then lenLoop getLen cs (i + 1) (left - getLen c.cache) left
    else .inl (i, c.arena, left)

/-- `LengthFinder::find_node` (src/generic_impl/len_finder.rs:52-81). -/
def lenFindNode (getLen : C → Nat) (f : LenFinder) (cs : List (Child C)) : M (FindResult × LenFinder) := do
  let first ← unwrap cs.head?
  let isInternal := first.arena.isInternal
  match lenLoop getLen cs 0 f.left f.left with
  | .inl (i, a, left) =>
    pure (⟨i, left, true⟩,
      if isInternal then { f with left := left, parent := some a.raw }
      else { f with left := left, slot := i })
  | .inr (_, lastLeft) => do
    let last ← unwrap cs.getLast?
    pure (⟨cs.length - 1, lastLeft, false⟩,
      if isInternal then { f with left := lastLeft, parent := some last.arena.raw }
      else { f with left := lastLeft, slot := cs.length - 1 })

/-- `impl Query<B> for LengthFinder` (src/generic_impl/len_finder.rs:37-91); `getLen` is `UseLengthFinder::get_len`. -/
def lenQuery (B : Trait E C D) (getLen : C → Nat) : Query E C Nat LenFinder where
  init := fun target => ⟨target, 0, none⟩
  findNode := fun f _ cs => lenFindNode getLen f cs
  confirm := fun f _ e => .ok ((f.left, decide (f.left < B.rleLen e)), f)

end GB
