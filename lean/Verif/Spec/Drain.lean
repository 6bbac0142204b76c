import Verif.Spec.Seq

/-!
# Specification of `drain`
-/

namespace GB
variable {E C D : Type}

/-- Cut the sequence at a cursor: the entries before it, the entries after it and the number of the next new leaf.  A cut inside an
element splits that element; the right part gets a new leaf. -/
def specCut (B : Trait E C D) (t : Seq E) (c : Cursor) : M (List (Nat × E) × List (Nat × E) × Nat) :=
  match locate c.leaf t.es with
  | none => .error .panic
  | some (U, e, V) =>
    if B.rleLen e < c.offset then .error .panic
    else if c.offset = 0 then .ok (U, (c.leaf, e) :: V, t.next)
    else if c.offset = B.rleLen e then .ok (U ++ [(c.leaf, e)], V, t.next)
    else do
      let (a, b) ← B.split e c.offset
      pure (U ++ [(c.leaf, a)], (t.next, b) :: V, t.next + 1)

/-- `drain a..b`: cut at `b`, then at `a`, and take the part in the middle out. Returns the part taken out and the new sequence. -/
def specDrain (B : Trait E C D) (t : Seq E) (a b : Cursor) : M (List (Nat × E) × Seq E) := do
  let (L, R, n) ← specCut B t b
  let (X, S, n) ← specCut B ⟨n, L ++ R⟩ a
  pure (S.take (S.length - R.length), ⟨n, X ++ R⟩)

/-- element lengths add up when an element is split -/
def SplitLen (B : Trait E C D) (ok : E → Prop) : Prop :=
  ∀ e i x y, ok e → 0 < i → i < B.rleLen e → B.split e i = .ok (x, y) → B.rleLen x = i ∧ B.rleLen y = B.rleLen e - i

end GB
