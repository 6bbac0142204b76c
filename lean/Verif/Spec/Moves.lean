import Verif.Spec.Seq

/-!
# How cursors move
-/

namespace GB
variable {E C D : Type}

/-- The part between `U` and `V` of a sequence is replaced, and its length changes from `old` to `new` units: cursors into `U` keep
their position, and cursors into `V` move by the difference. -/
structure Moves (B : Trait E C D) (U V : List (Nat × E)) (old new : Nat) (t t' : Seq E) : Prop where
  front : ∀ c, c.leaf ∈ U.map Prod.fst → ∃ p, posOf B t c = some p ∧ posOf B t' c = some p
  back : ∀ c, c.leaf ∈ V.map Prod.fst → ∃ p p', posOf B t c = some p ∧ posOf B t' c = some p' ∧ p + new = p' + old

/-- `c` is a cursor of the sequence, with `p` units before it -/
def CursorAt (B : Trait E C D) (t : Seq E) (c : Cursor) (p : Nat) : Prop :=
  ∃ U e V, t.es = U ++ (c.leaf, e) :: V ∧ c.offset ≤ B.rleLen e ∧ unitLen B U + c.offset = p

/-- Where the unit behind offset `k` of the leaf of `cur` is found after an insertion of `n` units at `cur`, for `k` not before `cur`;
`c` and `sp` are the answer of the insertion: the cursor of the new units, and the leaves that were split off. -/
def carried (cur : Cursor) (n : Nat) (c : Cursor) (sp : List Nat) (k : Nat) : Cursor :=
  match sp with
  | l :: _ => ⟨l, k - cur.offset⟩
  | [] =>
    if c.leaf = cur.leaf then ⟨cur.leaf, k + n⟩
    else if cur.offset = 0 then ⟨cur.leaf, k⟩
    else ⟨c.leaf, n⟩

/-- What an insertion of `n` units at `cur`, which stands at position `p`, means for the leaf of `cur`, which held `len` units: the
new units are at the cursor `c` of the answer, cursors before `cur` keep their position, and the others are carried along. -/
structure Within (B : Trait E C D) (cur : Cursor) (len n p : Nat) (c : Cursor) (sp : List Nat) (t t' : Seq E) : Prop where
  here : CursorAt B t cur p
  new : CursorAt B t' c p
  before : ∀ k, k < cur.offset → CursorAt B t ⟨cur.leaf, k⟩ (p - cur.offset + k) ∧ CursorAt B t' ⟨cur.leaf, k⟩ (p - cur.offset + k)
  behind : ∀ k, cur.offset ≤ k → k ≤ len →
    CursorAt B t ⟨cur.leaf, k⟩ (p - cur.offset + k) ∧ CursorAt B t' (carried cur n c sp k) (p - cur.offset + k + n)

end GB
