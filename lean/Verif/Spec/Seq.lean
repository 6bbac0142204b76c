import Verif.Model.Trait

/-!
# Specification of a tree as a sequence

A tree is specified as the list of its elements in order, each with the number of its leaf, together with
the number the next new leaf will get.  The operations below are plain list operations; the only other
ingredients are the callbacks of the element type.
-/

namespace GB
variable {E C D X : Type}

/-- the abstract value of a tree -/
structure Seq (E : Type) where
  /-- number of the next new leaf -/
  next : Nat
  /-- leaves with their elements, in order -/
  es : List (Nat × E)

/-- the entries before leaf `l`, its element, and the entries after it -/
def locate (l : Nat) : List (Nat × E) → Option (List (Nat × E) × E × List (Nat × E))
  | [] => none
  | (k, e) :: es =>
    if k = l then some ([], e, es)
    else (locate l es).map fun (u, x, v) => ((k, e) :: u, x, v)

/-- `push`: append, or merge into the last element -/
def specPush (B : Trait E C D) (t : Seq E) (e : E) : M (Cursor × Seq E) :=
  match t.es.getLast? with
  | some (l, x) =>
    if B.canMerge x e then do
      let x' ← B.mergeRight x e
      pure (⟨l, B.rleLen x⟩, { t with es := t.es.dropLast ++ [(l, x')] })
    else .ok (⟨t.next, 0⟩, ⟨t.next + 1, t.es ++ [(t.next, e)]⟩)
  | none => .ok (⟨t.next, 0⟩, ⟨t.next + 1, [(t.next, e)]⟩)

/-- `prepend`: put in front, or merge into the first element -/
def specPrepend (B : Trait E C D) (t : Seq E) (e : E) : M (Cursor × Seq E) :=
  match t.es with
  | (l, x) :: es =>
    if B.canMerge e x then do
      let x' ← B.mergeLeft x e
      pure (⟨l, 0⟩, { t with es := (l, x') :: es })
    else .ok (⟨t.next, 0⟩, ⟨t.next + 1, (t.next, e) :: t.es⟩)
  | [] => .ok (⟨t.next, 0⟩, ⟨t.next + 1, [(t.next, e)]⟩)

/-- `insert_by_path`: absorb into the leaf, merge with it at its ends, or insert before, after or between
the halves of the leaf.  Fails on a cursor that is not in the sequence. -/
def specInsert (B : Trait E C D) (t : Seq E) (c : Cursor) (data : E) : M ((Cursor × List Nat) × Seq E) :=
  match locate c.leaf t.es with
  | none => .error .panic
  | some (U, e, V) =>
    if B.rleLen e < c.offset then .error .panic
    else do
      match ← B.tryInsert e c.offset data with
      | .inl e' => pure ((c, []), { t with es := U ++ (c.leaf, e') :: V })
      | .inr data =>
        if c.offset = 0 ∧ B.canMerge data e then do
          let e' ← B.mergeLeft e data
          pure ((⟨c.leaf, 0⟩, []), { t with es := U ++ (c.leaf, e') :: V })
        else if c.offset = B.rleLen e ∧ B.canMerge e data then do
          let e' ← B.mergeRight e data
          pure ((⟨c.leaf, B.rleLen e⟩, []), { t with es := U ++ (c.leaf, e') :: V })
        else if c.offset = 0 then
          pure ((⟨t.next, 0⟩, []), ⟨t.next + 1, U ++ (t.next, data) :: (c.leaf, e) :: V⟩)
        else if c.offset = B.rleLen e then
          pure ((⟨t.next, 0⟩, []), ⟨t.next + 1, U ++ (c.leaf, e) :: (t.next, data) :: V⟩)
        else do
          let (a, b) ← B.split e c.offset
          pure ((⟨t.next + 1, 0⟩, [t.next]),
            ⟨t.next + 2, U ++ (c.leaf, a) :: (t.next + 1, data) :: (t.next, b) :: V⟩)

/-- `remove_leaf`: take the element of the leaf out, if the leaf is in the sequence -/
def specRemove (t : Seq E) (l : Nat) : Option E × Seq E :=
  match locate l t.es with
  | none => (none, t)
  | some (U, e, V) => (some e, { t with es := U ++ V })

/-- length in units of a list of elements -/
def unitLen (B : Trait E C D) (es : List (Nat × E)) : Nat := (es.map fun x => B.rleLen x.2).sum

/-- the position of a cursor: the number of units before it -/
def posOf (B : Trait E C D) (t : Seq E) (c : Cursor) : Option Nat :=
  (locate c.leaf t.es).map fun x => unitLen B x.1 + c.offset

/-- elements that are themselves sequences of units: `cont e` are the units of `e`, and merging, splitting
and inserting are concatenation, cutting and splicing of units -/
structure ContentLaw (B : Trait E C D) (okE : E → Prop) (cont : E → List X) : Prop where
  len : ∀ e, okE e → (cont e).length = B.rleLen e
  merge_right : ∀ a b e, okE a → okE b → B.canMerge a b = true → B.mergeRight a b = .ok e → cont e = cont a ++ cont b
  merge_left : ∀ a b e, okE a → okE b → B.canMerge a b = true → B.mergeLeft b a = .ok e → cont e = cont a ++ cont b
  split : ∀ e i a b, okE e → 0 < i → i < B.rleLen e → B.split e i = .ok (a, b) →
    cont a = (cont e).take i ∧ cont b = (cont e).drop i
  tryInsert : ∀ e i d e', okE e → okE d → i ≤ B.rleLen e → B.tryInsert e i d = .ok (.inl e') →
    cont e' = (cont e).take i ++ cont d ++ (cont e).drop i

/-- the units of a sequence of elements -/
def content (cont : E → List X) (es : List (Nat × E)) : List X := es.flatMap fun x => cont x.2

/-- splice `ys` into `xs` at position `i` -/
def splice (xs : List X) (i : Nat) (ys : List X) : List X := xs.take i ++ ys ++ xs.drop i

end GB
