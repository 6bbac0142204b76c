import Verif.Props.C01

/-!
# C04: `remove_leaf` removes exactly one element
-/

namespace GB
variable {E C D X : Type}
open Tree

/-- Every valid tree, every live leaf: `remove_leaf` returns the element of the leaf, the sequence loses exactly
that entry, and the tree stays valid.  If nodes may have a single child (`m = 1`) removal can leave an empty
node for a moment, and the cache of no children must be neutral (`LawE`). -/
theorem C04_remove_leaf {B : Trait E C D} {A : Law B} {m : Fill} {s : Tree E C} {cur : Cursor} {e : E} {U V : List (Nat × E)}
    (hm : 1 ≤ m.lo ∧ m.lo + m.d ≤ 6) (hE : 2 ≤ m.lo ∨ LawE A) (hi : Inv A m s) (hc : (abs s).es = U ++ (cur.leaf, e) :: V) :
    ∃ s', removeLeaf B s cur = .ok (some e, s') ∧ Inv A m s' ∧ abs s' = ⟨(abs s).next, U ++ V⟩ := by
  obtain ⟨h, ⟨lvl, g⟩, sz⟩ := hi
  obtain ⟨l, o⟩ := cur
  obtain ⟨s', lvl', h', h1, g', sz', -, h3, -, h4⟩ := removeLeaf_spec (o := o) hm.1 hm.2 hE g sz hc
  exact ⟨s', h1, ⟨h', ⟨lvl', g'⟩, sz'⟩, by rw [abs, h3, h4]; rfl⟩

/-- The same in one statement with the list operation `specRemove`, for any leaf index, live or not. -/
theorem C04_remove_any {B : Trait E C D} {A : Law B} {m : Fill} {s : Tree E C} (cur : Cursor)
    (hm : 1 ≤ m.lo ∧ m.lo + m.d ≤ 6) (hE : 2 ≤ m.lo ∨ LawE A) (hi : Inv A m s) :
    ∃ r s', removeLeaf B s cur = .ok (r, s') ∧ Inv A m s' ∧ specRemove (abs s) cur.leaf = (r, abs s') := by
  cases hl : locate cur.leaf (abs s).es with
  | some x =>
    obtain ⟨U, e, V⟩ := x
    obtain ⟨s', h1, h2, h3⟩ := C04_remove_leaf (B := B) hm hE hi (locate_some hl)
    exact ⟨_, s', h1, h2, by simp only [specRemove, hl, h3]⟩
  | none =>
    obtain ⟨h, ⟨lvl, g⟩, sz⟩ := id hi
    obtain ⟨l, o⟩ := cur
    exact ⟨_, s, removeLeaf_none ((locate_dead g.wf).mp hl), hi, by simp only [specRemove, hl]⟩

example := C04_remove_leaf (s := ordSample) (cur := ⟨17, 0⟩) (e := (34, 17)) (m := 6) (by decide) (Or.inl (by decide)) ordSample_spec.1
  (U := (List.range 17).map fun i => (i, (2 * i, i))) (V := (List.range 12).map fun i => (i + 18, (2 * (i + 18), i + 18)))
  (by rw [ordSample_spec.2]; rfl)

/-- with single-child nodes allowed -/
example := C04_remove_any (s := newTree ropeTrait) (A := ropeLaw 4) (m := 1) ⟨0, 0⟩ (by decide) (Or.inr (ropeLawE 4)) ⟨1, new_inv _ _⟩
example := C04_remove_any (s := ropeSample) (A := ropeLaw 4) (m := 5) ⟨12, 0⟩ (by decide) (Or.inl (by decide)) ropeSample_spec.1

end GB
