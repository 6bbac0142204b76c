import Verif.Proof.Finder

/-!
# C09: query by length finds the right position
-/

namespace GB
variable {E C D : Type}
open Tree

/-- On every valid non-empty tree whose caches measure length, `query::<LengthFinder>(i)` returns a leaf and an
offset such that the units before the leaf plus the offset are exactly `i`; `found` tells whether `i` is less
than the total length; inside the sequence the offset is inside the leaf, otherwise the leaf is the last one. -/
theorem C09_query_len {B : Trait E C D} {A : Law B} {getLen : C → Nat} (L : LenLaw A getLen) {m : Fill} {s : Tree E C}
    (hm : 1 ≤ m.lo) (hi : Inv A m s) (hne : (abs s).es ≠ []) (i : Nat) :
    ∃ U l e V o, (abs s).es = U ++ (l, e) :: V ∧
      query (lenQuery B getLen) s i = .ok (some ⟨⟨l, o⟩, decide (i < unitLen B (abs s).es)⟩) ∧
      unitLen B U + o = i ∧ (i < unitLen B (abs s).es → o < B.rleLen e) ∧
      (unitLen B (abs s).es ≤ i → V = []) ∧ (i = unitLen B (abs s).es → o = B.rleLen e) := by
  obtain ⟨h, hi⟩ := hi
  have ho : order s ≠ [] := fun h => hne ((abs_nil hi).mpr h)
  obtain ⟨lvl, g⟩ := hi.ex
  obtain ⟨U, l, e, V, o, h1, h2, h3, h4, h5⟩ := lenQuery_spec g (hi.ne hm) L ho i
  refine ⟨U, l, e, V, o, h1, h2, h3, h4, h5, ?_⟩
  intro he
  have hV := h5 (Nat.le_of_eq he.symm)
  have h6 : unitLen B (abs s).es = unitLen B U + B.rleLen e := by
    rw [show (abs s).es = entries s from rfl, h1, hV]; simp
  have h7 : unitLen B U + o = i := h3
  omega

/-- The finder that `query_with_finder_return` hands back: `left` is the offset, `slot` the slot of the leaf in its parent, and `parent` is
that parent, or `None` if it is the root.  The query result is the one of `query`. -/
theorem C09_finder {B : Trait E C D} {A : Law B} {getLen : C → Nat} (L : LenLaw A getLen) {m : Fill} {s : Tree E C}
    (hm : 1 ≤ m.lo) (hi : Inv A m s) (hne : (abs s).es ≠ []) (i : Nat) :
    ∃ q fd e p N c, queryWithFinder (lenQuery B getLen) s i = .ok (some q, fd) ∧ query (lenQuery B getLen) s i = .ok (some q) ∧
      fd.left = q.cursor.offset ∧ s.lf.get q.cursor.leaf = some ⟨e, p⟩ ∧ s.inn.get p = some N ∧
      N.children[fd.slot]? = some c ∧ c.arena = .leaf q.cursor.leaf ∧ fd.parent = if p = s.root then none else some p := by
  obtain ⟨-, l, -, -, o, -, hq, -⟩ := C09_query_len L hm hi hne i
  obtain ⟨h, ⟨lvl, g⟩, -⟩ := hi
  rw [query] at hq
  obtain ⟨⟨r, fd⟩, h1, h2⟩ := bind_inv hq
  cases h2
  obtain ⟨p, h2, h3, h4⟩ := lenQuery_finder g.wf h1
  obtain ⟨-, ⟨e, p'⟩, hl, hp⟩ := g.wf.kid_lf _ _ _ h2
  cases hp
  obtain ⟨c, hc1, hc2⟩ := edge_chs.mp h2
  obtain ⟨N, hN⟩ : ∃ N, s.inn.get p' = some N := by
    cases hN : s.inn.get p' with
    | some N => exact ⟨N, rfl⟩
    | none => rw [chs, hN] at hc1; simp at hc1
  rw [chs_of hN] at hc1
  exact ⟨_, fd, e, p', N, c, h1, by rw [query, h1]; rfl, h4, hl, hN, hc1, hc2, h3⟩

/-- On an empty tree there is no result, and the finder is the initial one. -/
theorem C09_finder_empty {B : Trait E C D} {A : Law B} {getLen : C → Nat} {m : Fill} {s : Tree E C} (hm : 1 ≤ m.lo) (hi : Inv A m s)
    (hes : (abs s).es = []) (i : Nat) : queryWithFinder (lenQuery B getLen) s i = .ok (none, ⟨i, 0, none⟩) := by
  obtain ⟨h, hi⟩ := hi
  have ho : order s = [] := (abs_nil hi).mp hes
  have ne := hi.ne hm
  obtain ⟨⟨lvl, g⟩, -⟩ := hi
  rw [queryWithFinder, isEmpty_spec g.wf ne, ho]
  rfl

example := C09_query_len (ropeLenLaw 4) (by decide) ropeSample_spec.1 (by rw [ropeSample_spec.2]; simp) 50

example := C09_finder (ropeLenLaw 4) (by decide) ropeSample_spec.1 (by rw [ropeSample_spec.2]; simp) 50

example := C09_finder_empty (B := ropeTrait) (getLen := ropeLen) (A := ropeLaw 4) (m := 5) (by decide) ⟨1, new_inv _ _⟩ (by rw [new_entries]) 3

end GB
