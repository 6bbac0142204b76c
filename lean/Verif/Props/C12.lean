import Verif.Props.C11

/-!
# C12: `prefer_left` / `prefer_right` denote the same position

`posOf B t c` (Verif.Spec.Seq) is the number of units before the cursor.
-/

namespace GB
variable {E C D : Type}
open Tree

theorem posOf_split {B : Trait E C D} {A : Law B} {m : Fill} {s : Tree E C} {c : Cursor} {e : E} {U V : List (Nat × E)}
    (hi : Inv A m s) (hc : (abs s).es = U ++ (c.leaf, e) :: V) : posOf B (abs s) c = some (unitLen B U + c.offset) := by
  have h : locate c.leaf (abs s).es = some (U, e, V) := locate_split hi.nodup hc
  rw [posOf, h]; rfl

/-- `prefer_right` returns a cursor at the same position which is not at the right end of a (non-empty prefix of
an) element, or `None` exactly at the end of the last element. -/
theorem C12_prefer_right {B : Trait E C D} {A : Law B} {m : Fill} {s : Tree E C} {c : Cursor} {e : E} {U V : List (Nat × E)} (hm : 1 ≤ m.lo)
    (hi : Inv A m s) (hc : (abs s).es = U ++ (c.leaf, e) :: V) (ho : c.offset ≤ B.rleLen e) :
    ∃ r, preferRight B s c = .ok r ∧
      (r = none ↔ c.offset ≠ 0 ∧ c.offset = B.rleLen e ∧ V = []) ∧
      ∀ c', r = some c' → posOf B (abs s) c' = posOf B (abs s) c ∧
        ∃ e', (c'.leaf, e') ∈ (abs s).es ∧ (c'.offset = 0 ∨ c'.offset < B.rleLen e') := by
  have hmem : (c.leaf, e) ∈ (abs s).es := by rw [hc]; simp
  by_cases h0 : c.offset = 0
  · refine ⟨some c, by rw [preferRight, if_pos h0], by simp [h0], ?_⟩
    rintro c' ⟨⟩
    exact ⟨rfl, e, hmem, Or.inl h0⟩
  · obtain ⟨h, hi'⟩ := id hi
    obtain ⟨lvl, g⟩ := hi'.ex
    obtain ⟨p, hp⟩ := getLf_entries g.wf hmem
    have hrun : preferRight B s c = if c.offset = B.rleLen e then nextElem s c else .ok (some c) := by
      rw [preferRight, if_neg h0]
      simp only [hp, bind_ok, pure_ok]
    by_cases h1 : c.offset = B.rleLen e
    · have h2 := C11_next_elem (c := c) hm hi hc
      refine ⟨_, by rw [hrun, if_pos h1, h2.1], ?_, ?_⟩
      · cases V <;> simp [h0, h1]
        omega
      · intro c' hc'
        cases V with
        | nil => cases hc'
        | cons y V =>
          cases hc'
          have hc2 : (abs s).es = (U ++ [(c.leaf, e)]) ++ (y.1, y.2) :: V := by rw [hc]; simp
          refine ⟨?_, y.2, by rw [hc]; simp, Or.inl rfl⟩
          rw [posOf_split hi hc, posOf_split (c := ⟨y.1, 0⟩) hi hc2]
          simp [h1]
    · refine ⟨some c, by rw [hrun, if_neg h1], by simp [h1], ?_⟩
      rintro c' ⟨⟩
      exact ⟨rfl, e, hmem, Or.inr (by omega)⟩

/-- `prefer_left` returns a cursor at the same position with a non-zero offset or at the right end of an
element, or `None` exactly at the start of the first element. -/
theorem C12_prefer_left {B : Trait E C D} {A : Law B} {m : Fill} {s : Tree E C} {c : Cursor} {e : E} {U V : List (Nat × E)} (hm : 1 ≤ m.lo)
    (hi : Inv A m s) (hc : (abs s).es = U ++ (c.leaf, e) :: V) :
    ∃ r, preferLeft B s c = .ok r ∧ (r = none ↔ c.offset = 0 ∧ U = []) ∧
      ∀ c', r = some c' → posOf B (abs s) c' = posOf B (abs s) c ∧
        ∃ e', (c'.leaf, e') ∈ (abs s).es ∧ (c'.offset ≠ 0 ∨ c'.offset = B.rleLen e') := by
  have hmem : (c.leaf, e) ∈ (abs s).es := by rw [hc]; simp
  by_cases h0 : c.offset = 0
  · have h2 := C11_prev_elem (c := c) hm hi hc
    cases hl : U.getLast? with
    | none =>
      rw [hl] at h2
      refine ⟨none, ?_, by simp [h0, List.getLast?_eq_none_iff.mp hl], by intro c' h; cases h⟩
      rw [preferLeft, if_neg (by omega)]
      simp only [h2.1, bind_ok, Option.map_none, pure_ok]
    | some y =>
      rw [hl] at h2
      obtain ⟨U', hU⟩ := getLast_split hl
      have hc2 : (abs s).es = U' ++ (y.1, y.2) :: (c.leaf, e) :: V := by rw [hc, hU]; simp
      have hy : (y.1, y.2) ∈ (abs s).es := by rw [hc2]; simp
      obtain ⟨h, hi'⟩ := id hi
      obtain ⟨lvl, g⟩ := hi'.ex
      obtain ⟨p, hp⟩ := getLf_entries g.wf hy
      refine ⟨some ⟨y.1, B.rleLen y.2⟩, ?_, by simp [hU], ?_⟩
      · rw [preferLeft, if_neg (by omega)]
        simp only [h2.1, bind_ok, Option.map_some, hp, pure_ok]
      · rintro c' ⟨⟩
        refine ⟨?_, y.2, hy, Or.inr rfl⟩
        rw [posOf_split hi hc, posOf_split (c := ⟨y.1, B.rleLen y.2⟩) hi hc2]
        simp [hU, h0]
  · refine ⟨some c, by rw [preferLeft, if_pos h0], by simp [h0], ?_⟩
    rintro c' ⟨⟩
    exact ⟨rfl, e, hmem, Or.inl h0⟩

/-- the right end of leaf 11, the last child of its node -/
example := C12_prefer_right (B := ropeTrait) (s := ropeSample) (c := ⟨11, 3⟩) (by decide) ropeSample_spec.1 (e := ⟨[11, 1, 2, 0], 3, 1⟩)
  (U := (List.range 11).map fun i => (i, ⟨[UInt8.ofNat i, 1, 2, 0], 3, 1⟩))
  (V := (List.range 18).map fun i => (i + 12, ⟨[UInt8.ofNat (i + 12), 1, 2, 0], 3, 1⟩)) (by rw [ropeSample_spec.2]; rfl) (by decide)
example := C12_prefer_left (B := ropeTrait) (s := ropeSample) (c := ⟨12, 0⟩) (by decide) ropeSample_spec.1 (e := ⟨[12, 1, 2, 0], 3, 1⟩)
  (U := (List.range 12).map fun i => (i, ⟨[UInt8.ofNat i, 1, 2, 0], 3, 1⟩))
  (V := (List.range 17).map fun i => (i + 13, ⟨[UInt8.ofNat (i + 13), 1, 2, 0], 3, 1⟩)) (by rw [ropeSample_spec.2]; rfl)

end GB
