import Verif.Props.C12

/-!
# C13: `shift_path_by_one_offset` advances by one

Full claim: for every valid cursor (offset from 0 to `rle_len`) the result denotes the position one unit further.
It is **false** for a cursor at the right end (offset `rle_len`) of the last element of a node: crossing to the
next node resets the remaining offset to 0 (src/lib.rs:835-845), so the cursor does not advance
(`C13_false_at_node_end`).  `C13_shift_partial` covers every cursor that is in front of a unit.  `C13_end_partial`
covers the cursors at the right end of an element: the claim holds if another element of the same node behind it is
not empty, and fails in every other case.
-/

namespace GB
variable {E C D : Type}
open Tree

theorem find_first {B : Trait E C D} : ∀ {V : List (Nat × E)} {y : Nat × E}, (V.find? fun x => 0 < B.rleLen x.2) = some y →
    ∃ P Q, V = P ++ y :: Q ∧ unitLen B P = 0 ∧ 0 < B.rleLen y.2 := by
  intro V
  induction V with
  | nil => intro y h; cases h
  | cons z V ih =>
    intro y h
    by_cases hz : 0 < B.rleLen z.2
    · simp only [List.find?_cons, hz, decide_true, Option.some.injEq] at h
      subst h
      exact ⟨[], V, rfl, rfl, hz⟩
    · simp only [List.find?_cons, hz, decide_false] at h
      obtain ⟨P, Q, h1, h2, h3⟩ := ih h
      exact ⟨z :: P, Q, by rw [h1]; rfl, by simp [h2]; omega, h3⟩

/-- For a cursor in front of a unit (`offset < rle_len`), the result denotes the position one unit further and
is in front of a unit again; it is `None` exactly when there is no further unit.
(Missing from the full claim: cursors with `offset = rle_len`.) -/
theorem C13_shift_partial {B : Trait E C D} {A : Law B} {m : Fill} {s : Tree E C} {c : Cursor} {e : E} {U V : List (Nat × E)} (hm : 1 ≤ m.lo)
    (hi : Inv A m s) (hc : (abs s).es = U ++ (c.leaf, e) :: V) (ho : c.offset < B.rleLen e) :
    ∃ r, shiftByOne B s c = .ok r ∧
      (r = none ↔ unitLen B U + c.offset + 1 = unitLen B (abs s).es) ∧
      ∀ c', r = some c' → posOf B (abs s) c' = some (unitLen B U + c.offset + 1) ∧
        ∃ e', (c'.leaf, e') ∈ (abs s).es ∧ c'.offset < B.rleLen e' := by
  obtain ⟨h, hi'⟩ := id hi
  obtain ⟨lvl, g⟩ := hi'.ex
  obtain ⟨l, o⟩ := c
  have h1 := shiftByOne_spec g.wf (hi'.ne hm) B hc ho
  refine ⟨_, h1, ?_, ?_⟩
  · rw [hc]
    simp only [unitLen_append, unitLen_cons]
    simp only at ho
    split
    · simp; omega
    · next hlt =>
      cases hf : V.find? fun x => 0 < B.rleLen x.2 with
      | none =>
        have : unitLen B V = 0 := by
          rw [List.find?_eq_none] at hf
          clear h1 hc
          induction V with
          | nil => rfl
          | cons z V ih =>
            have := hf z (by simp)
            rw [unitLen_cons, ih (fun x hx => hf x (by simp [hx]))]
            simpa using this
        simp only [Option.map_none, true_iff]
        omega
      | some y =>
        obtain ⟨P, Q, h2, h3, h4⟩ := find_first hf
        have : unitLen B V = B.rleLen y.2 + unitLen B Q := by rw [h2]; simp [h3]
        simp
        omega
  · intro c' hc'
    simp only at ho
    split at hc'
    · next hlt =>
      cases hc'
      exact ⟨posOf_split (c := ⟨l, o + 1⟩) hi hc, e, by rw [hc]; simp, hlt⟩
    · next hlt =>
      cases hf : V.find? fun x => 0 < B.rleLen x.2 with
      | none => rw [hf] at hc'; cases hc'
      | some y =>
        rw [hf] at hc'
        cases hc'
        obtain ⟨P, Q, h2, h3, h4⟩ := find_first hf
        have hc2 : (abs s).es = (U ++ (l, e) :: P) ++ (y.1, y.2) :: Q := by rw [hc, h2]; simp
        refine ⟨?_, y.2, by rw [hc2]; simp, h4⟩
        rw [posOf_split (c := ⟨y.1, 0⟩) hi hc2]
        simp only [unitLen_append, unitLen_cons, h3] at hlt ⊢
        congr 1
        omega

theorem find_none {B : Trait E C D} : ∀ {V : List (Nat × E)}, (V.find? fun x => 0 < B.rleLen x.2) = none ↔ unitLen B V = 0 := by
  intro V
  induction V with
  | nil => simp
  | cons z V ih =>
    rw [unitLen_cons, List.find?_cons]
    by_cases hz : 0 < B.rleLen z.2
    · simp [hz]; omega
    · simp [hz, ih]; omega

/-- walking `off` units inside the block: right if the block has so many units -/
theorem walk_inside {B : Trait E C D} (Z : List (Nat × E)) : ∀ (W : List (Nat × E)) (off : Nat), off ≤ unitLen B W →
    (walkSpec B W off Z = none ↔ unitLen B (W ++ Z) = off) ∧
    ∀ c, walkSpec B W off Z = some c → ∃ P x Q, W ++ Z = P ++ x :: Q ∧ c.leaf = x.1 ∧ c.offset < B.rleLen x.2 ∧ unitLen B P + c.offset = off := by
  intro W
  induction W with
  | nil =>
    intro off h
    have h0 : off = 0 := by simpa using h
    subst h0
    refine ⟨by rw [walkSpec, Option.map_eq_none_iff, find_none, List.nil_append], ?_⟩
    intro c hc
    simp only [walkSpec, Option.map_eq_some_iff] at hc
    obtain ⟨x, hx, rfl⟩ := hc
    obtain ⟨P, Q, h1, h2, h3⟩ := find_first hx
    exact ⟨P, x, Q, h1, rfl, h3, by simp [h2]⟩
  | cons x W ih =>
    intro off h
    rw [unitLen_cons] at h
    rw [walkSpec]
    by_cases hz : B.rleLen x.2 ≤ off
    · rw [if_pos hz]
      obtain ⟨i1, i2⟩ := ih (off - B.rleLen x.2) (by omega)
      refine ⟨?_, ?_⟩
      · rw [i1, List.cons_append, unitLen_cons]
        omega
      · intro c hc
        obtain ⟨P, y, Q, h1, h2, h3, h4⟩ := i2 c hc
        exact ⟨x :: P, y, Q, by rw [List.cons_append, h1]; rfl, h2, h3, by rw [unitLen_cons]; omega⟩
    · rw [if_neg hz]
      refine ⟨?_, ?_⟩
      · simp only [List.cons_append, unitLen_cons, reduceCtorEq, false_iff]
        omega
      · intro c hc
        cases hc
        exact ⟨[], x, W ++ Z, rfl, rfl, by simp only; omega, by simp⟩

/-- if the block has fewer units, what is left of the offset is forgotten -/
theorem walk_beyond {B : Trait E C D} (Z : List (Nat × E)) : ∀ (W : List (Nat × E)) (off : Nat), unitLen B W < off →
    walkSpec B W off Z = (Z.find? fun x => 0 < B.rleLen x.2).map fun x => ⟨x.1, 0⟩ := by
  intro W
  induction W with
  | nil => intro off _; rfl
  | cons x W ih =>
    intro off h
    rw [unitLen_cons] at h
    rw [walkSpec, if_pos (by omega), ih _ (by omega)]

/-- For a cursor at the right end of an element.  `W` are the elements behind it in the same node.  If they have a unit, the result denotes the position one unit
further, and is `None` exactly when there is no further unit; so the claim holds.  If they have none, the result denotes the same position as the cursor, or
is `None` at the end of the sequence; so the cursor never advances, and the claim fails whenever there is anything left. -/
theorem C13_end_partial {B : Trait E C D} {A : Law B} {m : Fill} {s : Tree E C} {c : Cursor} {e : E} {U V : List (Nat × E)} (hm : 1 ≤ m.lo)
    (hi : Inv A m s) (hc : (abs s).es = U ++ (c.leaf, e) :: V) (ho : c.offset = B.rleLen e) :
    ∃ r p i W Z, Edge s p i (.leaf c.leaf) ∧ V = W ++ Z ∧ (kids s p).drop (i + 1) = W.map (fun x => .leaf x.1) ∧
      shiftByOne B s c = .ok r ∧
      (0 < unitLen B W →
        (r = none ↔ unitLen B U + c.offset + 1 = unitLen B (abs s).es) ∧
        ∀ c', r = some c' → posOf B (abs s) c' = some (unitLen B U + c.offset + 1) ∧ ∃ e', (c'.leaf, e') ∈ (abs s).es ∧ c'.offset < B.rleLen e') ∧
      (unitLen B W = 0 →
        (r = none ↔ unitLen B U + c.offset = unitLen B (abs s).es) ∧
        ∀ c', r = some c' → posOf B (abs s) c' = some (unitLen B U + c.offset) ∧ posOf B (abs s) c = some (unitLen B U + c.offset)) := by
  obtain ⟨h, hi'⟩ := id hi
  obtain ⟨lvl, g⟩ := hi'.ex
  obtain ⟨l, o⟩ := c
  obtain ⟨p, i, W, Z, h1, rfl, h3, h4⟩ := shiftByOne_all g.wf (hi'.ne hm) B (o := o) (show entries s = _ from hc)
  have ho : o = B.rleLen e := ho
  rw [if_neg (by omega), show o + 1 - B.rleLen e = 1 by omega] at h4
  have hlen : unitLen B (abs s).es = unitLen B U + o + unitLen B (W ++ Z) := by
    rw [hc, unitLen_append, unitLen_cons, ho]
    simp only
    omega
  refine ⟨_, p, i, W, Z, h1, rfl, h3, h4, ?_, ?_⟩
  · intro hW
    obtain ⟨k1, k2⟩ := walk_inside (B := B) Z W 1 hW
    refine ⟨by rw [k1, hlen]; simp only; omega, ?_⟩
    intro c' hc'
    obtain ⟨P, x, Q, q1, q2, q3, q4⟩ := k2 c' hc'
    have hes : (abs s).es = (U ++ (l, e) :: P) ++ (c'.leaf, x.2) :: Q := by
      rw [hc, q1, q2]; simp
    refine ⟨?_, x.2, by rw [hes]; simp, q3⟩
    rw [posOf_split hi hes]
    simp only [unitLen_append, unitLen_cons]
    congr 1
    omega
  · intro hW
    rw [walk_beyond Z W 1 (by omega)]
    rw [unitLen_append] at hlen
    refine ⟨?_, ?_⟩
    · rw [Option.map_eq_none_iff, find_none, hlen]
      simp only
      omega
    · intro c' hc'
      rw [Option.map_eq_some_iff] at hc'
      obtain ⟨x, hx, rfl⟩ := hc'
      obtain ⟨P, Q, q1, q2, q3⟩ := find_first hx
      have hes : (abs s).es = (U ++ (l, e) :: (W ++ P)) ++ (x.1, x.2) :: Q := by
        rw [hc, q1]; simp
      refine ⟨?_, posOf_split (c := ⟨l, o⟩) hi hc⟩
      rw [posOf_split (c := ⟨x.1, 0⟩) hi hes]
      simp only [unitLen_append, unitLen_cons]
      congr 1
      omega

/-- **False for a cursor at the right end of the last element of a node**: leaf 5 of the sample rope has length
3 and is the last child of its node; from `(5, 3)` (position 18) the function goes to `(6, 0)`, which is position
18 again.  From `(4, 3)` inside a node it goes to `(5, 1)`, which is right. -/
theorem C13_false_at_node_end :
    shiftByOne ropeTrait ropeSample ⟨5, 3⟩ = .ok (some ⟨6, 0⟩) ∧
    posOf ropeTrait (abs ropeSample) ⟨5, 3⟩ = some 18 ∧ posOf ropeTrait (abs ropeSample) ⟨6, 0⟩ = some 18 ∧
    shiftByOne ropeTrait ropeSample ⟨4, 3⟩ = .ok (some ⟨5, 1⟩) := by
  refine ⟨by rfl, by rw [ropeSample_spec.2]; rfl, by rw [ropeSample_spec.2]; rfl, by rfl⟩

example := C13_shift_partial (B := ropeTrait) (s := ropeSample) (c := ⟨11, 2⟩) (by decide) ropeSample_spec.1 (e := ⟨[11, 1, 2, 0], 3, 1⟩)
  (U := (List.range 11).map fun i => (i, ⟨[UInt8.ofNat i, 1, 2, 0], 3, 1⟩))
  (V := (List.range 18).map fun i => (i + 12, ⟨[UInt8.ofNat (i + 12), 1, 2, 0], 3, 1⟩)) (by rw [ropeSample_spec.2]; rfl) (by decide)

/-- leaf 11 is the last of its node in the sample rope, leaf 10 is not -/
example := C13_end_partial (B := ropeTrait) (s := ropeSample) (c := ⟨11, 3⟩) (by decide) ropeSample_spec.1 (e := ⟨[11, 1, 2, 0], 3, 1⟩)
  (U := (List.range 11).map fun i => (i, ⟨[UInt8.ofNat i, 1, 2, 0], 3, 1⟩))
  (V := (List.range 18).map fun i => (i + 12, ⟨[UInt8.ofNat (i + 12), 1, 2, 0], 3, 1⟩)) (by rw [ropeSample_spec.2]; rfl) (by decide)
example : shiftByOne ropeTrait ropeSample ⟨11, 3⟩ = .ok (some ⟨12, 0⟩) ∧ shiftByOne ropeTrait ropeSample ⟨10, 3⟩ = .ok (some ⟨11, 1⟩) := ⟨rfl, rfl⟩

end GB
