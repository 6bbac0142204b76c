import Verif.Proof.Content
import Verif.Proof.SampleTwo

/-!
# C11: `next_elem` / `prev_elem` walk neighbours
-/

namespace GB
variable {E C D : Type}
open Tree

/-- `next_elem` is the start of the following element, `None` exactly at the last one. -/
theorem C11_next_elem {B : Trait E C D} {A : Law B} {m : Fill} {s : Tree E C} {c : Cursor} {e : E} {U V : List (Nat × E)} (hm : 1 ≤ m.lo)
    (hi : Inv A m s) (hc : (abs s).es = U ++ (c.leaf, e) :: V) :
    nextElem s c = .ok (V.head?.map fun x => ⟨x.1, 0⟩) ∧ (nextElem s c = .ok none ↔ V = []) := by
  obtain ⟨h, hi⟩ := hi
  obtain ⟨lvl, g⟩ := hi.ex
  obtain ⟨l, o⟩ := c
  have := nextElem_entries (o := o) g.wf (hi.ne hm) hc
  refine ⟨this, ?_⟩
  rw [this]
  cases V <;> simp

/-- `prev_elem` is the start of the preceding element, `None` exactly at the first one. -/
theorem C11_prev_elem {B : Trait E C D} {A : Law B} {m : Fill} {s : Tree E C} {c : Cursor} {e : E} {U V : List (Nat × E)} (hm : 1 ≤ m.lo)
    (hi : Inv A m s) (hc : (abs s).es = U ++ (c.leaf, e) :: V) :
    prevElem s c = .ok (U.getLast?.map fun x => ⟨x.1, 0⟩) ∧ (prevElem s c = .ok none ↔ U = []) := by
  obtain ⟨h, hi⟩ := hi
  obtain ⟨lvl, g⟩ := hi.ex
  obtain ⟨l, o⟩ := c
  have := prevElem_entries (o := o) g.wf (hi.ne hm) hc
  refine ⟨this, ?_⟩
  rw [this]
  rw [Except.ok.injEq, Option.map_eq_none_iff, List.getLast?_eq_none_iff]

/-- The two are inverse to each other. -/
theorem C11_inverse {B : Trait E C D} {A : Law B} {m : Fill} {s : Tree E C} {a b : Nat} {e : E} (hm : 1 ≤ m.lo)
    (hi : Inv A m s) (ha : (a, e) ∈ (abs s).es) :
    nextElem s ⟨a, 0⟩ = .ok (some ⟨b, 0⟩) ↔ (∃ x, (b, x) ∈ (abs s).es) ∧ prevElem s ⟨b, 0⟩ = .ok (some ⟨a, 0⟩) := by
  have hnd := hi.nodup
  constructor
  · intro h
    obtain ⟨U, V, hc⟩ := List.append_of_mem ha
    rw [(C11_next_elem (c := ⟨a, 0⟩) hm hi hc).1] at h
    cases V with
    | nil => cases h
    | cons y V =>
      cases h
      refine ⟨⟨y.2, by rw [hc]; simp⟩, ?_⟩
      rw [(C11_prev_elem (c := ⟨y.1, 0⟩) (e := y.2) (U := U ++ [(a, e)]) (V := V) hm hi (by rw [hc]; simp)).1]
      simp
  · rintro ⟨⟨x, hx⟩, h⟩
    obtain ⟨U, V, hc⟩ := List.append_of_mem hx
    rw [(C11_prev_elem (c := ⟨b, 0⟩) hm hi hc).1] at h
    cases hl : U.getLast? with
    | none => rw [hl] at h; cases h
    | some y =>
      rw [hl] at h
      cases h
      obtain ⟨U', hU⟩ := getLast_split hl
      rw [(C11_next_elem (c := ⟨y.1, 0⟩) (U := U') (V := (b, x) :: V) (e := y.2) hm hi (by rw [hc, hU]; simp)).1]
      rfl

/-- leaf 11 of the sample is the last child of its node -/
example := C11_next_elem (s := ropeSample) (c := ⟨11, 2⟩) (by decide) ropeSample_spec.1 (e := ⟨[11, 1, 2, 0], 3, 1⟩)
  (U := (List.range 11).map fun i => (i, ⟨[UInt8.ofNat i, 1, 2, 0], 3, 1⟩))
  (V := (List.range 18).map fun i => (i + 12, ⟨[UInt8.ofNat (i + 12), 1, 2, 0], 3, 1⟩)) (by rw [ropeSample_spec.2]; rfl)
example := C11_inverse (s := ordSample) (a := 5) (b := 6) (e := (10, 5)) (by decide) ordSample_spec.1 (by rw [ordSample_spec.2]; decide)

example := C11_prev_elem (c := ⟨11, 2⟩) (by decide) ropeSample_spec.1 (ropeSample_at (k := 11) (by decide))

end GB
