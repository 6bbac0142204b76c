import Verif.Props.C07
import Verif.Proof.SampleTwo

/-!
# C15: `visit_previous_caches` covers exactly the prefix
-/

namespace GB
variable {E C D : Type}
open Tree

/-- The visited caches, combined in call order (with anything that may follow), are the caches of all elements
strictly before the cursor's element; the last call gets the element and the offset. -/
theorem C15_visit {B : Trait E C D} {A : Law B} {m : Fill} {h : Nat} {s : Tree E C} {c : Cursor} {e : E} {U V : List (Nat × E)} (hm : 1 ≤ m.lo)
    (hi : InvH A m h s) (hh : h ≤ 9) (hc : (abs s).es = U ++ (c.leaf, e) :: V) :
    ∃ cs, visitPrevCaches s c = .ok (cs, (e, c.offset)) ∧
      ∀ r, A.total (cs ++ r) = A.total (U.map (fun x => B.elemCache x.2) ++ r) := by
  obtain ⟨lvl, g⟩ := hi.ex
  obtain ⟨l, o⟩ := c
  exact visitPrevCaches_spec g (hi.ne hm) hh hc

/-- For the rope: the visited lengths plus the offset are the byte position of the cursor. -/
theorem C15_rope_position {cap : Nat} {m : Fill} {s : Tree GapBuf Int} {c : Cursor} {e : GapBuf} {U V : List (Nat × GapBuf)} (hm : 5 ≤ m.lo)
    (hi : Inv (ropeLaw cap) m s) (hn : (abs s).es.length < 3906250) (hc : (abs s).es = U ++ (c.leaf, e) :: V) :
    ∃ cs, visitPrevCaches s c = .ok (cs, (e, c.offset)) ∧
      posOf ropeTrait (abs s) c = some ((cs.sum).toNat + c.offset) := by
  have hnd := hi.nodup
  obtain ⟨h, h9, hi⟩ := hi.low hm hn
  obtain ⟨cs, h1, h2⟩ := C15_visit (by omega) hi h9 hc
  refine ⟨cs, h1, ?_⟩
  have h3 := h2 []
  simp only [List.append_nil] at h3
  have h4 : (U.map fun x => ropeTrait.elemCache x.2).sum = ((unitLen ropeTrait U : Nat) : Int) := by
    clear h2 h3 hc
    induction U with
    | nil => rfl
    | cons x U ih => simp only [List.map_cons, List.sum_cons, ih, unitLen_cons, Int.natCast_add]; rfl
  have h5 : cs.sum = (unitLen ropeTrait U : Nat) := by
    have : cs.sum = (U.map fun x => ropeTrait.elemCache x.2).sum := h3
    rw [this, h4]
  have hl : locate c.leaf (abs s).es = some (U, e, V) := locate_split hnd hc
  rw [posOf, hl, h5]
  simp

example := C15_rope_position (s := ropeSample) (c := ⟨11, 2⟩) (by decide) ropeSample_spec.1 (by rw [ropeSample_spec.2]; decide) (e := ⟨[11, 1, 2, 0], 3, 1⟩)
  (U := (List.range 11).map fun i => (i, ⟨[UInt8.ofNat i, 1, 2, 0], 3, 1⟩))
  (V := (List.range 18).map fun i => (i + 12, ⟨[UInt8.ofNat (i + 12), 1, 2, 0], 3, 1⟩)) (by rw [ropeSample_spec.2]; rfl)

example := C15_visit (c := ⟨11, 2⟩) (by decide) ropeSample_two (by decide) (ropeSample_at (k := 11) (by decide))

end GB
