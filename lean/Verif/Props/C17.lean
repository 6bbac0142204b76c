import Verif.Proof.Content

/-!
# C17: first/last leaf, start/end cursor
-/

namespace GB
variable {E C D : Type}
open Tree

/-- On every valid tree: the first and the last leaf of the sequence, and `None` exactly when it is empty;
`start_cursor` is before the first unit, `end_cursor` behind the last. -/
theorem C17_ends {B : Trait E C D} {A : Law B} {m : Fill} {s : Tree E C} (hm : 1 ≤ m.lo) (hi : Inv A m s) :
    firstLeaf s = .ok ((abs s).es.head?.map Prod.fst) ∧ lastLeaf s = .ok ((abs s).es.getLast?.map Prod.fst) ∧
    startCursor s = .ok ((abs s).es.head?.map fun x => ⟨x.1, 0⟩) ∧
    endCursor B s = .ok ((abs s).es.getLast?.map fun x => ⟨x.1, B.rleLen x.2⟩) ∧
    ((abs s).es = [] ↔ firstLeaf s = .ok none) ∧ ((abs s).es = [] ↔ lastLeaf s = .ok none) := by
  obtain ⟨h, hi⟩ := hi
  have ne := hi.ne hm
  obtain ⟨lvl, g⟩ := hi.ex
  have hf := firstLeaf_spec g.wf ne
  have hl := lastLeaf_spec g.wf ne
  rw [← entries_fst g.wf, List.head?_map] at hf
  rw [← entries_fst g.wf, List.getLast?_map] at hl
  have hf' : firstLeaf s = .ok ((abs s).es.head?.map Prod.fst) := hf
  have hl' : lastLeaf s = .ok ((abs s).es.getLast?.map Prod.fst) := hl
  refine ⟨hf', hl', ?_, ?_, ?_, ?_⟩
  · rw [startCursor, hf']
    cases (abs s).es.head? <;> rfl
  · rw [endCursor, hl']
    cases he : (abs s).es.getLast? with
    | none => rfl
    | some x =>
      obtain ⟨p, hp⟩ := getLf_entries g.wf (l := x.1) (e := x.2) (List.mem_of_getLast? he)
      simp only [Option.map_some, bind_ok, hp, pure_ok]
  · rw [hf']; cases (abs s).es <;> simp
  · rw [hl']; simp

example := C17_ends (B := ropeTrait) (by decide) ropeSample_spec.1

end GB
