import Verif.Proof.History
import Verif.Proof.SampleTwo

/-!
# C05: a stale leaf index is inert
-/

namespace GB
variable {E C D X : Type}
open Tree

/-- A leaf index that is not in the sequence is dead: `get_elem` returns `None`, `remove_leaf` returns `None`
and changes nothing. -/
theorem C05_dead_inert {B : Trait E C D} {A : Law B} {m : Fill} {s : Tree E C} (hi : Inv A m s) {cur : Cursor}
    (hd : ∀ e, (cur.leaf, e) ∉ (abs s).es) :
    getElem s cur.leaf = none ∧ removeLeaf B s cur = .ok (none, s) := by
  obtain ⟨h, ⟨lvl, g⟩, sz⟩ := hi
  have hn : elm s cur.leaf = none := by
    cases he : elm s cur.leaf with
    | none => rfl
    | some e => exact absurd ((entries_mem g.wf).mpr he) (hd e)
  obtain ⟨l, o⟩ := cur
  refine ⟨?_, removeLeaf_none hn⟩
  have := lpar_none.mp (elm_none.mp hn)
  rw [getElem, this]
  rfl

/-- After `remove_leaf` the index stays dead through every later history of valid operations other than
`clear()`: in the final tree `get_elem` returns `None` and `remove_leaf` changes nothing. -/
theorem C05_stale_forever {B : Trait E C D} {A : Law B} {m : Fill} {s : Tree E C} (hm : 1 ≤ m.lo ∧ m.lo + m.d ≤ 5) (hE : 2 ≤ m.lo ∨ LawE A)
    (hi : Inv A m s) {cur : Cursor} {e : E} (hl : (cur.leaf, e) ∈ (abs s).es) {os : List (Op E)} (hc : ∀ o ∈ os, o ≠ .clear)
    (hv : validAll B A.okE (specRemove (abs s) cur.leaf).2 os) :
    ∃ s1 s2, removeLeaf B s cur = .ok (some e, s1) ∧ runAll B s1 os = .ok s2 ∧ Inv A m s2 ∧
      getElem s2 cur.leaf = none ∧ ∀ o, removeLeaf B s2 ⟨cur.leaf, o⟩ = .ok (none, s2) := by
  obtain ⟨U, V, hent⟩ := List.append_of_mem hl
  obtain ⟨s1, h1, i1, a1⟩ := C04_remove_leaf (B := B) ⟨hm.1, by omega⟩ hE hi hent
  have hnd := hi.nodup
  have hloc := locate_split hnd hent
  have hsp : (specRemove (abs s) cur.leaf).2 = abs s1 := by
    have hloc' : locate cur.leaf (abs s).es = some (U, e, V) := hloc
    simp only [a1, specRemove, hloc']
  rw [hsp] at hv
  obtain ⟨s2, h2, i2, p2⟩ := run_spec hm hE os s1 i1 hv
  have hf := specAll_fresh hc p2
  have hdead : ∀ x, (cur.leaf, x) ∉ (abs s2).es := by
    intro x hx
    have hlt : cur.leaf < (abs s1).next := by rw [a1]; exact entries_lt hl
    obtain ⟨y, hy⟩ := hf.old cur.leaf hlt ⟨x, hx⟩
    rw [a1] at hy
    rw [show entries s = (abs s).es from rfl, hent, List.map_append, List.map_cons, List.nodup_append] at hnd
    obtain ⟨-, h5, h6⟩ := hnd
    rcases List.mem_append.mp hy with hy | hy
    · exact h6 cur.leaf (List.mem_map.mpr ⟨_, hy, rfl⟩) cur.leaf (by simp) rfl
    · exact (List.nodup_cons.mp h5).1 (List.mem_map.mpr ⟨_, hy, rfl⟩)
  refine ⟨s1, s2, h1, h2, i2, (C05_dead_inert (B := B) i2 hdead).1, fun o => (C05_dead_inert (B := B) i2 (cur := ⟨cur.leaf, o⟩) hdead).2⟩

/-- **Limit of the guarantee**: `clear()` starts new arenas (src/lib.rs:2428-2430), so an index from before a
`clear()` can denote a new element afterwards. -/
theorem C05_clear_alias : ∃ (s0 s1 s2 : Tree (Nat × Nat) (OrdCache Nat)) (c : Cursor),
    push (ordTrait Nat Nat) (newTree (ordTrait Nat Nat)) (1, 1) = .ok (c, s0) ∧ clear (ordTrait Nat Nat) s0 = s1 ∧
    getElem s1 c.leaf = none ∧ push (ordTrait Nat Nat) s1 (2, 2) = .ok (c, s2) ∧ getElem s2 c.leaf = some (2, 2) :=
  ⟨_, _, _, _, rfl, rfl, rfl, rfl, rfl⟩

/-- removing leaf 17 of the sample rope, then pushing, inserting inside leaf 3 and removing leaf 4 -/
example := C05_stale_forever (B := ropeTrait) (A := ropeLaw 4) (m := 5) (by decide) (Or.inl (by decide)) ropeSample_spec.1
  (cur := ⟨17, 0⟩) (e := ⟨[17, 1, 2, 0], 3, 1⟩) (by rw [ropeSample_spec.2]; decide)
  (os := [.push ⟨[5, 0, 0, 0], 1, 3⟩, .remove ⟨4, 0⟩]) (by simp) (by
    refine ⟨⟨by simp [GapBuf.WF], rfl⟩, fun t' _ => ⟨trivial, fun _ _ => trivial⟩⟩)

/-- a cursor to a leaf that was never there -/
example := C05_dead_inert (B := ropeTrait) ropeSample_spec.1 (cur := ⟨30, 0⟩) (by
  intro e he
  rw [ropeSample_spec.2] at he
  obtain ⟨i, hi, h⟩ := List.mem_map.mp he
  cases h
  exact absurd (List.mem_range.mp hi) (by decide))

end GB
