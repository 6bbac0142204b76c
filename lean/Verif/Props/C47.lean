import Verif.Proof.RangeMap
import Verif.Proof.Sample

/-!
# C47: the range map is an array of optional numbers

`RangeNumMap` of the integration tests: a map from positions to numbers that stores runs as elements of the tree.
`insert` and `plus` go through `range` and `update`, so this is C01, C09, C21 and C44 put to work together.

With fewer than 781 249 runs there is no panic, because `update` needs no more than eight levels (C21).  An operation adds at
most three runs; and there are no more runs than positions.  Beyond that, every history panics or is right (`C47_history_any`).

`insert(0..0, v)` is covered unless the map is empty.  Then it stores an element of length zero (`C47_insert_nothing`), which
no position shows, but `is_empty` and `iter` do.
-/

namespace GB
open Tree

/-- `insert(start..stop, v)`: no panic, the map stays valid, the positions in the range get the value, all others keep theirs. -/
theorem C47_insert {s : RangeMap} (hi : Inv rangeLaw 5 s) {ho : HashOrd RElem} (hho : ∀ l, (ho.idx l).Perm l)
    {start stop : Nat} (hle : start ≤ stop) (h0 : 0 < stop ∨ RangeMap.len s ≠ 0) (v : Int)
    (hn : (abs s).es.length + 1 < 781250 ∨ RangeMap.insert ho s start stop v ≠ .error .panic) :
    ∃ s', RangeMap.insert ho s start stop v = .ok s' ∧ Inv rangeLaw 5 s' ∧ (abs s').es.length ≤ (abs s).es.length + 3 ∧
      ∀ i, RangeMap.get s' i = if start ≤ i ∧ i < stop then .ok (some v) else RangeMap.get s i := by
  obtain ⟨s', e1, i1, c1, n1⟩ := RangeOp.run_spec (o := .insert start stop v) (by decide) hi
    (hn.imp (fun hn s' h1 h2 _ => C18_height h1 (by decide) (by omega)) id) hho ⟨hle, h0.imp id fun h hc => h (by
      rw [RangeMap.len_spec (by decide) hi, hc]; rfl)⟩
  refine ⟨s', e1, i1, n1, fun i => ?_⟩
  have hstop := RangeMap.cellsReserve_le s.cells stop
  rw [RangeMap.get_spec (by decide) i1, RangeMap.get_spec (by decide) hi, c1, RangeOp.apply, RangeMap.cellsMap_getElem _ _ hle hstop]
  split
  · next h =>
    rw [List.getElem?_eq_getElem (by omega)]
    rfl
  · rw [RangeMap.cellsReserve_get]

/-- `plus(start..stop, d)`: no panic, the map stays valid, the numbers in the range grow by `d`, all else is unchanged. -/
theorem C47_plus {s : RangeMap} (hi : Inv rangeLaw 5 s) {ho : HashOrd RElem} (hho : ∀ l, (ho.idx l).Perm l)
    {start stop : Nat} (hle : start ≤ stop) (d : Int)
    (hn : (abs s).es.length + 1 < 781250 ∨ RangeMap.plus ho s start stop d ≠ .error .panic) :
    ∃ s', RangeMap.plus ho s start stop d = .ok s' ∧ Inv rangeLaw 5 s' ∧ (abs s').es.length ≤ (abs s).es.length + 3 ∧
      ∀ i, RangeMap.get s' i = if start ≤ i ∧ i < stop then (RangeMap.get s i).map (Option.map (· + d)) else RangeMap.get s i := by
  obtain ⟨s', e1, i1, c1, n1⟩ := RangeOp.run_spec (o := .plus start stop d) (by decide) hi
    (hn.imp (fun hn s' h1 h2 _ => C18_height h1 (by decide) (by omega)) id) hho hle
  refine ⟨s', e1, i1, n1, fun i => ?_⟩
  have hstop := RangeMap.cellsReserve_le s.cells stop
  rw [RangeMap.get_spec (by decide) i1, RangeMap.get_spec (by decide) hi, c1, RangeOp.apply, RangeMap.cellsMap_getElem _ _ hle hstop]
  split
  · rw [← RangeMap.cellsReserve_get s.cells stop i]
    cases (cellsReserve s.cells stop)[i]? <;> rfl
  · rw [RangeMap.cellsReserve_get]

/-- Every history of at most 260 000 operations on a new map, every range, every hash order: no panic; `len` and every lookup
are those of the array. -/
theorem C47_history {os : List (HashOrd RElem × RangeOp)} (hos : ∀ x ∈ os, (∀ l, (x.1.idx l).Perm l) ∧ x.2.valid) (hn : os.length ≤ 260000) :
    ∃ s, rangeRun RangeMap.new os = .ok s ∧ Inv rangeLaw 5 s ∧ RangeMap.len s = (cellsRun [] os).length ∧
      ∀ i, RangeMap.get s i = .ok (cellsRun [] os)[i]?.join := by
  have hnew : (abs RangeMap.new).es = [] := by rw [RangeMap.new, new_entries]
  obtain ⟨s, e1, i1, c1⟩ := rangeRun_spec (m := 5) (by decide) (B := fun s os => (abs s).es.length + 3 * os.length < 781249)
    (fun s s' o os _ _ h n _ => by simp only [List.length_cons] at h; omega)
    (fun s o os hb s' h1 h2 _ => C18_height h1 (by decide) (by simp only [List.length_cons] at hb; omega))
    os (s := RangeMap.new) ⟨1, new_inv rangeLaw 5⟩ hos (by rw [hnew]; simp only [List.length_nil]; omega)
  have h0 : RangeMap.cells RangeMap.new = [] := by rw [RangeMap.cells, hnew]; rfl
  rw [h0] at c1
  exact ⟨s, e1, i1, by rw [RangeMap.len_spec (by decide) i1, c1], fun i => by rw [RangeMap.get_spec (by decide) i1, c1]⟩

/-- The same for histories of any length on the first 781 000 positions. -/
theorem C47_history_small {os : List (HashOrd RElem × RangeOp)} (hos : ∀ x ∈ os, (∀ l, (x.1.idx l).Perm l) ∧ x.2.valid)
    (hn : ∀ x ∈ os, x.2.stop ≤ 781000) :
    ∃ s, rangeRun RangeMap.new os = .ok s ∧ Inv rangeLaw 5 s ∧ RangeMap.len s = (cellsRun [] os).length ∧
      ∀ i, RangeMap.get s i = .ok (cellsRun [] os)[i]?.join := by
  have hnew : (abs RangeMap.new).es = [] := by rw [RangeMap.new, new_entries]
  have h0 : RangeMap.cells RangeMap.new = [] := by rw [RangeMap.cells, hnew]; rfl
  obtain ⟨s, e1, i1, c1⟩ := rangeRun_spec (m := 5) (by decide) (B := fun s os => s.cells.length ≤ 781010 ∧ ∀ x ∈ os, x.2.stop ≤ 781000 ∧ x.2.valid)
    (fun s s' o os c _ h _ hl => by
      refine ⟨?_, fun x hx => h.2 x (by simp [hx])⟩
      have h1 := (h.2 o (by simp)).1
      rw [hl, RangeMap.cellsReserve_length]
      split <;> omega)
    (fun s o os hb s' h1 _ h3 => C18_height h1 (by decide) (by
      have h2 := (hb.2 o (by simp)).1
      have := RangeMap.entries_le h1
      rw [h3, RangeMap.cellsReserve_length] at this
      have := hb.1
      split at * <;> omega))
    os (s := RangeMap.new) ⟨1, new_inv rangeLaw 5⟩ hos ⟨by rw [h0]; simp, fun x hx => ⟨hn x hx, (hos x hx).2⟩⟩
  rw [h0] at c1
  exact ⟨s, e1, i1, by rw [RangeMap.len_spec (by decide) i1, c1], fun i => by rw [RangeMap.get_spec (by decide) i1, c1]⟩

/-- Every history of any length: it panics, or the map shows the array.  A wrong value is never found. -/
theorem C47_history_any {os : List (HashOrd RElem × RangeOp)} (hos : ∀ x ∈ os, (∀ l, (x.1.idx l).Perm l) ∧ x.2.valid) :
    rangeRun RangeMap.new os = .error .panic ∨
    ∃ s, rangeRun RangeMap.new os = .ok s ∧ Inv rangeLaw 5 s ∧ RangeMap.len s = (cellsRun [] os).length ∧
      ∀ i, RangeMap.get s i = .ok (cellsRun [] os)[i]?.join := by
  by_cases hn : rangeRun RangeMap.new os = .error .panic
  · exact .inl hn
  · obtain ⟨s, e1, i1, c1⟩ := rangeRun_any (m := 5) (by decide) os (s := RangeMap.new) ⟨1, new_inv rangeLaw 5⟩ hos hn
    have h0 : RangeMap.cells RangeMap.new = [] := by rw [RangeMap.cells, RangeMap.new, new_entries]; rfl
    rw [h0] at c1
    exact .inr ⟨s, e1, i1, by rw [RangeMap.len_spec (by decide) i1, c1], fun i => by rw [RangeMap.get_spec (by decide) i1, c1]⟩

/-- `insert(0..0, v)` on a new map: no position has a value and the length is 0, but the map is not empty and `iter` yields a range. -/
theorem C47_insert_nothing (ho : HashOrd RElem) (v : Int) :
    ∃ s, RangeMap.insert ho RangeMap.new 0 0 v = .ok s ∧ RangeMap.len s = 0 ∧ isEmpty s = .ok false ∧
      RangeMap.iter s = .ok [((0, 0), v)] ∧ (∀ i, RangeMap.get s i = .ok none) ∧ ¬ Inv rangeLaw 5 s := by
  refine ⟨_, rfl, rfl, rfl, rfl, fun i => by cases i <;> rfl, fun hi => ?_⟩
  have h1 := hi.okE (0, ⟨some v, 0⟩) (List.mem_singleton.mpr rfl)
  exact absurd h1 (Nat.lt_irrefl 0)

/-- the history of the examples: overlapping ranges, also far apart, with the dirty map visited backwards once -/
def rangeSample : List (HashOrd RElem × RangeOp) :=
  [(⟨id, id, id⟩, .insert 5 10 1), (⟨List.reverse, id, id⟩, .insert 8 30 2), (⟨id, id, id⟩, .plus 0 9 40), (⟨id, id, id⟩, .insert 1000000 1000001 7)]

theorem rangeSample_ok : ∀ x ∈ rangeSample, (∀ l, (x.1.idx l).Perm l) ∧ x.2.valid := by
  intro x hx
  simp only [rangeSample, List.mem_cons, List.not_mem_nil, or_false] at hx
  rcases hx with rfl | rfl | rfl | rfl
  · exact ⟨fun l => List.Perm.refl _, by decide, by decide⟩
  · exact ⟨fun l => List.reverse_perm l, by decide, by decide⟩
  · exact ⟨fun l => List.Perm.refl _, show 0 ≤ 9 by decide⟩
  · exact ⟨fun l => List.Perm.refl _, by decide, by decide⟩

example : ∃ s, rangeRun RangeMap.new rangeSample = .ok s ∧ RangeMap.len s = (cellsRun [] rangeSample).length := by
  obtain ⟨s, h1, -, h2, -⟩ := C47_history rangeSample_ok (by decide)
  exact ⟨s, h1, h2⟩

/-- its first three operations: 5..8 ↦ 41, 8 ↦ 42, 9 ↦ 2 -/
example : ∃ s, rangeRun RangeMap.new (rangeSample.take 3) = .ok s ∧ RangeMap.len s = 40 ∧ RangeMap.get s 4 = .ok none ∧ RangeMap.get s 7 = .ok (some 41) ∧
    RangeMap.get s 8 = .ok (some 42) ∧ RangeMap.get s 9 = .ok (some 2) := by
  obtain ⟨s, h1, -, h2, h3⟩ := C47_history (os := rangeSample.take 3) (fun x hx => rangeSample_ok x (List.mem_of_mem_take hx)) (by decide)
  exact ⟨s, h1, h2, h3 4, h3 7, h3 8, h3 9⟩

/-- one more insert on that map -/
example : ∃ s s' : RangeMap, RangeMap.insert ⟨id, id, id⟩ s 3 12 5 = .ok s' ∧ RangeMap.get s' 9 = .ok (some 5) ∧ RangeMap.get s' 2 = RangeMap.get s 2 := by
  obtain ⟨s', h1, -, -, h2⟩ := C47_insert (s := RangeMap.new) ⟨1, new_inv rangeLaw 5⟩ (ho := ⟨id, id, id⟩)
    (fun l => List.Perm.refl _) (start := 3) (stop := 12) (by decide) (.inl (by decide)) 5 (.inl (by rw [RangeMap.new, new_entries]; decide))
  exact ⟨_, s', h1, h2 9, h2 2⟩

example := C47_history_any rangeSample_ok

example := C47_history_small (os := rangeSample.take 3) (fun x hx => rangeSample_ok x (List.mem_of_mem_take hx)) (by decide)

/-- a further addition on the map of the first three operations -/
example : ∃ s s' : RangeMap, RangeMap.plus ⟨id, id, id⟩ s 7 9 100 = .ok s' ∧ RangeMap.get s' 7 = .ok (some 141) ∧ RangeMap.get s' 9 = .ok (some 2) := by
  obtain ⟨s, -, h1, h2, h3⟩ := C47_history (os := rangeSample.take 3) (fun x hx => rangeSample_ok x (List.mem_of_mem_take hx)) (by decide)
  have hl : RangeMap.len s = 40 := h2
  obtain ⟨s', p1, -, -, p2⟩ := C47_plus h1 (ho := ⟨id, id, id⟩) (fun l => List.Perm.refl _) (start := 7) (stop := 9) (by decide) 100 (.inl (by
    have := RangeMap.entries_le h1
    rw [← RangeMap.len_spec (by decide) h1, hl] at this
    omega))
  refine ⟨s, s', p1, ?_, ?_⟩
  · rw [p2, h3 7]; rfl
  · rw [p2, h3 9]; rfl

end GB
