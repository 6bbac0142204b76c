import Verif.Props.C47
import Verif.Props.C08

/-!
# C48: the ranges yielded by the range map's `iter` and `drain`

Expected: the yielded ranges are those of the map, i.e. a position has a value iff a yielded range with this value contains it.
This is false.  The closure in `iter` and `drain` leaves with `elem.value?` before it advances the index
(tests/range_num_map/mod.rs:53-59, 93-99), so a run without a value does not count, and all later ranges are too far left.
`C48_iter_false` and `C48_drain_false` are witnesses; `C48_iter` and `C48_drain` say exactly what is yielded; the expectation holds when
no gap comes before a value (`C48_iter_partial`), as in all tests that enumerate a map.
-/

namespace GB
open Tree

theorem ranges_tiles : ∀ {es : List RElem} {i : Nat}, (∀ e ∈ es, 0 < e.len) → Tiles i (RangeMap.ranges i es) := by
  intro es
  induction es with
  | nil => intro i _; trivial
  | cons e es ih =>
    intro i h
    unfold RangeMap.ranges
    split
    · exact ih fun e he => h e (List.mem_cons_of_mem _ he)
    · exact ⟨rfl, Nat.lt_add_of_pos_right (h e List.mem_cons_self), ih fun e he => h e (List.mem_cons_of_mem _ he)⟩

/-- `iter` yields the runs of the values with the gaps closed up, as ranges that follow each other without holes. -/
theorem C48_iter {m : Fill} {h : Nat} {s : RangeMap} (hm : 1 ≤ m.lo) (hi : InvH rangeLaw m h s) (hh : h ≤ 9) :
    ∃ out, RangeMap.iter s = .ok out ∧ RunsOf 0 (s.cells.filterMap id) out := by
  refine ⟨RangeMap.ranges 0 ((abs s).es.map Prod.snd), ?_, ranges_tiles fun e he => ?_, fun k v => ?_⟩
  · simp only [RangeMap.iter, C08_iter hm hi hh, bind_ok, pure_ok]
  · obtain ⟨x, hx, rfl⟩ := List.mem_map.mp he
    exact hi.inv.okE x hx
  · rw [RangeMap.ranges_spec, RangeMap.flatMap_cells]
    rfl

/-- When no gap comes before a value, the ranges are right: a range with value `v` contains `i` iff `get(i)` is `v`;
the ranges are disjoint, in order and not empty. -/
theorem C48_iter_partial {m : Fill} {h : Nat} {s : RangeMap} (hm : 1 ≤ m.lo) (hi : InvH rangeLaw m h s) (hh : h ≤ 9)
    (hgap : ∀ i j, i < j → RangeMap.get s i = .ok none → RangeMap.get s j = .ok none) :
    ∃ out, RangeMap.iter s = .ok out ∧ Tiles 0 out ∧ ∀ i v, (∃ x ∈ out, x.1.1 ≤ i ∧ i < x.1.2 ∧ x.2 = v) ↔ RangeMap.get s i = .ok (some v) := by
  obtain ⟨out, h1, h2⟩ := C48_iter hm hi hh
  refine ⟨out, h1, h2.tiles, fun i v => ?_⟩
  have h3 := h2.vals i v
  rw [Nat.zero_add] at h3
  rw [h3, RangeMap.get_spec hm hi.inv, RangeMap.filterMap_prefix]
  · constructor
    · intro h; rw [h]
    · exact fun h => Except.ok.inj h
  · intro i j hij hn
    have := hgap i j hij (by rw [RangeMap.get_spec hm hi.inv, hn])
    rw [RangeMap.get_spec hm hi.inv] at this
    exact Except.ok.inj this

/-- `insert(0..3, 1)`, then `insert(3..5, 2)`: positions 5 to 12 are a gap at the end -/
example : ∃ s out, rangeRun RangeMap.new [(⟨id, id, id⟩, .insert 0 3 1), (⟨id, id, id⟩, .insert 3 5 2)] = .ok s ∧ RangeMap.iter s = .ok out ∧
    (∃ x ∈ out, x.1.1 ≤ 4 ∧ 4 < x.1.2 ∧ x.2 = 2) ∧ ∃ x ∈ out, x.1.1 ≤ 1 ∧ 1 < x.1.2 ∧ x.2 = 1 := by
  obtain ⟨s, e1, i1, l1, g1⟩ := C47_history (os := [(⟨id, id, id⟩, .insert 0 3 1), (⟨id, id, id⟩, .insert 3 5 2)])
    (by intro x hx
        simp only [List.mem_cons, List.not_mem_nil, or_false] at hx
        rcases hx with rfl | rfl <;> exact ⟨fun l => List.Perm.refl _, by decide, by decide⟩) (by decide)
  have hl : RangeMap.len s = 13 := l1
  have hn : (abs s).es.length < 781250 := by
    have := RangeMap.entries_le i1
    rw [← RangeMap.len_spec (by decide) i1, hl] at this
    omega
  obtain ⟨h, h7, hi⟩ := C18_height i1 (by decide) hn
  obtain ⟨out, o1, -, o2⟩ := C48_iter_partial (by decide) hi (by omega) (by
    intro i j hij hi
    rw [g1] at hi ⊢
    have h5 : ∀ i, i < 5 → (cellsRun [] [(⟨id, id, id⟩, .insert 0 3 1), (⟨id, id, id⟩, .insert 3 5 2)])[i]?.join ≠ none := by decide
    have hge : 5 ≤ i := by
      apply Decidable.byContradiction
      exact fun hc => h5 i (by omega) (Except.ok.inj hi)
    by_cases hj : j < 13
    · have h13 : ∀ j, j < 13 → 5 ≤ j → (cellsRun [] [(⟨id, id, id⟩, .insert 0 3 1), (⟨id, id, id⟩, .insert 3 5 2)])[j]?.join = none := by decide
      rw [h13 j hj (by omega)]
    · rw [List.getElem?_eq_none (by rw [← l1, hl]; omega)]
      rfl)
  exact ⟨s, out, e1, o1, (o2 4 2).mpr (g1 4), (o2 1 1).mpr (g1 1)⟩

/-- `insert(5..6, 1)` on a new map, then `iter`: position 0 is reported to have the value 1 and position 5 to have none. -/
theorem C48_iter_false {ho : HashOrd RElem} (hho : ∀ l, (ho.idx l).Perm l) :
    ∃ s out, RangeMap.insert ho RangeMap.new 5 6 1 = .ok s ∧ RangeMap.iter s = .ok out ∧
      RangeMap.get s 0 = .ok none ∧ (∃ x ∈ out, x.1.1 ≤ 0 ∧ 0 < x.1.2 ∧ x.2 = 1) ∧
      RangeMap.get s 5 = .ok (some 1) ∧ ¬ ∃ x ∈ out, x.1.1 ≤ 5 ∧ 5 < x.1.2 ∧ x.2 = 1 := by
  obtain ⟨s, e1, i1, -, g1⟩ := C47_history (os := [(ho, .insert 5 6 1)]) (by simp [RangeOp.valid, hho]) (by simp)
  have e2 : RangeMap.insert ho RangeMap.new 5 6 1 = .ok s := by
    obtain ⟨s1, h1, h2⟩ := bind_inv (show (RangeMap.insert ho RangeMap.new 5 6 1 >>= fun s => rangeRun s []) = .ok s from e1)
    rw [h1]; exact h2
  have hc : s.cells = List.replicate 5 none ++ some 1 :: List.replicate 10 none := by
    obtain ⟨s', f1, -, f2, -⟩ := RangeOp.run_spec (m := 5) (s := RangeMap.new) (o := .insert 5 6 1) (by decide) ⟨1, new_inv rangeLaw 5⟩
      (.inl fun s' h1 h2 _ => C18_height h1 (by decide) (by rw [RangeMap.new, new_entries] at h2; simp at h2; omega)) hho ⟨by decide, by decide⟩
    have hs : s = s' := Except.ok.inj (e2.symm.trans f1)
    rw [hs, f2, RangeMap.cells, RangeMap.new, new_entries]
    rfl
  have hn : (abs s).es.length < 781250 := by
    have := RangeMap.entries_le i1
    rw [hc] at this
    simp at this
    omega
  obtain ⟨h, h7, hi⟩ := C18_height i1 (by decide) hn
  obtain ⟨out, o1, o2⟩ := C48_iter (by decide) hi (by omega)
  rw [hc] at o2
  refine ⟨s, out, e2, o1, g1 0, (o2.vals 0 1).mpr rfl, g1 5, fun hx => ?_⟩
  have := (o2.vals 5 1).mp hx
  simp [List.filterMap_replicate] at this

theorem rangeDrain_spec {m : Fill} {h : Nat} {s : RangeMap} (hm : 1 ≤ m.lo ∧ m.lo + m.d ≤ 5) (hi : InvH rangeLaw m h s) {start stop : Nat} (hle : start ≤ stop)
    (hstop : stop ≤ RangeMap.len s) (hend : start < RangeMap.len s)
    (hh : h ≤ 8 ∨ RangeMap.drain s start stop ≠ .error .panic) :
    ∃ out s' h', RangeMap.drain s start stop = .ok (out, s') ∧ InvH rangeLaw m.drained h' s' ∧ h' ≤ h + 1 ∧
      RunsOf start (((s.cells.drop start).take (stop - start)).filterMap id) out ∧ RangeMap.cells s' = s.cells.take start ++ s.cells.drop stop := by
  have hlen : RangeMap.len s = unitLen rangeTrait (abs s).es := by
    rw [RangeMap.len_spec hm.1 hi.inv]; exact content_length rangeContent hi.inv.okE
  obtain ⟨Y, s', h', d1, d2, d3, d4, d5, -, d6⟩ := C18_drain_by_query rangeContent rangeLenLaw hm hi hi.inv.okE hle
    (hlen ▸ hstop) (hlen ▸ hend) 0 (hh.imp id fun hh h => hh (by
      rw [RangeMap.drain_eq, show drainByQuery rangeTrait rangeQuery s start stop 0 = _ from h]; rfl))
  refine ⟨RangeMap.ranges start (Y.map Prod.snd), s', h', ?_, d2, d3, ⟨ranges_tiles fun e he => ?_, fun k v => ?_⟩, d5⟩
  · rw [RangeMap.drain_eq, show drainByQuery rangeTrait rangeQuery s start stop 0 = _ from d1]
    rfl
  · obtain ⟨x, hx, rfl⟩ := List.mem_map.mp he
    exact (d6 x hx).2
  · rw [RangeMap.ranges_spec, RangeMap.flatMap_cells, d4]
    rfl

/-- `drain(start..stop)`, run to the end: no panic; the positions are removed, and the runs of their values are yielded with the gaps
closed up. -/
theorem C48_drain {m : Fill} {h : Nat} {s : RangeMap} (hm : 1 ≤ m.lo ∧ m.lo + m.d ≤ 5) (hi : InvH rangeLaw m h s) {start stop : Nat} (hle : start ≤ stop)
    (hstop : stop ≤ RangeMap.len s) (hend : start < RangeMap.len s)
    (hh : h ≤ 8 ∨ RangeMap.drain s start stop ≠ .error .panic) :
    ∃ out s' h', RangeMap.drain s start stop = .ok (out, s') ∧ InvH rangeLaw m.drained h' s' ∧ h' ≤ h + 1 ∧
      RunsOf start (((s.cells.drop start).take (stop - start)).filterMap id) out ∧
      ∀ i, RangeMap.get s' i = RangeMap.get s (if i < start then i else i + (stop - start)) := by
  obtain ⟨out, s', h', d1, d2, d3, d4, d5⟩ := rangeDrain_spec hm hi hle hstop hend hh
  refine ⟨out, s', h', d1, d2, d3, d4, fun i => ?_⟩
  have hl := RangeMap.len_spec hm.1 hi.inv
  rw [RangeMap.get_spec (Nat.le_refl 1) d2.inv, RangeMap.get_spec hm.1 hi.inv, d5,
    List.getElem?_append, List.length_take, List.getElem?_take, List.getElem?_drop]
  by_cases h : i < start
  · rw [if_pos (by omega), if_pos h, if_pos h]
  · rw [if_neg (by omega), if_neg h]
    congr 3
    omega

/-- Draining `0..16` of the same map: the value at position 5 is reported for position 0. -/
theorem C48_drain_false {ho : HashOrd RElem} (hho : ∀ l, (ho.idx l).Perm l) :
    ∃ s out s', RangeMap.insert ho RangeMap.new 5 6 1 = .ok s ∧ RangeMap.get s 0 = .ok none ∧ RangeMap.get s 5 = .ok (some 1) ∧
      RangeMap.drain s 0 16 = .ok (out, s') ∧ (∃ x ∈ out, x.1.1 ≤ 0 ∧ 0 < x.1.2 ∧ x.2 = 1) ∧ ¬ ∃ x ∈ out, x.1.1 ≤ 5 ∧ 5 < x.1.2 ∧ x.2 = 1 := by
  obtain ⟨s, -, e1, -, g0, -, g5, -⟩ := C48_iter_false hho
  obtain ⟨s2, f1, i1, c1, n1⟩ := RangeOp.run_spec (m := 5) (s := RangeMap.new) (o := .insert 5 6 1) (by decide) ⟨1, new_inv rangeLaw 5⟩
    (.inl fun s' h1 h2 _ => C18_height h1 (by decide) (by rw [RangeMap.new, new_entries] at h2; simp at h2; omega)) hho ⟨by decide, by decide⟩
  have hs : s = s2 := Except.ok.inj (e1.symm.trans f1)
  subst hs
  have hc : s.cells = List.replicate 5 none ++ some 1 :: List.replicate 10 none := by
    rw [c1, RangeMap.cells, RangeMap.new, new_entries]; rfl
  have hl : RangeMap.len s = 16 := by rw [RangeMap.len_spec (by decide) i1, hc]; rfl
  obtain ⟨h, h7, hi⟩ := C18_height i1 (by decide) (by rw [RangeMap.new, new_entries] at n1; simp at n1; omega)
  obtain ⟨out, s', -, d1, -, -, d2, -⟩ := C48_drain (by decide) hi (start := 0) (stop := 16) (by decide) (by omega) (by omega) (.inl h7)
  rw [hc] at d2
  refine ⟨s, out, s', e1, g0, g5, d1, (d2.vals 0 1).mpr rfl, fun hx => ?_⟩
  have := (d2.vals 5 1).mp hx
  simp [List.filterMap_replicate] at this

/-- the map of `insert(0..3, 1)`, `insert(3..5, 2)` -/
private theorem rangeFive : ∃ s h, InvH rangeLaw 5 h s ∧ h ≤ 8 ∧ RangeMap.len s = 13 := by
  obtain ⟨s, -, i1, l1, -⟩ := C47_history (os := [(⟨id, id, id⟩, .insert 0 3 1), (⟨id, id, id⟩, .insert 3 5 2)])
    (by intro x hx
        simp only [List.mem_cons, List.not_mem_nil, or_false] at hx
        rcases hx with rfl | rfl <;> exact ⟨fun l => List.Perm.refl _, by decide, by decide⟩) (by decide)
  have hl : RangeMap.len s = 13 := l1
  have hn : (abs s).es.length < 781250 := by
    have := RangeMap.entries_le i1
    rw [← RangeMap.len_spec (by decide) i1, hl] at this
    omega
  obtain ⟨h, h7, hi⟩ := C18_height i1 (by decide) hn
  exact ⟨s, h, hi, by omega, hl⟩

example : ∃ s out s' out', RangeMap.iter s = .ok out ∧ RunsOf 0 (s.cells.filterMap id) out ∧ RangeMap.drain s 2 4 = .ok (out', s') ∧
    RangeMap.get s' 2 = RangeMap.get s 4 := by
  obtain ⟨s, h, hi, h8, hl⟩ := rangeFive
  obtain ⟨out, o1, o2⟩ := C48_iter (by decide) hi (by omega)
  obtain ⟨out', s', -, d1, -, -, -, d2⟩ := C48_drain (by decide) hi (start := 2) (stop := 4) (by decide) (by omega) (by omega) (.inl h8)
  exact ⟨s, out, s', out', o1, o2, d1, d2 2⟩

end GB
