import Verif.Props.C48
import Verif.Proof.SpineHeight

/-!
# C64: the range map with drains is an array of optional numbers

C47 for histories that also drain.  A drain thins the left edge of the tree, so the bound on the number of positions is smaller: 390 626
runs fit into eight levels.
-/

namespace GB
open Tree

/-- the fill that drains keep -/
abbrev drainFill : Fill := ⟨1, 4⟩

theorem drainFill_height {s : RangeMap} (hi : Inv rangeLaw drainFill s) (hn : (abs s).es.length < 390626) : ∃ h, h ≤ 8 ∧ InvH rangeLaw drainFill h s :=
  hi.height (show 1 ≤ 1 by decide) (by decide) (show _ < fillRow drainFill 8 from Nat.lt_of_lt_of_le hn (by decide))

theorem RangeOp.apply_length_on {o : RangeOp} {t : List (Option Int)} (hv : o.validOn t) : (o.apply t).length = (cellsReserve t o.stop).length := by
  cases o with
  | insert a b v => exact RangeMap.cellsMap_length _ _ hv.1 (RangeMap.cellsReserve_le t b)
  | plus a b d => exact RangeMap.cellsMap_length _ _ hv (RangeMap.cellsReserve_le t b)

theorem stepsRun_spec : ∀ (os : List RangeStep) {s : RangeMap}, Inv rangeLaw drainFill s → stepsValid s.cells os →
    (s.cells.length ≤ 390010 ∧ (∀ o ∈ os, o.stop ≤ 390000)) ∨ stepsRun s os ≠ .error .panic →
    ∃ outs s', stepsRun s os = .ok (outs, s') ∧ Inv rangeLaw drainFill s' ∧ RangeMap.cells s' = stepsCells s.cells os ∧ StepsYield s.cells os outs ∧
      (s.cells.length ≤ 390010 ∧ (∀ o ∈ os, o.stop ≤ 390000) → (RangeMap.cells s').length ≤ 390010) := by
  intro os
  induction os with
  | nil => intro s hi _ _; exact ⟨[], s, rfl, hi, rfl, rfl, fun h => h.1⟩
  | cons o os ih =>
    intro s hi hv hb
    obtain ⟨hv1, hv2⟩ := hv
    cases o with
    | edit ho o =>
      have hb1 : (∀ s' : RangeMap, Inv rangeLaw drainFill s' → (abs s').es.length ≤ (abs s).es.length + 1 →
          s'.cells = cellsReserve s.cells o.stop → ∃ h, h ≤ 8 ∧ InvH rangeLaw drainFill h s') ∨ o.run ho s ≠ .error .panic := by
        rcases hb with hb | hb
        · refine .inl fun s' h1 _ h3 => drainFill_height h1 ?_
          have h4 := RangeMap.entries_le h1
          have h5 : o.stop ≤ 390000 := hb.2 _ List.mem_cons_self
          rw [h3, RangeMap.cellsReserve_length] at h4
          have := hb.1
          split at h4 <;> omega
        · exact .inr fun h => hb (by simp only [stepsRun, h]; rfl)
      obtain ⟨s1, e1, i1, c1, -⟩ := RangeOp.run_spec (show 1 ≤ 1 ∧ 1 + 4 ≤ 5 by decide) hi hb1 hv1.1 hv1.2
      have hlen : (s.cells.length ≤ 390010 ∧ (∀ o' ∈ RangeStep.edit ho o :: os, o'.stop ≤ 390000)) →
          s1.cells.length ≤ 390010 ∧ (∀ o ∈ os, o.stop ≤ 390000) := by
        intro hb
        refine ⟨?_, fun x hx => hb.2 x (List.mem_cons_of_mem _ hx)⟩
        have h5 : o.stop ≤ 390000 := hb.2 _ List.mem_cons_self
        rw [c1, RangeOp.apply_length_on hv1.2, RangeMap.cellsReserve_length]
        have := hb.1
        split <;> omega
      have hr : stepsRun s (.edit ho o :: os) = stepsRun s1 os := by simp only [stepsRun, e1, bind_ok]
      obtain ⟨outs, s2, e2, i2, c2, y2, l2⟩ := ih i1 (by rw [c1]; exact hv2) (hb.imp hlen fun hb => by rw [← hr]; exact hb)
      rw [c1] at c2 y2
      exact ⟨outs, s2, by rw [hr, e2], i2, c2, y2, fun h => l2 (hlen h)⟩
    | drain a b =>
      obtain ⟨h1, h2, h3⟩ := hv1
      have hl := RangeMap.len_spec (m := drainFill) (by decide) hi
      obtain ⟨h, hb1, hi1⟩ : ∃ h, (h ≤ 8 ∨ RangeMap.drain s a b ≠ .error .panic) ∧ InvH rangeLaw drainFill h s := by
        rcases hb with hb | hb
        · have := RangeMap.entries_le hi
          obtain ⟨h, h8, hi1⟩ := drainFill_height hi (by omega)
          exact ⟨h, .inl h8, hi1⟩
        · obtain ⟨h, hi1⟩ := hi
          exact ⟨h, .inr fun h => hb (by simp only [stepsRun, h]; rfl), hi1⟩
      obtain ⟨out, s1, h', e1, i1, -, y1, c1⟩ := rangeDrain_spec (m := drainFill) (by decide) hi1 h1 (by omega) (by omega) hb1
      have hlen : (s.cells.length ≤ 390010 ∧ (∀ o' ∈ RangeStep.drain a b :: os, o'.stop ≤ 390000)) →
          s1.cells.length ≤ 390010 ∧ (∀ o ∈ os, o.stop ≤ 390000) := by
        intro hb
        refine ⟨?_, fun x hx => hb.2 x (List.mem_cons_of_mem _ hx)⟩
        rw [c1, List.length_append, List.length_take, List.length_drop]
        have := hb.1
        omega
      have hr : stepsRun s (.drain a b :: os) = (do let (outs, s) ← stepsRun s1 os; pure (out :: outs, s)) := by simp only [stepsRun, e1, bind_ok]
      obtain ⟨outs, s2, e2, i2, c2, y2, l2⟩ := ih (s := s1) i1.inv (by rw [c1]; exact hv2) (hb.imp hlen fun hb h => hb (by rw [hr, h]; rfl))
      rw [c1] at c2 y2
      refine ⟨out :: outs, s2, by rw [hr, e2]; rfl, i2, c2, ⟨out, outs, rfl, y1, y2⟩, fun h => l2 (hlen h)⟩

/-- Every history of inserts, additions and drains on the first 390 000 positions, of any length, every hash order: no panic; the drains
yield the runs of what they remove; in the end the length, every lookup and `iter` are those of the array. -/
theorem C64_history {os : List RangeStep} (hv : stepsValid [] os) (hn : ∀ o ∈ os, o.stop ≤ 390000) :
    ∃ outs s out, stepsRun RangeMap.new os = .ok (outs, s) ∧ StepsYield [] os outs ∧ RangeMap.len s = (stepsCells [] os).length ∧
      (∀ i, RangeMap.get s i = .ok (stepsCells [] os)[i]?.join) ∧ RangeMap.iter s = .ok out ∧ RunsOf 0 ((stepsCells [] os).filterMap id) out := by
  have h0 : RangeMap.cells RangeMap.new = [] := by rw [RangeMap.cells, RangeMap.new, new_entries]; rfl
  obtain ⟨outs, s, e1, i1, c1, y1, l1⟩ := stepsRun_spec os (s := RangeMap.new) ⟨1, new_inv rangeLaw _⟩ (by rw [h0]; exact hv)
    (.inl ⟨by rw [h0]; exact Nat.zero_le _, hn⟩)
  have l1 := l1 ⟨by rw [h0]; exact Nat.zero_le _, hn⟩
  have := RangeMap.entries_le i1
  obtain ⟨h, h8, hi⟩ := drainFill_height i1 (by omega)
  obtain ⟨out, o1, o2⟩ := C48_iter (m := drainFill) (by decide) hi (by omega)
  rw [h0] at c1 y1
  rw [c1] at o2
  exact ⟨outs, s, out, e1, y1, by rw [RangeMap.len_spec (m := drainFill) (by decide) i1, c1],
    fun i => by rw [RangeMap.get_spec (m := drainFill) (by decide) i1, c1], o1, o2⟩

/-- Without a bound: the history panics or is right. -/
theorem C64_history_any {os : List RangeStep} (hv : stepsValid [] os) :
    stepsRun RangeMap.new os = .error .panic ∨
    ∃ outs s, stepsRun RangeMap.new os = .ok (outs, s) ∧ StepsYield [] os outs ∧ RangeMap.len s = (stepsCells [] os).length ∧
      ∀ i, RangeMap.get s i = .ok (stepsCells [] os)[i]?.join := by
  by_cases hn : stepsRun RangeMap.new os = .error .panic
  · exact .inl hn
  have h0 : RangeMap.cells RangeMap.new = [] := by rw [RangeMap.cells, RangeMap.new, new_entries]; rfl
  obtain ⟨outs, s, e1, i1, c1, y1, -⟩ := stepsRun_spec os (s := RangeMap.new) ⟨1, new_inv rangeLaw _⟩ (by rw [h0]; exact hv) (.inr hn)
  rw [h0] at c1 y1
  exact .inr ⟨outs, s, e1, y1, by rw [RangeMap.len_spec (m := drainFill) (by decide) i1, c1],
    fun i => by rw [RangeMap.get_spec (m := drainFill) (by decide) i1, c1]⟩

/-- `insert(0..10, 1)`, `insert(3..6, 2)`, `drain(2..5)`, `insert(0..0, 9)`, `plus(1..4, 5)` -/
def stepsSample : List RangeStep :=
  [.edit ⟨id, id, id⟩ (.insert 0 10 1), .edit ⟨List.reverse, id, id⟩ (.insert 3 6 2), .drain 2 5, .edit ⟨id, id, id⟩ (.insert 0 0 9),
    .edit ⟨id, id, id⟩ (.plus 1 4 5)]

example : ∃ outs s, stepsRun RangeMap.new stepsSample = .ok (outs, s) ∧ RangeMap.len s = 17 ∧ RangeMap.get s 1 = .ok (some 6) ∧
    RangeMap.get s 2 = .ok (some 7) ∧ RangeMap.get s 3 = .ok (some 6) ∧ RangeMap.get s 4 = .ok (some 1) ∧ RangeMap.get s 7 = .ok none := by
  obtain ⟨outs, s, -, h1, -, h2, h3, -⟩ := C64_history (os := stepsSample)
    ⟨⟨fun l => List.Perm.refl _, by decide, .inl (by decide)⟩, ⟨fun l => List.reverse_perm l, by decide, .inl (by decide)⟩, ⟨by decide, by decide, by decide⟩,
      ⟨fun l => List.Perm.refl _, by decide, .inr (by decide)⟩, ⟨fun l => List.Perm.refl _, show 1 ≤ 4 by decide⟩, trivial⟩ (by decide)
  exact ⟨outs, s, h1, h2, h3 1, h3 2, h3 3, h3 4, h3 7⟩

example := C64_history_any (os := stepsSample)
  ⟨⟨fun l => List.Perm.refl _, by decide, .inl (by decide)⟩, ⟨fun l => List.reverse_perm l, by decide, .inl (by decide)⟩, ⟨by decide, by decide, by decide⟩,
    ⟨fun l => List.Perm.refl _, by decide, .inr (by decide)⟩, ⟨fun l => List.Perm.refl _, show 1 ≤ 4 by decide⟩, trivial⟩

end GB
