import Verif.Proof.LazyIter
import Verif.Proof.SampleTwo
import Verif.Props.C16
import Verif.Props.C46
import Verif.Model.Iter

/-!
# C78: the iterators yield their items one at a time, and nothing after the end

`C08` and `C16` are about iterators that are run to their end.  Here the caller makes any number of calls of `next`: the answers are the
items in order, then `None` for ever.  Whatever can panic does so when the iterator is made.
-/

namespace GB
variable {E C D : Type}
open Tree

/-- `k` calls of `next` on `iter()`. -/
theorem C78_iter {B : Trait E C D} {A : Law B} {m : Fill} {h : Nat} {s : Tree E C} (hm : 1 ≤ m.lo) (hi : InvH A m h s) (hh : h ≤ 9) :
    ∃ it, elemIter s = .ok it ∧
      ∀ k, ∃ it', calls (elemNext s) k it = .ok ((List.range k).map (fun i => ((abs s).es.map Prod.snd)[i]?), it') := by
  obtain ⟨lvl, g⟩ := hi.ex
  obtain ⟨N, hN, -⟩ := g.wf.root
  exact elemIter_spec ⟨N, getIn_ok hN⟩ (C08_iter hm hi hh)

/-- `k` calls of `next` on `iter_range(start..end)` or `iter_range(start..=end)`, from the first of the leaves `M` (or the leaf of `end`) to
the leaf of `end`. -/
theorem C78_iter_range {B : Trait E C D} {A : Law B} {m : Fill} {h : Nat} {s : Tree E C} {start stop : Cursor} {incl : Bool} {e : E}
    {U M V : List (Nat × E)} (hm : 1 ≤ m.lo) (hi : InvH A m h s) (hh : h ≤ 9) (hc : (abs s).es = U ++ M ++ (stop.leaf, e) :: V)
    (hs : (M ++ [(stop.leaf, e)]).head?.map Prod.fst = some start.leaf) :
    rangeEnds B s (.included start) (if incl then .included stop else .excluded stop) = .ok (start, stop, incl) ∧
    ∃ it, rangeIter s start stop = .ok it ∧
      ∀ k, ∃ it', calls (rangeNext s start stop incl) k it = .ok ((List.range k).map (fun i =>
        ((M ++ if stop.offset = 0 ∧ incl = false then [] else [(stop.leaf, e)]).map (C16_slice start stop))[i]?), it') := by
  obtain ⟨lvl, g⟩ := hi.ex
  have h1 := C16_iter_range (B := B) (incl := incl) hm hi hh hc hs
  cases incl
  · exact ⟨rfl, rangeIter_spec h1⟩
  · exact ⟨rfl, rangeIter_spec h1⟩

/-- `iter_range(..)` for any bounds on any tree, even an invalid one: if the items up to the end are `ys`, then one by one they are too. -/
theorem C78_any_range {B : Trait E C D} {s : Tree E C} {a b : Bound} {ys : List (ElemSlice E)} (h : iterRange B s a b = .ok ys) :
    ∃ start stop incl it, rangeEnds B s a b = .ok (start, stop, incl) ∧ rangeIter s start stop = .ok it ∧
      ∀ k, ∃ it', calls (rangeNext s start stop incl) k it = .ok ((List.range k).map (fun i => ys[i]?), it') := by
  unfold iterRange at h
  obtain ⟨start, h1, h⟩ := bind_inv h
  obtain ⟨⟨incl, stop⟩, h2, h⟩ := bind_inv h
  obtain ⟨it, h3, h4⟩ := rangeIter_spec h
  refine ⟨start, stop, incl, it, ?_, h3, h4⟩
  unfold rangeEnds
  refine (congrArg (· >>= _) h1).trans ?_
  rw [bind_ok]
  refine (congrArg (· >>= _) h2).trans ?_
  rfl

/-- On a tree of ten levels or more making the iterator panics, even if it is not used. -/
theorem C78_too_high {B : Trait E C D} {A : Law B} {m : Fill} {h : Nat} {s : Tree E C} (hm : 1 ≤ m.lo) (hi : InvH A m h s) (hh : 10 ≤ h)
    (hne : (abs s).es ≠ []) :
    elemIter s = .error .panic ∧ ∀ x ∈ (abs s).es, ∀ o stop, rangeIter s ⟨x.1, o⟩ stop = .error .panic := by
  have ne := hi.ne hm
  have hn : order s ≠ [] := fun h => hne ((abs_nil hi).mpr h)
  obtain ⟨lvl, g⟩ := hi.ex
  refine ⟨?_, fun x hx o stop => ?_⟩
  · rw [elemIter, firstPath_full g.wf ne hh hn]
    rfl
  · have hx : x.1 ∈ order s := by rw [← entries_fst g.wf]; exact List.mem_map_of_mem hx
    rw [rangeIter, getPath_full g.wf hh ((mem_order g.wf).mp hx)]
    rfl

/-- A `Drain` that has answered `None` is unchanged, so it answers `None` again. -/
theorem C78_drain {d d' : Drain E C} (h : drainNext d = .ok (none, d')) : d' = d := by
  rw [drainNext] at h
  split at h
  · cases h; rfl
  · obtain ⟨last, -, h⟩ := bind_inv h
    obtain ⟨l, -, h⟩ := bind_inv h
    split at h
    · cases h; rfl
    · obtain ⟨⟨path, done⟩, -, h⟩ := bind_inv h
      obtain ⟨leaf, -, h⟩ := bind_inv h
      cases h

/-- the second chunk of thirty, and nothing at the 31st call -/
example : ∃ it it' rs, elemIter ropeSample = .ok it ∧ calls (elemNext ropeSample) 33 it = .ok (rs, it') ∧ rs[1]? = some (some (chunk 1)) ∧
    rs[30]? = some none ∧ rs[32]? = some none := by
  obtain ⟨it, h1, h2⟩ := C78_iter (by decide) ropeSample_two (by decide)
  obtain ⟨it', h3⟩ := h2 33
  refine ⟨it, it', _, h1, h3, ?_, ?_, ?_⟩ <;> rw [ropeSample_es] <;> rfl

/-- from the middle of chunk 3 up to the start of chunk 5, which is not included: two items, then `None` -/
example : ∃ it it' rs, rangeIter ropeSample ⟨3, 1⟩ ⟨5, 0⟩ = .ok it ∧ calls (rangeNext ropeSample ⟨3, 1⟩ ⟨5, 0⟩ false) 4 it = .ok (rs, it') ∧
    rs.map (Option.map fun x => (x.elem, x.start, x.stop)) = [some (chunk 3, some 1, none), some (chunk 4, none, none), none, none] := by
  obtain ⟨-, it, h1, h2⟩ := C78_iter_range (B := ropeTrait) (start := ⟨3, 1⟩) (stop := ⟨5, 0⟩) (incl := false) (U := chunks 0 3) (M := chunks 3 2) (by decide) ropeSample_two
    (by decide) (ropeSample_at (k := 5) (by decide)) rfl
  obtain ⟨it', h3⟩ := h2 4
  exact ⟨it, it', _, h1, h3, rfl⟩

example : ∃ start stop incl it, rangeEnds ropeTrait ropeSample .unbounded .unbounded = .ok (start, stop, incl) ∧ rangeIter ropeSample start stop = .ok it := by
  obtain ⟨R, h1, -⟩ := C16_iter_all (a := (0, chunk 0)) (z := (29, chunk 29)) (by decide) ropeSample_two (by decide) (ropeSample_at (k := 29) (by decide))
    (by rw [ropeSample_es]; rfl)
  obtain ⟨start, stop, incl, it, h2, h3, -⟩ := C78_any_range h1
  exact ⟨start, stop, incl, it, h2, h3⟩

/-- a rope of 20155392 chunks -/
example : ∃ s : Tree GapBuf Int, Inv (ropeLaw 4) 6 s ∧ elemIter s = .error .panic := by
  obtain ⟨s, h1, ⟨h, hi⟩, h2⟩ := C46_iter_panics
  have hh : 10 ≤ h := by
    apply Decidable.byContradiction
    intro hc
    have h3 := C08_iter (by decide) hi (by omega)
    rw [h2] at h3
    cases h3
  obtain ⟨s1, k1, -, k2, -⟩ := C46_push_iter (ropeLaw 4) (List.replicate 20155392 (⟨[1, 2, 3, 4], 4, 0⟩ : GapBuf)) (fun e he => by
    rw [(List.mem_replicate.mp he).2]; exact ⟨by simp [GapBuf.WF], rfl⟩)
  cases Except.ok.inj (h1.symm.trans k1)
  refine ⟨s, ⟨h, hi⟩, (C78_too_high (by decide) hi hh fun h0 => ?_).1⟩
  have := k2 (by rw [h0]; decide)
  rw [h2] at this
  cases this

/-- a drain of chunk 0 that is asked three times -/
example : ∃ d d1 d2 e, drainNew ropeTrait ropeSample (some ⟨⟨0, 0⟩, true⟩) (some ⟨⟨1, 0⟩, true⟩) = .ok d ∧ drainNext d = .ok (some e, d1) ∧
    drainNext d1 = .ok (none, d2) ∧ drainNext d2 = .ok (none, d2) := by
  obtain ⟨d, d1, d2, e, h1, h2, h3⟩ := show ∃ d d1 d2 e, drainNew ropeTrait ropeSample (some ⟨⟨0, 0⟩, true⟩) (some ⟨⟨1, 0⟩, true⟩) = .ok d ∧
    drainNext d = .ok (some e, d1) ∧ drainNext d1 = .ok (none, d2) from ⟨_, _, _, _, rfl, rfl, rfl⟩
  have := C78_drain h3
  exact ⟨d, d1, d2, e, h1, h2, h3, this ▸ h3⟩

end GB
