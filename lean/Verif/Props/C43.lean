import Verif.Proof.EditHistory
import Verif.Props.C05
import Verif.Props.C42

/-!
# C43: leaf indices are stable under unrelated edits

`BOp` covers push, prepend, insert_by_path, remove_leaf, clear, update_leaf, drain, update,
update_leaves_with_arg_in_ranges, insert_many_by_cursor at a cursor and update_leaf_by_search; `BOp.valid` collects the
preconditions of the theorems about them.  `BOp.touches` names the leaves an operation may change or remove: the last (first)
leaf for a `push` (`prepend`) that merges, the leaf of the cursor or of the search result, for `update_leaf` also the next leaf
(into which the new elements may be merged), for `insert_many_by_cursor` both neighbours, and for a range the leaves from its
start to its end.

In `C43_step` and `C43_history` the fill bound `m` stays the same.  `drain` can leave single children on the left edge, so it occurs
there with `m.lo = 1` only, for traits that obey `LawE` (`RopeTrait`); `C43_drain` is a single `drain` for every trait.  `C43_filter` is
`update_cache_and_elem_with_filter`, after which a tree need not be valid (C42).  `insert_many_by_cursor(None, …)` is a `push` or
panics (C24).  `clear()` is the one operation that reuses indices (C05_clear_alias).
-/

namespace GB
variable {E C D X : Type}
open Tree

theorem getElem_entries {B : Trait E C D} {A : Law B} {m : Fill} {s : Tree E C} (hi : Inv A m s) {l : Nat} {e : E} :
    getElem s l = some e ↔ (l, e) ∈ (abs s).es := by
  obtain ⟨h, ⟨lvl, g⟩, sz⟩ := hi
  exact (entries_mem g.wf (l := l) (e := e)).symm

/-- One operation: no panic, the tree stays valid, and every leaf index the operation does not touch still denotes the
same element, whatever happened to the nodes above it. -/
theorem C43_step {B : Trait E C D} {A : Law B} {R : C → D → C → Prop} {cont : E → List X} (K : ContentLaw B A.okE cont) {m : Fill}
    (hm : 1 ≤ m.lo ∧ m.lo + m.d ≤ 5) (hE : 2 ≤ m.lo ∨ LawE A) (L : DiffLaw A R) {ho : HashOrd E}
    (hho : ∀ l, (ho.idx l).Perm l) (hcur : ∀ l, (ho.cur l).Perm l) (hgrp : ∀ l, (ho.grp l).Perm l) {s : Tree E C} (hi : Inv A m s)
    {o : BOp E C D} (hv : o.valid A R m s) (hc : o ≠ .basic .clear) :
    ∃ s', o.run B ho s = .ok s' ∧ Inv A m s' ∧ ∀ l e, ¬ o.touches B s (abs s) l → getElem s l = some e → getElem s' l = some e := by
  obtain ⟨s', h1, i1, h2⟩ := bstep K hm hE L hho hcur hgrp hi hv
  exact ⟨s', h1, i1, fun l e hl he => (getElem_entries i1).mpr ((h2 hc).keep l e hl ((getElem_entries hi).mp he))⟩

/-- Every history of valid operations other than `clear()`: it runs without panic; a leaf index that no step touches still
denotes the same element; an index that was given out but is dead stays dead; and the leaves that were there before and
remain are in the same order. -/
theorem C43_history {B : Trait E C D} {A : Law B} {R : C → D → C → Prop} {cont : E → List X} (K : ContentLaw B A.okE cont) {m : Fill}
    (hm : 1 ≤ m.lo ∧ m.lo + m.d ≤ 5) (hE : 2 ≤ m.lo ∨ LawE A) (L : DiffLaw A R) {ho : HashOrd E}
    (hho : ∀ l, (ho.idx l).Perm l) (hcur : ∀ l, (ho.cur l).Perm l) (hgrp : ∀ l, (ho.grp l).Perm l) {s : Tree E C} (hi : Inv A m s)
    {os : List (BOp E C D)} (hv : validB A R m ho s os) (hc : ∀ o ∈ os, o ≠ .basic .clear) :
    ∃ s', runB B ho s os = .ok s' ∧ Inv A m s' ∧
      (∀ l e, ¬ touchedB B ho abs s os l → getElem s l = some e → getElem s' l = some e) ∧
      (∀ l, l < (abs s).next → getElem s l = none → getElem s' l = none) ∧
      (((abs s').es.map Prod.fst).filter fun l => l < (abs s).next).Sublist ((abs s).es.map Prod.fst) := by
  obtain ⟨s', h1, i1, h2⟩ := brun K hm hE L hho hcur hgrp os hi hv
  have ed := h2 hc
  refine ⟨s', h1, i1, fun l e hl he => (getElem_entries i1).mpr (ed.keep l e hl ((getElem_entries hi).mp he)), ?_, ed.order⟩
  intro l hl hd
  cases he : getElem s' l with
  | none => rfl
  | some e =>
    exfalso
    have hm : l ∈ (abs s').es.map Prod.fst := List.mem_map.mpr ⟨(l, e), (getElem_entries i1).mp he, rfl⟩
    have hm' : l ∈ ((abs s').es.map Prod.fst).filter fun l => decide (l < (abs s).next) := List.mem_filter.mpr ⟨hm, by simpa using hl⟩
    obtain ⟨x, hx, hxl⟩ := List.mem_map.mp (ed.order.subset hm')
    have := (getElem_entries hi).mpr (show (l, x.2) ∈ (abs s).es by rw [← hxl]; exact hx)
    rw [hd] at this
    cases this

/-- A single `drain` in a tree of any trait: leaves before the start leaf and behind the end leaf keep their elements. -/
theorem C43_drain {B : Trait E C D} {A : Law B} {m : Fill} {h : Nat} (hm : 1 ≤ m.lo ∧ m.lo + m.d ≤ 5) (hsl : SplitLen B A.okE) {s : Tree E C} (hi : InvH A m h s) (hh : h ≤ 8)
    {a b : Cursor} (hr : InRange B (abs s) a b) (hend : ∀ i, posOf B (abs s) a = some i → i < unitLen B (abs s).es) (k : Nat) :
    ∃ out rest s', drain B s ⟨a, true⟩ ⟨b, true⟩ k = .ok (out, rest, s') ∧ Inv A m.drained s' ∧
      (∀ l e, Before (abs s) l a.leaf ∨ Before (abs s) b.leaf l → getElem s l = some e → getElem s' l = some e) ∧
      (((abs s').es.map Prod.fst).filter fun l => l < (abs s).next).Sublist ((abs s).es.map Prod.fst) := by
  obtain ⟨s', h1, h2, h3⟩ := bdrain (ho := ⟨id, id, id⟩) hm hsl ⟨h, hh, hi⟩ hr hend k
  obtain ⟨⟨out, rest, s2⟩, h4, h5⟩ := bind_inv h1
  cases h5
  refine ⟨out, rest, _, h4, h2, fun l e hl he => (getElem_entries h2).mpr (h3.keep l e ?_ ((getElem_entries hi.inv).mp he)), h3.order⟩
  rintro ⟨n1, n2⟩
  exact hl.elim n1 n2

/-- `update_cache_and_elem_with_filter` with any closures: the same leaf indices, live in the same order. -/
theorem C43_filter {B : Trait E C D} {A : Law B} {m : Fill} {σ : Type} {s : Tree E C} (hi : Inv A m s) (f : σ → C → σ × C × Bool) (g : σ → E → σ × E) (st : σ) :
    ∃ st' s', updateCacheAndElemWithFilter f g st s = .ok (st', s') ∧ (abs s').es.map Prod.fst = (abs s).es.map Prod.fst := by
  obtain ⟨h, hi⟩ := hi
  obtain ⟨t, s', -, -, k, -, k', -⟩ := C42_any hi f g st
  exact ⟨_, s', k, k'⟩

theorem ropeSample_low : ∃ h, h ≤ 8 ∧ InvH (ropeLaw 4) ⟨1, 4⟩ h ropeSample := by
  obtain ⟨h, h7, hi⟩ := C18_height ropeSample_spec.1 (by decide) (by rw [ropeSample_spec.2]; decide)
  exact ⟨h, h7, hi.ex, Sz.mono hi.sz (by decide) (by decide)⟩

theorem ropeSample_depth : ∀ d, depth ropeSample = .ok d → d ≤ 8 := by
  have h : ∃ d, depth ropeSample = .ok d ∧ d ≤ 8 := ⟨2, rfl, by decide⟩
  intro d hd
  obtain ⟨d', h1, h2⟩ := h
  rw [hd] at h1
  cases h1
  exact h2

theorem ropeSample_range : InRange ropeTrait (abs ropeSample) ⟨5, 1⟩ ⟨9, 2⟩ :=
  ⟨by rw [ropeSample_spec.2]; decide,
    (List.range 5).map fun i => (i, ⟨[UInt8.ofNat i, 1, 2, 0], 3, 1⟩), ⟨[5, 1, 2, 0], 3, 1⟩, (List.range 24).map fun i => (i + 6, ⟨[UInt8.ofNat (i + 6), 1, 2, 0], 3, 1⟩),
    (List.range 9).map fun i => (i, ⟨[UInt8.ofNat i, 1, 2, 0], 3, 1⟩), ⟨[9, 1, 2, 0], 3, 1⟩, (List.range 20).map fun i => (i + 10, ⟨[UInt8.ofNat (i + 10), 1, 2, 0], 3, 1⟩),
    by rw [ropeSample_spec.2]; rfl, by decide, by rw [ropeSample_spec.2]; rfl, by decide, by decide⟩

/-- Drain from the middle of chunk 5 to the middle of chunk 9, then remove the chunks 12 and 13: chunk 20 is untouched. -/
example : ∃ s' : Tree GapBuf Int, runB ropeTrait ⟨List.reverse, List.reverse, List.reverse⟩ ropeSample
      [.drain ⟨5, 1⟩ ⟨9, 2⟩ 1, .basic (.remove ⟨12, 0⟩), .basic (.remove ⟨13, 0⟩)] = .ok s' ∧ getElem s' 20 = some ⟨[20, 1, 2, 0], 3, 1⟩ := by
  have hi : Inv (ropeLaw 4) ⟨1, 4⟩ ropeSample := let ⟨h, _, hi⟩ := ropeSample_low; ⟨h, hi⟩
  obtain ⟨s', h1, -, h3, -⟩ := C43_history (ropeContent 4) (by decide) (.inr (ropeLawE 4)) (C21_rope_diffs 4)
    (ho := ⟨List.reverse, List.reverse, List.reverse⟩) List.reverse_perm List.reverse_perm List.reverse_perm hi
    (os := [.drain ⟨5, 1⟩ ⟨9, 2⟩ 1, .basic (.remove ⟨12, 0⟩), .basic (.remove ⟨13, 0⟩)])
    ⟨⟨rfl, ropeSample_depth, ropeSample_range, by
      intro i hp
      rw [ropeSample_spec.2] at hp ⊢
      have : some 16 = some i := hp
      cases this
      decide⟩, fun _ _ => ⟨trivial, fun _ _ => ⟨trivial, fun _ _ => trivial⟩⟩⟩ (by simp)
  refine ⟨s', h1, h3 20 _ ?_ ((getElem_entries hi).mpr (by rw [ropeSample_spec.2]; decide))⟩
  rintro (h | ⟨_, -, h | ⟨_, -, h | ⟨_, -, h⟩⟩⟩)
  · refine h.2 ⟨(List.range 20).map fun i => (i, ⟨[UInt8.ofNat i, 1, 2, 0], 3, 1⟩), ⟨[20, 1, 2, 0], 3, 1⟩,
      (List.range 9).map fun i => (i + 21, ⟨[UInt8.ofNat (i + 21), 1, 2, 0], 3, 1⟩), by rw [ropeSample_spec.2]; rfl, by decide⟩
  · exact absurd (show (20 : Nat) = 12 from h) (by decide)
  · exact absurd (show (20 : Nat) = 13 from h) (by decide)
  · exact h

example : ∃ out rest s', drain ropeTrait ropeSample ⟨⟨5, 1⟩, true⟩ ⟨⟨9, 2⟩, true⟩ 1 = .ok (out, rest, s') ∧ Inv (ropeLaw 4) ⟨1, 4⟩ s' := by
  obtain ⟨h, h7, hi⟩ := ropeSample_low
  obtain ⟨out, rest, s', h1, h2, -⟩ := C43_drain (by decide) (ropeContent 4).splitLen hi h7 ropeSample_range (by
    intro i hp
    rw [ropeSample_spec.2] at hp ⊢
    have : some 16 = some i := hp
    cases this
    decide) 1
  exact ⟨out, rest, s', h1, h2⟩

example := C43_filter ropeSample_spec.1 (fun (n : Nat) c => (n + 1, c, decide (0 < c))) (fun n e => (n, e)) 0

/-- The ordered map, which does not obey `LawE`: insert two entries before leaf 3, then remove leaf 7. -/
example : ∃ s', runB (ordTrait Nat Nat) ⟨id, id, id⟩ ordSample [.insertMany ⟨3, 0⟩ [(4, 4), (5, 5)], .basic (.remove ⟨7, 0⟩)] = .ok s' ∧ Inv (ordLaw Nat Nat) 5 s' := by
  obtain ⟨s', h1, h2, -⟩ := C43_history (m := 5) (ordContent Nat Nat) (by decide) (.inl (by decide)) (C21_ord_diffs Nat Nat) (ho := ⟨id, id, id⟩) (fun _ => .refl _)
    (fun _ => .refl _) (fun _ => .refl _) (let ⟨h, hi⟩ := ordSample_spec.1; ⟨h, hi.ex, Sz.mono hi.sz (by decide) (by decide)⟩)
    (os := [.insertMany ⟨3, 0⟩ [(4, 4), (5, 5)], .basic (.remove ⟨7, 0⟩)])
    ⟨⟨fun _ _ => trivial, (6, 3), by rw [ordSample_spec.2]; decide, by decide⟩, fun _ _ => ⟨trivial, fun _ _ => trivial⟩⟩ (by simp)
  exact ⟨s', h1, h2⟩

/-- The remaining range operations meet their preconditions on the sample. -/
example : (BOp.update wipe 0 ⟨5, 1⟩ ⟨9, 2⟩).valid (ropeLaw 4) (fun c d c' => c' = c + d) ⟨1, 4⟩ ropeSample :=
  ⟨ropeSample_depth, ropeSample_range, wipe_ok 4⟩

/-- a removal from the sample, of whatever leaf -/
example := C43_step (ropeContent 4) (m := 5) (by decide) (.inl (by decide)) (C21_rope_diffs 4) (ho := ⟨List.reverse, List.reverse, List.reverse⟩)
  List.reverse_perm List.reverse_perm List.reverse_perm ropeSample_spec.1 (o := .basic (.remove ⟨12, 0⟩)) trivial (by simp)

example := C43_step (ropeContent 4) (by decide) (.inr (ropeLawE 4)) (C21_rope_diffs 4) (ho := ⟨List.reverse, List.reverse, List.reverse⟩)
  List.reverse_perm List.reverse_perm List.reverse_perm (let ⟨h, _, hi⟩ := ropeSample_low; ⟨h, hi⟩) (o := .update wipe 0 ⟨5, 1⟩ ⟨9, 2⟩)
  ⟨ropeSample_depth, ropeSample_range, wipe_ok 4⟩ (by simp)

end GB
