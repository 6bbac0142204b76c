import Verif.Proof.RangesContent
import Verif.Proof.RangesEdge
import Verif.Proof.RangeLaw
import Verif.Proof.Sample
import Verif.Props.C21
import Verif.Props.C01
import Verif.Proof.SampleTwo

/-!
# C23: `update_leaves_with_arg_in_ranges`

Full statement: every given leaf is split at the boundaries of its ranges, `f` is applied with each argument to exactly the pieces inside its
range, and all other content is unchanged.

This is false for an empty range at the start or the end of an element (`C23_false_*`).  It holds for all other ranges (`Fits`; `C23_*_partial`), for
every closure that does not panic and keeps elements valid, any number of overlapping ranges, and any order in which the leaves, the new elements
and the dirty map are visited.  For ranges of all kinds `C23_exact` says what the code does instead: it panics if an element has an empty range at an
edge and no cut, and otherwise it takes such a range for the whole first or last piece of the element (`widen`).
-/

namespace GB
variable {E C D X σ Arg : Type}
open Tree

/-- Ranges inside the elements of live leaves, none of them empty at an edge: no panic; the tree stays valid; `f` is called as in `specRanges` (which gives the pieces of every
leaf); in the sequence of elements, every leaf without a range keeps its element, and every other leaf is replaced by its pieces put together; a
replaced leaf keeps its number and the other numbers are new; the leaves returned are live, one for every additional piece. -/
theorem C23_update_ranges_partial {B : Trait E C D} {A : Law B} {R : C → D → C → Prop} (L : DiffLaw A R) (hsub : SubLaw A R) {m : Fill} {s : Tree E C} (hm : 1 ≤ m.lo ∧ m.lo + m.d ≤ 6)
    (hi : Inv A m s) (hsl : SplitLen B A.okE) {ho : HashOrd E} (hho : ∀ l, (ho.idx l).Perm l) (hcur : ∀ l, (ho.cur l).Perm l) (hgrp : ∀ l, (ho.grp l).Perm l)
    {f : σ → E → Arg → M (σ × E)} (hf : ArgOK A f) (st : σ) {args : List (Nat × Nat × Nat × Arg)}
    (hargs : ∀ a ∈ args, ∃ e, (a.1, e) ∈ (abs s).es ∧ Fits a.2.1 a.2.2.1 (B.rleLen e)) :
    ∃ st' new s' out, ∃ blk : Nat → List (Nat × E), updateLeavesWithArg B ho f st s args = .ok (st', new, s') ∧ Inv A m s' ∧
      specRanges B f args (abs s).es (ho.grp (args.map fun a => a.1).eraseDups) st = .ok (st', out) ∧
      (abs s').es = (abs s).es.flatMap (fun x => blk x.1) ∧
      (∀ x ∈ (abs s).es, x.1 ∉ args.map (fun a => a.1) → blk x.1 = [x]) ∧
      (∀ x ∈ out, glueAll B x.2 = .ok ((blk x.1).map Prod.snd) ∧ x.1 ∈ (blk x.1).map Prod.fst ∧ ∀ k ∈ (blk x.1).map Prod.fst, k = x.1 ∨ (abs s).next ≤ k) ∧
      (∀ k ∈ new, k ∈ (abs s').es.map Prod.fst) ∧ new.length = (out.map fun x => x.2.length - 1).sum := by
  obtain ⟨h, ⟨lvl, g⟩, sz⟩ := hi
  obtain ⟨st', new, s', lvl', h', out, blk, u1, u2, u3, u4, u5, u6, u7, u8, u9, u10, u11, u12⟩ := updateLeavesWithArg_spec hm.1 hm.2 L hsub hho hcur hgrp hf st g sz hsl hargs
  refine ⟨st', new, s', out, blk, u1, ⟨h', ⟨lvl', u2⟩, u3⟩, u4, u7, u8, u9, ?_, u12⟩
  intro k hk
  obtain ⟨x, hx, hkx⟩ := u11 k hk
  have hxl : x.1 ∈ (abs s).es.map Prod.fst := by
    have h1 : x.1 ∈ ho.grp (args.map fun a => a.1).eraseDups := by rw [← u5]; exact List.mem_map.mpr ⟨x, hx, rfl⟩
    rw [(hgrp _).mem_iff, List.mem_eraseDups] at h1
    obtain ⟨a, ha, hax⟩ := List.mem_map.mp h1
    obtain ⟨e, he, -⟩ := hargs a ha
    rw [← hax]
    exact List.mem_map.mpr ⟨_, he, rfl⟩
  obtain ⟨y, hy, hyx⟩ := List.mem_map.mp hxl
  obtain ⟨z, hz, hzk⟩ := List.mem_map.mp hkx
  refine List.mem_map.mpr ⟨z, ?_, hzk⟩
  show z ∈ entries s'
  rw [u7, List.mem_flatMap]
  exact ⟨y, hy, by rw [hyx]; exact hz⟩

/-- The same in units, for closures that act unit by unit as `φ`: the unit at position `i` of leaf `l` is changed by exactly the ranges of `l` that contain
`i`, in the order of the arguments (`specUnit`); no unit is lost, added or moved. -/
theorem C23_update_units_partial {B : Trait E C D} {A : Law B} {R : C → D → C → Prop} (L : DiffLaw A R) (hsub : SubLaw A R) {cont : E → List X} (K : ContentLaw B A.okE cont)
    {m : Fill} {s : Tree E C} (hm : 1 ≤ m.lo ∧ m.lo + m.d ≤ 6) (hi : Inv A m s) {ho : HashOrd E} (hho : ∀ l, (ho.idx l).Perm l) (hcur : ∀ l, (ho.cur l).Perm l)
    (hgrp : ∀ l, (ho.grp l).Perm l) {f : σ → E → Arg → M (σ × E)} (hf : ArgOK A f) {φ : Arg → X → X} (hu : Unitwise A cont f φ) (st : σ)
    {args : List (Nat × Nat × Nat × Arg)} (hargs : ∀ a ∈ args, ∃ e, (a.1, e) ∈ (abs s).es ∧ Fits a.2.1 a.2.2.1 (B.rleLen e)) :
    ∃ st' new s', updateLeavesWithArg B ho f st s args = .ok (st', new, s') ∧ Inv A m s' ∧
      content cont (abs s').es = (abs s).es.flatMap (fun x => (cont x.2).mapIdx (specUnit φ (rangesOf args x.1))) := by
  obtain ⟨h, ⟨lvl, g⟩, sz⟩ := hi
  obtain ⟨st', new, s', lvl', h', out, blk, u1, u2, u3, u4, u5, u6, u7, u8, u9, u10, u11, u12⟩ := updateLeavesWithArg_spec hm.1 hm.2 L hsub hho hcur hgrp hf st g sz K.splitLen hargs
  refine ⟨st', new, s', u1, ⟨h', ⟨lvl', u2⟩, u3⟩, ?_⟩
  show (entries s').flatMap _ = (entries s).flatMap _
  rw [u7, List.flatMap_assoc]
  have key : ∀ x ∈ entries s, (blk x.1).flatMap (fun y => cont y.2) = (cont x.2).mapIdx (specUnit φ (rangesOf args x.1)) := by
    intro x hx
    have hel := (entries_mem g.wf).mp hx
    by_cases hxa : x.1 ∈ args.map (fun a => a.1)
    · have hxo : x.1 ∈ out.map Prod.fst := by rw [u5, (hgrp _).mem_iff, List.mem_eraseDups]; exact hxa
      obtain ⟨y, hy, hyx⟩ := List.mem_map.mp hxo
      obtain ⟨y1, P⟩ := y
      have hyx : y1 = x.1 := hyx
      subst hyx
      obtain ⟨st1, st2, U, e, V, k1, k2⟩ := specRanges_mem _ _ _ _ u4 _ hy
      have hxe : e = x.2 := by
        have h1 : elm s x.1 = some e := (entries_mem g.wf).mp (by rw [locate_some k1]; simp)
        rw [h1] at hel
        simpa using hel
      subst hxe
      have hok := g.okE _ _ hel
      have hg : GroupOK (B.rleLen x.2) ((args.filter fun a => a.1 = x.1).map Prod.snd) := by
        intro z hz
        obtain ⟨b, hb, rfl⟩ := List.mem_map.mp hz
        rw [List.mem_filter] at hb
        obtain ⟨e', he', h1⟩ := hargs b hb.1
        have hba : b.1 = x.1 := by simpa using hb.2
        rw [hba] at he'
        have hee : e' = x.2 := by
          have h3 : elm s x.1 = some e' := (entries_mem g.wf).mp he'
          rw [hel] at h3
          simpa using h3.symm
        rw [hee] at h1
        exact h1
      have h1 := specPieces_units K hf hu hg _ st1 0 x.2 st2 P hok (by omega)
        (List.pairwise_cons.mpr ⟨fun y hy => (mem_cutPoints.mp hy).1, cutPoints_sorted _ _⟩) (fun y hy => (mem_cutPoints.mp hy).2.1) (by
          intro z hz y hy
          by_cases h0 : y ≤ 0
          · exact .inl h0
          · by_cases hl : B.rleLen x.2 ≤ y
            · exact .inr (.inr hl)
            · exact .inr (.inl (mem_cutPoints.mpr ⟨by omega, by omega, z, hz, hy⟩))) k2
      obtain ⟨h2, -⟩ := u9 _ hy
      obtain ⟨h3, h4⟩ := u6 _ hy
      have h5 : (blk x.1).flatMap (fun y => cont y.2) = P.flatMap cont := by
        rw [← List.flatMap_map (f := Prod.snd) (g := cont)]
        cases P with
        | nil => exact absurd rfl h3
        | cons p ps => exact glue_content K ps p _ (h4 p (by simp)) (fun z hz => h4 z (by simp [hz])) h2
      rw [h5, h1]
      simp only [Nat.zero_add]
      rfl
    · rw [u8 x hx hxa]
      have h0 : rangesOf args x.1 = [] := by
        rw [rangesOf, List.map_eq_nil_iff, List.filter_eq_nil_iff]
        intro a ha
        simp only [decide_eq_true_eq]
        intro hc
        exact hxa (List.mem_map.mpr ⟨a, ha, hc⟩)
      rw [h0]
      apply List.ext_getElem
      · simp
      · intro i h1 h2
        simp [specUnit]
  have : ∀ w : List (Nat × E), (∀ x ∈ w, x ∈ entries s) →
      w.flatMap (fun x => (blk x.1).flatMap (fun y => cont y.2)) = w.flatMap (fun x => (cont x.2).mapIdx (specUnit φ (rangesOf args x.1))) := by
    intro w
    induction w with
    | nil => intro _; rfl
    | cons x w ih => intro hw; rw [List.flatMap_cons, List.flatMap_cons, key x (hw x (by simp)), ih (fun y hy => hw y (by simp [hy]))]
  exact this _ (fun _ h => h)

/-- Ranges of all kinds, also empty ones at the edges.  The call panics exactly if some leaf is `Stuck`.  Otherwise it does the same as for the widened ranges,
and for them it keeps the promise of `C23_update_units_partial`. -/
theorem C23_exact {B : Trait E C D} {A : Law B} {R : C → D → C → Prop} (L : DiffLaw A R) (hsub : SubLaw A R) {cont : E → List X} (K : ContentLaw B A.okE cont)
    {m : Fill} {s : Tree E C} (hm : 1 ≤ m.lo ∧ m.lo + m.d ≤ 6) (hi : Inv A m s) {ho : HashOrd E} (hho : ∀ l, (ho.idx l).Perm l) (hcur : ∀ l, (ho.cur l).Perm l)
    (hgrp : ∀ l, (ho.grp l).Perm l) {f : σ → E → Arg → M (σ × E)} (hf : ArgOK A f) {φ : Arg → X → X} (hu : Unitwise A cont f φ) (st : σ)
    {args : List (Nat × Nat × Nat × Arg)} (hargs : ∀ a ∈ args, ∃ e, (a.1, e) ∈ (abs s).es ∧ a.2.1 ≤ a.2.2.1 ∧ a.2.2.1 ≤ B.rleLen e) :
    ((∃ x ∈ (abs s).es, Stuck (B.rleLen x.2) (rangesOf args x.1)) ↔ updateLeavesWithArg B ho f st s args = .error .panic) ∧
    ((∀ x ∈ (abs s).es, ¬ Stuck (B.rleLen x.2) (rangesOf args x.1)) →
      updateLeavesWithArg B ho f st s args = updateLeavesWithArg B ho f st s (widen B (abs s).es args) ∧
      ∃ st' new s', updateLeavesWithArg B ho f st s args = .ok (st', new, s') ∧ Inv A m s' ∧
        content cont (abs s').es = (abs s).es.flatMap (fun x => (cont x.2).mapIdx (specUnit φ (rangesOf (widen B (abs s).es args) x.1)))) := by
  obtain ⟨h, ⟨lvl, g⟩, sz⟩ := id hi
  have hgp := hgrp (args.map fun a => a.1).eraseDups
  have hgnd : (ho.grp (args.map fun a => a.1).eraseDups).Nodup := hgp.nodup_iff.mpr (nodup_eraseDups' _)
  have hgm : ∀ l, l ∈ ho.grp (args.map fun a => a.1).eraseDups ↔ l ∈ args.map (fun a => a.1) := fun l => by rw [hgp.mem_iff, List.mem_eraseDups]
  have huniq : ∀ l e e', (l, e) ∈ entries s → (l, e') ∈ entries s → e' = e := by
    intro l e e' h1 h2
    have h3 := (entries_mem g.wf).mp h1
    rw [(entries_mem g.wf).mp h2] at h3
    simpa using h3
  have hgin : ∀ l e, (l, e) ∈ entries s → GroupIn (B.rleLen e) (rangesOf args l) := by
    intro l e he y hy
    obtain ⟨b, hb, rfl⟩ := List.mem_map.mp hy
    rw [List.mem_filter] at hb
    obtain ⟨e', he', h1, h2⟩ := hargs b hb.1
    have hbl : b.1 = l := by simpa using hb.2
    rw [hbl] at he'
    rw [huniq l e e' he he'] at h2
    exact ⟨h1, h2⟩
  have hlive : ∀ l ∈ ho.grp (args.map fun a => a.1).eraseDups, ∃ e, (l, e) ∈ entries s := by
    intro l hl
    obtain ⟨a, ha, rfl⟩ := List.mem_map.mp ((hgm l).mp hl)
    obtain ⟨e, he, -⟩ := hargs a ha
    exact ⟨e, he⟩
  have hok : (∀ x ∈ (abs s).es, ¬ Stuck (B.rleLen x.2) (rangesOf args x.1)) →
      updateLeavesWithArg B ho f st s args = updateLeavesWithArg B ho f st s (widen B (abs s).es args) ∧
      ∃ st' new s', updateLeavesWithArg B ho f st s args = .ok (st', new, s') ∧ Inv A m s' ∧
        content cont (abs s').es = (abs s).es.flatMap (fun x => (cont x.2).mapIdx (specUnit φ (rangesOf (widen B (abs s).es args) x.1))) := by
    intro hns
    have heq : updateLeavesWithArg B ho f st s args = updateLeavesWithArg B ho f st s (widen B (abs s).es args) := by
      unfold updateLeavesWithArg
      rw [widen_leaves]
      simp only
      rw [updGroups_congr (args' := widen B (abs s).es args) _ _ _ _ _ hgnd (fun l hl => by
        obtain ⟨e, he⟩ := hlive l hl
        refine ⟨e, (entries_mem g.wf).mp he, fun st => ?_⟩
        obtain ⟨U, V, huv⟩ := List.append_of_mem he
        rw [rangesOf_widen (es := (abs s).es) ((locate_entries g.wf).mpr huv)]
        exact updOneLeaf_widen (hgin l e he) (hns _ he) st)]
    refine ⟨heq, ?_⟩
    rw [heq]
    refine C23_update_units_partial L hsub K hm hi hho hcur hgrp hf hu st (fun a ha => ?_)
    have hal : a.1 ∈ args.map (fun a => a.1) := by rw [← widen_leaves (B := B) (abs s).es args]; exact List.mem_map.mpr ⟨a, ha, rfl⟩
    obtain ⟨b, hb, hba⟩ := List.mem_map.mp hal
    obtain ⟨e, he, -⟩ := hargs b hb
    rw [hba] at he
    refine ⟨e, he, ?_⟩
    obtain ⟨U, V, huv⟩ := List.append_of_mem (show (a.1, e) ∈ entries s from he)
    have hmem : a.2 ∈ rangesOf (widen B (abs s).es args) a.1 := List.mem_map.mpr ⟨a, List.mem_filter.mpr ⟨ha, by simp⟩, rfl⟩
    rw [rangesOf_widen (es := (abs s).es) ((locate_entries g.wf).mpr huv)] at hmem
    exact widen_ok (hgin a.1 e he) (hns _ he) _ hmem
  refine ⟨⟨?_, ?_⟩, hok⟩
  · rintro ⟨⟨l, e⟩, hx, hs⟩
    obtain ⟨-, y, hy, -⟩ := id hs
    obtain ⟨b, hb, -⟩ := List.mem_map.mp hy
    rw [List.mem_filter] at hb
    have hbl : b.1 = l := by simpa using hb.2
    have hl : l ∈ ho.grp (args.map fun a => a.1).eraseDups := (hgm l).mpr (List.mem_map.mpr ⟨b, hb.1, hbl⟩)
    unfold updateLeavesWithArg
    simp only
    rw [updGroups_stuck hf K.splitLen _ _ _ _ _ hgnd (fun k hk => by
      obtain ⟨e', he'⟩ := hlive k hk
      have h1 := (entries_mem g.wf).mp he'
      exact ⟨e', h1, g.okE _ _ h1, hgin k e' he'⟩) ⟨l, hl, e, (entries_mem g.wf).mp hx, hs⟩]
    rfl
  · intro hp
    apply Classical.byContradiction
    intro hn
    obtain ⟨-, st', new, s', h1, -⟩ := hok (fun x hx hs => hn ⟨x, hx, hs⟩)
    rw [hp] at h1
    cases h1

/-- Differences of lengths are diffs of the rope. -/
theorem C23_rope_sub (cap : Nat) : SubLaw (ropeLaw cap) (fun c d c' => c' = c + d) := by
  intro e e' _ _
  show (e'.len : Int) = e.len + ((e'.len : Int) - e.len)
  omega

/-- Differences of lengths are diffs of the range map. -/
theorem C23_range_sub : SubLaw rangeLaw (fun c d c' => (c' : Int) = c + d) := by
  intro e e' _ _
  show (e'.len : Int) = e.len + ((e'.len : Int) - e.len)
  omega

/-- A closure for the rope that adds its argument to every byte and counts its calls. -/
def addBytes (n : Nat) (g : GapBuf) (k : UInt8) : M (Nat × GapBuf) := .ok (n + 1, { g with buffer := g.buffer.map (· + k) })

theorem addBytes_ok (cap : Nat) : ArgOK (ropeLaw cap) addBytes := by
  intro st e a he
  have he : e.WF ∧ e.capacity = cap := he
  refine ⟨_, _, rfl, ?_⟩
  show _ ∧ _
  simpa [GapBuf.WF, GapBuf.capacity] using he

theorem addBytes_units (cap : Nat) : Unitwise (ropeLaw cap) GapBuf.toVec addBytes (fun k u => u + k) := by
  intro st e a st' e' _ h
  cases h
  simp [GapBuf.toVec, GapBuf.asBytes, List.map_take, List.map_drop]

/-- Three overlapping ranges in chunk 5 and one in chunk 20 of the sample rope, hash orders reversed. -/
example : ∃ (st' : Nat) (new : List Nat) (s' : Tree GapBuf Int),
    updateLeavesWithArg ropeTrait ⟨List.reverse, List.reverse, List.reverse⟩ addBytes 0 ropeSample [(5, 0, 2, 10), (20, 1, 2, 7), (5, 1, 3, 40), (5, 0, 3, 100)] = .ok (st', new, s') ∧
    Inv (ropeLaw 4) 5 s' := by
  obtain ⟨st', new, s', h1, h2, -⟩ := C23_update_units_partial (C21_rope_diffs 4) (C23_rope_sub 4) (ropeContent 4) (by decide) ropeSample_spec.1
    (ho := ⟨List.reverse, List.reverse, List.reverse⟩) List.reverse_perm List.reverse_perm List.reverse_perm (addBytes_ok 4) (addBytes_units 4) 0
    (args := [(5, 0, 2, 10), (20, 1, 2, 7), (5, 1, 3, 40), (5, 0, 3, 100)]) (by
      rw [ropeSample_spec.2]
      intro a ha
      simp only [List.mem_cons, List.not_mem_nil, or_false] at ha
      rcases ha with rfl | rfl | rfl | rfl
      · exact ⟨⟨[5, 1, 2, 0], 3, 1⟩, by decide, by decide⟩
      · exact ⟨⟨[20, 1, 2, 0], 3, 1⟩, by decide, by decide⟩
      · exact ⟨⟨[5, 1, 2, 0], 3, 1⟩, by decide, by decide⟩
      · exact ⟨⟨[5, 1, 2, 0], 3, 1⟩, by decide, by decide⟩)
  exact ⟨st', new, s', h1, h2⟩

/-- What the specification says for chunk 5: position 0 gets 10 and 100, position 1 all three, position 2 gets 40 and 100. -/
example : ([5, 1, 2] : List UInt8).mapIdx (specUnit (fun k u => u + k) (rangesOf [(5, 0, 2, 10), (20, 1, 2, 7), (5, 1, 3, 40), (5, 0, 3, 100)] 5)) = [115, 151, 142] := rfl

/-- An empty range inside chunk 5 only cuts it; an empty range at its end is taken for its last piece. -/
example : ∃ (st' : Nat) (new : List Nat) (s' : Tree GapBuf Int),
    updateLeavesWithArg ropeTrait ⟨List.reverse, List.reverse, List.reverse⟩ addBytes 0 ropeSample [(5, 2, 2, 10), (5, 3, 3, 40)] = .ok (st', new, s') ∧
    Inv (ropeLaw 4) 5 s' := by
  obtain ⟨-, st', new, s', h1, h2, -⟩ := (C23_exact (C21_rope_diffs 4) (C23_rope_sub 4) (ropeContent 4) (by decide) ropeSample_spec.1
    (ho := ⟨List.reverse, List.reverse, List.reverse⟩) List.reverse_perm List.reverse_perm List.reverse_perm (addBytes_ok 4) (addBytes_units 4) 0
    (args := [(5, 2, 2, 10), (5, 3, 3, 40)]) (by
      rw [ropeSample_spec.2]
      intro a ha
      simp only [List.mem_cons, List.not_mem_nil, or_false] at ha
      rcases ha with rfl | rfl
      · exact ⟨⟨[5, 1, 2, 0], 3, 1⟩, by decide, by decide⟩
      · exact ⟨⟨[5, 1, 2, 0], 3, 1⟩, by decide, by decide⟩)).2 (by
      rw [ropeSample_spec.2]
      intro x hx
      obtain ⟨i, -, rfl⟩ := List.mem_map.mp hx
      rintro ⟨h1, y, h2, -⟩
      by_cases hi : i = 5
      · subst hi; exact absurd h1 (by decide)
      · simp [rangesOf, show ¬ 5 = i by omega] at h2)
  exact ⟨st', new, s', h1, h2⟩
example : widen ropeTrait [(5, ⟨[5, 1, 2, 0], 3, 1⟩)] [(5, 2, 2, (10 : UInt8)), (5, 3, 3, 40)] = [(5, 2, 2, 10), (5, 2, 3, 40)] := rfl

/-- The range map: overwriting with a value. -/
example : Unitwise rangeLaw RElem.cells (fun (st : Unit) (e : RElem) (v : Int) => .ok (st, ⟨some v, e.len⟩)) (fun v _ => some v) := by
  intro st e a st' e' _ h
  cases h
  simp [RElem.cells]

/-- Witness: leaf 0 holds the bytes 1 2 3; the empty range `0..0` with argument 100 and the range `1..2` with argument 10.  The byte at position 0 is in no
range, but it is changed; the argument of the empty range is applied to the piece `0..1`. -/
theorem C23_false_empty_range : ∃ s : Tree GapBuf Int, Inv (ropeLaw 4) 5 s ∧ (abs s).es = [(0, ⟨[1, 2, 3, 0], 3, 1⟩)] ∧
    ∃ st' new s', updateLeavesWithArg ropeTrait ⟨id, id, id⟩ addBytes 0 s [(0, 0, 0, 100), (0, 1, 2, 10)] = .ok (st', new, s') ∧
      content GapBuf.toVec (abs s').es = [101, 12, 3] ∧
      (abs s).es.flatMap (fun x => (GapBuf.toVec x.2).mapIdx (specUnit (fun k u => u + k) (rangesOf [(0, 0, 0, 100), (0, 1, 2, 10)] x.1))) = [1, 12, 3] := by
  obtain ⟨c, s, h1, h2, h3⟩ := C01_push (B := ropeTrait) (A := ropeLaw 4) (m := 5) (s := newTree ropeTrait) (e := ⟨[1, 2, 3, 0], 3, 1⟩) (by decide) ⟨1, new_inv _ _⟩
    ⟨by simp [GapBuf.WF], rfl⟩
  cases h1
  exact ⟨_, h2, rfl, _, _, _, rfl, rfl, rfl⟩

/-- Witness: an empty range at the start (or the end) of a leaf, alone, panics (`assert_eq!` in src/lib.rs:1427-1428). -/
theorem C23_false_empty_range_panics : ∃ s : Tree GapBuf Int, Inv (ropeLaw 4) 5 s ∧ (abs s).es = [(0, ⟨[1, 2, 3, 0], 3, 1⟩)] ∧
    updateLeavesWithArg ropeTrait ⟨id, id, id⟩ addBytes 0 s [(0, 0, 0, 100)] = .error .panic ∧
    updateLeavesWithArg ropeTrait ⟨id, id, id⟩ addBytes 0 s [(0, 3, 3, 100)] = .error .panic := by
  obtain ⟨c, s, h1, h2, h3⟩ := C01_push (B := ropeTrait) (A := ropeLaw 4) (m := 5) (s := newTree ropeTrait) (e := ⟨[1, 2, 3, 0], 3, 1⟩) (by decide) ⟨1, new_inv _ _⟩
    ⟨by simp [GapBuf.WF], rfl⟩
  cases h1
  exact ⟨_, h2, rfl, rfl, rfl⟩

example := C23_update_ranges_partial (C21_rope_diffs 4) (C23_rope_sub 4) (by decide) ropeSample_spec.1 (ropeContent 4).splitLen
  (ho := ⟨List.reverse, List.reverse, List.reverse⟩) List.reverse_perm List.reverse_perm List.reverse_perm (addBytes_ok 4) 0
  (args := [(5, 0, 2, 10), (20, 1, 2, 7)]) (by
    rw [ropeSample_es]
    intro a ha
    simp only [List.mem_cons, List.not_mem_nil, or_false] at ha
    rcases ha with rfl | rfl
    · exact ⟨chunk 5, by decide, by decide⟩
    · exact ⟨chunk 20, by decide, by decide⟩)

end GB
