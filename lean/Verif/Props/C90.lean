import Verif.Proof.HashOrder
import Verif.Props.C23
import Verif.Props.C47
import Verif.Proof.SampleTwo

/-!
# C90: The iteration order of the hash maps cannot be observed

`update` and `update_leaves_with_arg_in_ranges` keep differences of caches in hash maps and visit the nodes of a level in the order in which a
hash set iterates.  The tree they end with does not depend on this order: it is the same node for node, every cache included.  The second function also inserts
the new pieces of the leaves in the order of a hash map.  This order shows in the leaf indices that the pieces get (`C90_ranges_numbers_false`), but in nothing else: the
elements, the returned state and the number of new leaves are the same.
-/

namespace GB
variable {E C D X σ Arg : Type}
open Tree

/-- `update` on a valid tree of any height, with any closure that reports its changes: two hash orders give equal results, panics included. -/
theorem C90_update {B : Trait E C D} {A : Law B} {R : C → D → C → Prop} (L : DiffLaw A R) {m : Fill} {s : Tree E C} (hm : 1 ≤ m.lo ∧ m.lo + m.d ≤ 5)
    (hi : Inv A m s) (hsl : SplitLen B A.okE) (hpos : ∀ x ∈ (abs s).es, 0 < B.rleLen x.2)
    {ho ho' : HashOrd E} (hho : ∀ l, (ho.idx l).Perm l) (hho' : ∀ l, (ho'.idx l).Perm l) {f : σ → E → M (σ × E × Option D)} (hf : ClosureOK A R f) (st : σ)
    {a b : Cursor} {Ua Va Ub Vb : List (Nat × E)} {ea eb : E} (ha : (abs s).es = Ua ++ (a.leaf, ea) :: Va) (hoa : a.offset ≤ B.rleLen ea)
    (hb : (abs s).es = Ub ++ (b.leaf, eb) :: Vb) (hob : b.offset ≤ B.rleLen eb) (hle : unitLen B Ua + a.offset ≤ unitLen B Ub + b.offset) :
    update B ho f st s a b = update B ho' f st s a b := by
  obtain ⟨h, ⟨lvl, g⟩, sz⟩ := hi
  obtain ⟨ua, va, o1, rfl, -, hea⟩ := entries_split g.wf ha
  obtain ⟨ub, vb, o2, rfl, -, heb⟩ := entries_split g.wf hb
  exact update_order hm.1 hm.2 L hho hho' hf st g sz hsl o1 hea hoa o2 heb hob
    (notBehind_of_pos g.wf (fun l x hx => hpos (l, x) ((entries_mem g.wf).mpr hx)) o1 o2 heb hob hle)

theorem updateF_no_diff {B : Trait E C D} {f : σ → E → M (σ × E × Option D)} (hf : ∀ st e st' e' d, f st e = .ok (st', e', d) → d = none) {stop : Option Nat} :
    ∀ (n : Nat) {st st' : σ} {s s' : Tree E C} {path : List PIdx} {rm rm' : List Nat} {dm : List (Idx × D)},
    updateF B f stop n st s path rm [] = .ok (st', s', rm', dm) → dm = []
  | 0, _, _, _, _, _, _, _, _, h => by cases h
  | n + 1, st, st', s, s', path, rm, rm', dm, h => by
    obtain ⟨cur, -, h⟩ := bind_inv h
    obtain ⟨l, -, h⟩ := bind_inv h
    split at h
    · cases h; rfl
    · obtain ⟨leaf, -, h⟩ := bind_inv h
      obtain ⟨⟨st1, e, d⟩, h1, h⟩ := bind_inv h
      cases hf _ _ _ _ _ h1
      obtain ⟨p, -, h⟩ := bind_inv h
      cases p with
      | none => cases h; rfl
      | some p => exact updateF_no_diff hf n h

/-- A closure that reports no differences: on any tree whatever, valid or not, the hash order is not used. -/
theorem C90_no_diff {B : Trait E C D} {f : σ → E → M (σ × E × Option D)} (hf : ∀ st e st' e' d, f st e = .ok (st', e', d) → d = none) (ho ho' : HashOrd E)
    (st : σ) (s : Tree E C) (a b : Cursor) : update B ho f st s a b = update B ho' f st s a b := by
  unfold update
  refine bind_congr fun x => bind_congr fun y => ?_
  obtain ⟨si, s2⟩ := y
  obtain ⟨np, x2, x3, x4, x5⟩ := si
  cases np with
  | none => rfl
  | some start =>
    refine bind_congr fun path => ?_
    cases hu : updateF B f (x.1.newPos.map Cursor.leaf) (leafFuel s2) st s2 path [] [] with
    | error e => rfl
    | ok r =>
      obtain ⟨st1, s1, rm, dm⟩ := r
      cases updateF_no_diff hf _ hu
      rfl

/-- the range map of the tests does not depend on hash orders at all -/
theorem C90_range_map (ho ho' : HashOrd RElem) (s : RangeMap) (o : RangeOp) : o.run ho s = o.run ho' s := by
  have h1 : ∀ v a b s, update rangeTrait ho (RangeMap.setValue v) () s a b = update rangeTrait ho' (RangeMap.setValue v) () s a b :=
    fun v a b s => C90_no_diff (fun _ _ _ _ _ h => by cases h; rfl) ho ho' () s a b
  have h2 : ∀ v a b s, update rangeTrait ho (RangeMap.addValue v) () s a b = update rangeTrait ho' (RangeMap.addValue v) () s a b :=
    fun v a b s => C90_no_diff (fun _ _ _ _ _ h => by cases h; rfl) ho ho' () s a b
  cases o with
  | insert a b v => simp only [RangeOp.run, RangeMap.insert, h1]
  | plus a b d => simp only [RangeOp.run, RangeMap.plus, h2]

theorem C90_range_history : ∀ (os : List RangeOp) (hs hs' : Nat → HashOrd RElem) (s : RangeMap),
    rangeRun s (os.zipIdx.map fun x => (hs x.2, x.1)) = rangeRun s (os.zipIdx.map fun x => (hs' x.2, x.1)) := by
  intro os
  generalize 0 = k
  induction os generalizing k with
  | nil => intros; rfl
  | cons o os ih =>
    intro hs hs' s
    simp only [List.zipIdx_cons, List.map_cons, rangeRun]
    rw [C90_range_map (hs k) (hs' k)]
    exact bind_congr fun s' => ih (k + 1) hs hs' s'

/-- `update_leaves_with_arg_in_ranges`, the leaves taken in the same order (in the code: sorted by index): whatever the orders of both hash maps, the elements, the state of the
closure, the number of new leaves and the root cache are the same. -/
theorem C90_ranges {B : Trait E C D} {A : Law B} {R : C → D → C → Prop} (L : DiffLaw A R) (hsub : SubLaw A R) {m : Fill} {s : Tree E C} (hm : 1 ≤ m.lo ∧ m.lo + m.d ≤ 6)
    (hi : Inv A m s) (hsl : SplitLen B A.okE) {ho ho' : HashOrd E} (hho : ∀ l, (ho.idx l).Perm l) (hcur : ∀ l, (ho.cur l).Perm l) (hgrp : ∀ l, (ho.grp l).Perm l)
    (hho' : ∀ l, (ho'.idx l).Perm l) (hcur' : ∀ l, (ho'.cur l).Perm l) (hgg : ∀ l, ho'.grp l = ho.grp l)
    {f : σ → E → Arg → M (σ × E)} (hf : ArgOK A f) (st : σ) {args : List (Nat × Nat × Nat × Arg)}
    (hargs : ∀ a ∈ args, ∃ e, (a.1, e) ∈ (abs s).es ∧ Fits a.2.1 a.2.2.1 (B.rleLen e)) :
    ∃ st' new new' s1 s2, updateLeavesWithArg B ho f st s args = .ok (st', new, s1) ∧ updateLeavesWithArg B ho' f st s args = .ok (st', new', s2) ∧
      Inv A m s1 ∧ Inv A m s2 ∧ (abs s1).es.map Prod.snd = (abs s2).es.map Prod.snd ∧ new.length = new'.length ∧ ((abs s1).es ≠ [] → s1.rootCache = s2.rootCache) := by
  obtain ⟨h, ⟨lvl, g⟩, sz⟩ := hi
  obtain ⟨st1, n1, s1, l1, h1, out1, blk1, u1, u2, u3, u4, u5, u6, u7, u8, u9, u10, u11, u12⟩ := updateLeavesWithArg_spec hm.1 hm.2 L hsub hho hcur hgrp hf st g sz hsl hargs
  obtain ⟨st2, n2, s2, l2, h2, out2, blk2, v1, v2, v3, v4, v5, v6, v7, v8, v9, v10, v11, v12⟩ := updateLeavesWithArg_spec hm.1 hm.2 L hsub hho' hcur'
    (fun l => by rw [hgg]; exact hgrp l) hf st g sz hsl hargs
  rw [hgg, u4] at v4
  cases v4
  have hes : (abs s1).es.map Prod.snd = (abs s2).es.map Prod.snd := by
    show (entries s1).map Prod.snd = (entries s2).map Prod.snd
    rw [u7, v7, List.map_flatMap, List.map_flatMap]
    have key : ∀ x ∈ entries s, (blk1 x.1).map Prod.snd = (blk2 x.1).map Prod.snd := by
      intro x hx
      by_cases hxa : x.1 ∈ args.map (fun a => a.1)
      · have : x.1 ∈ out1.map Prod.fst := by rw [u5, (hgrp _).mem_iff, List.mem_eraseDups]; exact hxa
        obtain ⟨y, hy, hyx⟩ := List.mem_map.mp this
        have k1 := (u9 y hy).1
        have k2 := (v9 y hy).1
        rw [k1] at k2
        rw [← hyx]
        exact Except.ok.inj k2
      · rw [u8 x hx hxa, v8 x hx hxa]
    rw [List.flatMap_def, List.flatMap_def, List.map_congr_left key]
  refine ⟨st1, n1, n2, s1, s2, u1, v1, ⟨h1, ⟨l1, u2⟩, u3⟩, ⟨h2, ⟨l2, v2⟩, v3⟩, hes, by rw [u12, v12], fun hne => ?_⟩
  have hne2 : (abs s2).es ≠ [] := by
    intro hc
    rw [hc] at hes
    exact hne (by simpa using hes)
  have e1 := C07_root_cache hm.1 ⟨h1, ⟨l1, u2⟩, u3⟩ hne
  have e2 := C07_root_cache hm.1 ⟨h2, ⟨l2, v2⟩, v3⟩ hne2
  rw [e1, e2]
  have hmm : ∀ l : List (Nat × E), l.map (fun x => B.elemCache x.2) = (l.map Prod.snd).map B.elemCache := fun l => by rw [List.map_map]; rfl
  simp only [hmm, hes]

/-- if all ranges are in one leaf, the whole result is the same -/
theorem C90_ranges_one {B : Trait E C D} {A : Law B} {R : C → D → C → Prop} (L : DiffLaw A R) (hsub : SubLaw A R) {m : Fill} {s : Tree E C} (hm : 1 ≤ m.lo)
    (hi : Inv A m s) (hsl : SplitLen B A.okE) {ho ho' : HashOrd E} (hho : ∀ l, (ho.idx l).Perm l) (hcur : ∀ l, (ho.cur l).Perm l) (hgrp : ∀ l, (ho.grp l).Perm l)
    (hho' : ∀ l, (ho'.idx l).Perm l) (hcur' : ∀ l, (ho'.cur l).Perm l) (hgrp' : ∀ l, (ho'.grp l).Perm l)
    {f : σ → E → Arg → M (σ × E)} (hf : ArgOK A f) (st : σ) {args : List (Nat × Nat × Nat × Arg)} {l : Nat} {e : E} (hl : (l, e) ∈ (abs s).es)
    (hargs : ∀ a ∈ args, a.1 = l ∧ Fits a.2.1 a.2.2.1 (B.rleLen e)) :
    updateLeavesWithArg B ho f st s args = updateLeavesWithArg B ho' f st s args := by
  obtain ⟨h, ⟨lvl, g⟩, sz⟩ := hi
  have hsmall : ∀ {α : Type} {x y : List α}, x.length ≤ 1 → y.Perm x → y = x := by
    intro α x y hx hp
    match x, hx with
    | [], _ => exact hp.eq_nil
    | [a], _ => exact List.perm_singleton.mp hp
  have hone : (args.map fun a => a.1).eraseDups.length ≤ 1 := by
    have nd := nodup_eraseDups' (args.map fun a => a.1)
    have hall : ∀ k ∈ (args.map fun a => a.1).eraseDups, k = l := by
      intro k hk
      rw [List.mem_eraseDups] at hk
      obtain ⟨a, ha, rfl⟩ := List.mem_map.mp hk
      exact (hargs a ha).1
    generalize (args.map fun a => a.1).eraseDups = ks at nd hall
    match ks, nd, hall with
    | [], _, _ => decide
    | [_], _, _ => simp
    | x :: y :: ks, nd, hall =>
      rw [hall x (by simp), hall y (by simp)] at nd
      simp at nd
  have g1 := hsmall hone (hgrp _)
  have g2 := hsmall hone (hgrp' _)
  obtain ⟨st1, s2, out, -, u2, e1, e2⟩ := ranges_order (ho := ho) (ho' := ho') hm L hsub hho hho' (args := args) (hgrp _) (by rw [g1, g2]) hf st g sz hsl
    (fun a ha => ⟨e, by rw [(hargs a ha).1]; exact hl, (hargs a ha).2⟩)
  have hlen : (chains B out).length ≤ 1 := by
    have h1 : (chains B out).length ≤ out.length := List.length_filterMap_le _ _
    have h2 := congrArg List.length u2
    rw [List.length_map, g1] at h2
    omega
  rw [e1, e2, hsmall hlen (hcur _), hsmall hlen (hcur' _)]

/-- Histories of all operations: the order in which nodes are visited makes no difference to the final tree, nor do the other orders to histories without
`update_leaves_with_arg_in_ranges`. -/
theorem C90_history {B : Trait E C D} {A : Law B} {R : C → D → C → Prop} {cont : E → List X} (K : ContentLaw B A.okE cont) {m : Fill} (hm : 1 ≤ m.lo ∧ m.lo + m.d ≤ 5)
    (hE : 2 ≤ m.lo ∨ LawE A) (L : DiffLaw A R) {ho ho' : HashOrd E} (hho : ∀ l, (ho.idx l).Perm l) (hcur : ∀ l, (ho.cur l).Perm l) (hgrp : ∀ l, (ho.grp l).Perm l)
    (hho' : ∀ l, (ho'.idx l).Perm l) : ∀ (os : List (BOp E C D)) {s : Tree E C}, Inv A m s → validB A R m ho s os →
    ((∃ o ∈ os, o.isRanges) → ho'.cur = ho.cur ∧ ho'.grp = ho.grp) → runB B ho s os = runB B ho' s os
  | [], _, _, _, _ => rfl
  | o :: os, s, hi, hv, hr => by
    obtain ⟨s1, h1, i1, -⟩ := bstep K hm hE L hho hcur hgrp hi hv.1
    have h2 := h1
    rw [bstep_order hm K.splitLen L hho hho' hgrp hi hv.1 fun h => hr ⟨o, by simp, h⟩] at h2
    simp only [runB, h1, h2, bind_ok]
    exact C90_history K hm hE L hho hcur hgrp hho' os i1 (hv.2 s1 h1) fun ⟨x, hx, h⟩ => hr ⟨x, by simp [hx], h⟩

/-- a closure for the range map: the argument becomes the value -/
def setArg (n : Nat) (e : RElem) (k : Int) : M (Nat × RElem) := .ok (n + 1, { e with value := some k })

theorem setArg_ok : ArgOK rangeLaw setArg := fun _ _ _ h => ⟨_, _, rfl, h⟩

/-- Witness: the leaf indices of the new pieces do depend on the order of the second hash map. -/
theorem C90_ranges_numbers_false : ∃ (s s1 s2 : Tree RElem Nat) (n1 n2 : List Nat), Inv rangeLaw 5 s ∧
    updateLeavesWithArg rangeTrait ⟨id, id, id⟩ setArg 0 s [(0, 0, 1, 7), (1, 0, 1, 8)] = .ok (2, n1, s1) ∧
    updateLeavesWithArg rangeTrait ⟨id, List.reverse, id⟩ setArg 0 s [(0, 0, 1, 7), (1, 0, 1, 8)] = .ok (2, n2, s2) ∧
    (abs s1).es = [(0, ⟨some 7, 1⟩), (2, ⟨some 1, 2⟩), (1, ⟨some 8, 1⟩), (3, ⟨some 2, 2⟩)] ∧
    (abs s2).es = [(0, ⟨some 7, 1⟩), (3, ⟨some 1, 2⟩), (1, ⟨some 8, 1⟩), (2, ⟨some 2, 2⟩)] := by
  obtain ⟨c, s, h1, h2, h3⟩ := C01_push (B := rangeTrait) (A := rangeLaw) (m := 5) (s := RangeMap.new) (e := ⟨some 1, 3⟩) (by decide) ⟨1, new_inv _ _⟩ (Nat.succ_pos 2)
  cases h1
  obtain ⟨c, s, h1, h2, h3⟩ := C01_push (B := rangeTrait) (A := rangeLaw) (m := 5) (e := ⟨some 2, 3⟩) (by decide) h2 (Nat.succ_pos 2)
  cases h1
  exact ⟨_, _, _, _, _, h2, rfl, rfl, rfl, rfl⟩

/-- wiping from the middle of chunk 3 to the middle of chunk 20, the dirty nodes visited forwards and backwards -/
example : update ropeTrait ⟨id, id, id⟩ wipe 0 ropeSample ⟨3, 1⟩ ⟨20, 2⟩ = update ropeTrait ⟨List.reverse, id, id⟩ wipe 0 ropeSample ⟨3, 1⟩ ⟨20, 2⟩ :=
  C90_update (C21_rope_diffs 4) (by decide) ropeSample_spec.1 (ropeContent 4).splitLen (by rw [ropeSample_es]; decide)
    (ho := ⟨id, id, id⟩) (ho' := ⟨List.reverse, id, id⟩) (fun _ => .refl _) List.reverse_perm (wipe_ok 4) 0 (a := ⟨3, 1⟩) (b := ⟨20, 2⟩)
    (ropeSample_at (k := 3) (by decide)) (by decide) (ropeSample_at (k := 20) (by decide)) (by decide) (by decide)

/-- the closure of `plus` on any tree of the range map -/
example (s : Tree RElem Nat) : update rangeTrait ⟨id, id, id⟩ (RangeMap.addValue 5) () s ⟨0, 1⟩ ⟨3, 2⟩ =
    update rangeTrait ⟨List.reverse, id, id⟩ (RangeMap.addValue 5) () s ⟨0, 1⟩ ⟨3, 2⟩ :=
  C90_no_diff (fun _ _ _ _ _ h => by cases h; rfl) _ _ _ _ _ _

example : rangeRun RangeMap.new [(⟨id, id, id⟩, .insert 2 9 1), (⟨id, id, id⟩, .plus 4 6 3)] =
    rangeRun RangeMap.new [(⟨List.reverse, id, id⟩, .insert 2 9 1), (⟨List.reverse, id, id⟩, .plus 4 6 3)] :=
  C90_range_history [.insert 2 9 1, .plus 4 6 3] (fun _ => ⟨id, id, id⟩) (fun _ => ⟨List.reverse, id, id⟩) RangeMap.new

example : ∃ st' new new' s1 s2, updateLeavesWithArg ropeTrait ⟨id, id, id⟩ addBytes 0 ropeSample [(5, 0, 2, 10), (20, 1, 2, 7)] = .ok (st', new, s1) ∧
    updateLeavesWithArg ropeTrait ⟨List.reverse, List.reverse, id⟩ addBytes 0 ropeSample [(5, 0, 2, 10), (20, 1, 2, 7)] = .ok (st', new', s2) ∧
    Inv (ropeLaw 4) 5 s1 ∧ Inv (ropeLaw 4) 5 s2 ∧ (abs s1).es.map Prod.snd = (abs s2).es.map Prod.snd ∧ new.length = new'.length ∧
    ((abs s1).es ≠ [] → s1.rootCache = s2.rootCache) :=
  C90_ranges (C21_rope_diffs 4) (C23_rope_sub 4) (by decide) ropeSample_spec.1 (ropeContent 4).splitLen
    (ho := ⟨id, id, id⟩) (ho' := ⟨List.reverse, List.reverse, id⟩) (fun _ => .refl _) (fun _ => .refl _) (fun _ => .refl _) List.reverse_perm List.reverse_perm (fun _ => rfl)
    (addBytes_ok 4) 0 (by
      rw [ropeSample_es]
      intro a ha
      simp only [List.mem_cons, List.not_mem_nil, or_false] at ha
      rcases ha with rfl | rfl
      · exact ⟨chunk 5, by decide, by decide⟩
      · exact ⟨chunk 20, by decide, by decide⟩)

/-- two ranges in chunk 5 -/
example : updateLeavesWithArg ropeTrait ⟨id, id, id⟩ addBytes 0 ropeSample [(5, 0, 2, 10), (5, 1, 2, 7)] =
    updateLeavesWithArg ropeTrait ⟨List.reverse, List.reverse, List.reverse⟩ addBytes 0 ropeSample [(5, 0, 2, 10), (5, 1, 2, 7)] :=
  C90_ranges_one (C21_rope_diffs 4) (C23_rope_sub 4) (m := 5) (by decide) ropeSample_spec.1 (ropeContent 4).splitLen
    (ho := ⟨id, id, id⟩) (ho' := ⟨List.reverse, List.reverse, List.reverse⟩) (fun _ => .refl _) (fun _ => .refl _) (fun _ => .refl _)
    List.reverse_perm List.reverse_perm List.reverse_perm (addBytes_ok 4) 0 (l := 5) (e := chunk 5) (by rw [ropeSample_es]; decide) (by
      intro a ha
      simp only [List.mem_cons, List.not_mem_nil, or_false] at ha
      rcases ha with rfl | rfl <;> exact ⟨rfl, by decide⟩)

/-- two chunks, wiped from the middle of the first to the middle of the second -/
example : runB ropeTrait ⟨id, id, id⟩ (newTree ropeTrait)
      [.basic (.push ⟨[1, 2, 3, 0], 3, 1⟩), .basic (.push ⟨[4, 5, 6, 0], 3, 1⟩), .update wipe 0 ⟨0, 1⟩ ⟨1, 2⟩] =
    runB ropeTrait ⟨List.reverse, List.reverse, List.reverse⟩ (newTree ropeTrait)
      [.basic (.push ⟨[1, 2, 3, 0], 3, 1⟩), .basic (.push ⟨[4, 5, 6, 0], 3, 1⟩), .update wipe 0 ⟨0, 1⟩ ⟨1, 2⟩] := by
  refine C90_history (m := 5) (ropeContent 4) (by decide) (.inl (by decide)) (C21_rope_diffs 4) (fun _ => .refl _) (fun _ => .refl _) (fun _ => .refl _) List.reverse_perm _
    ⟨1, new_inv _ _⟩ ⟨⟨by simp [GapBuf.WF], rfl⟩, fun s1 h1 => ⟨⟨by simp [GapBuf.WF], rfl⟩, fun s2 h2 => ?_⟩⟩ (by
      rintro ⟨o, ho, hr⟩
      simp only [List.mem_cons, List.not_mem_nil, or_false] at ho
      rcases ho with rfl | rfl | rfl <;> exact hr.elim)
  cases h1
  cases h2
  refine ⟨⟨fun d hd => ?_, ⟨by decide, [], ⟨[1, 2, 3, 0], 3, 1⟩, [(1, ⟨[4, 5, 6, 0], 3, 1⟩)], [(0, ⟨[1, 2, 3, 0], 3, 1⟩)], ⟨[4, 5, 6, 0], 3, 1⟩, [], rfl, by decide,
    rfl, by decide, by decide⟩, wipe_ok 4⟩, fun _ _ => trivial⟩
  cases hd
  decide

end GB
