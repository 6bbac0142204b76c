import Verif.Proof.Unwind
import Verif.Props.C21
import Verif.Props.C22
import Verif.Props.C90

/-!
# C91: A panic of a closure leaves a tree that is valid apart from its caches

`update`, `update_leaf`, `update_leaf_by_search` and `update_leaves_with_arg_in_ranges` call a closure with a `&mut` to an element in the tree.  If it panics, the call is unwound, and
whoever catches the panic still has the tree.  All links are intact then and no operation can go wrong because of them: the tree is sound (the hypothesis of C86 to C89).  The
caches above the leaves that the closure was called for are out of date; recomputing them for just these leaves makes the tree valid again.

`update` loses no elements, but its cuts stay and what the closure emptied is not removed.  `update_leaves_with_arg_in_ranges` does lose units: it takes pieces out of the leaves, which it keeps in
local variables until all closures have run (`C91_ranges_lost`).
-/

namespace GB
variable {E C D Q F X σ Arg : Type}
open Tree

/-- What an unwound call leaves: `t` is a sound tree of the leaves of `s`, only the elements of the leaves `ws` may be others, and recomputing the caches for these makes the tree valid. -/
structure Unwound {B : Trait E C D} (A : Law B) (m : Fill) (h : Nat) (s t : Tree E C) (ws : List Nat) : Prop where
  sound : SoundH A.okE m h t
  ids : (abs t).es.map Prod.fst = (abs s).es.map Prod.fst
  next : (abs t).next = (abs s).next
  others : ∀ x, x.1 ∉ ws → (x ∈ (abs t).es ↔ x ∈ (abs s).es)
  stale : t.rootCache = s.rootCache
  repair : ∃ s', repairRun B t (ws.map fun l => .fix l false none) = .ok s' ∧ InvH A m h s' ∧ abs s' = abs t

theorem Over.unwound {B : Trait E C D} {A : Law B} {s t : Tree E C} {lvl : Nat → Nat} {h : Nat} {m : Fill} (hm : 1 ≤ m.lo) {ws : List Nat} (o : Over A s t ws) (hne : ws ≠ [])
    (g : Good A s lvl h) (sz : Sz m s h) : Unwound A m h s t ws := by
  have w := o.sh.wf g.wf
  refine ⟨o.sound g sz, ?_, o.sh.lfitems, ?_, o.rc, o.repair hm hne g sz⟩
  · show (entries t).map Prod.fst = (entries s).map Prod.fst
    rw [entries_fst w, entries_fst g.wf, o.sh.order]
  · intro x hx
    show x ∈ entries t ↔ x ∈ entries s
    rw [entries_mem w, entries_mem g.wf, o.elm x.1 hx]

/-- `update` on a valid tree of at most 8 levels, any two cursors in order, any closure that leaves valid elements when it panics: if it does panic in the range, the call is unwound, the elements
are those of `specUnwind`, the tree is sound, and recomputing the caches for the leaves that the closure was called for makes it valid. -/
theorem C91_update {B : Trait E C D} {A : Law B} {m : Fill} {h : Nat} {s : Tree E C} (hm : 1 ≤ m.lo ∧ m.lo + m.d ≤ 5)
    (hi : InvH A m h s) (hsl : SplitLen B A.okE) (hpos : ∀ x ∈ (abs s).es, 0 < B.rleLen x.2)
    (ho : HashOrd E) {f : σ → E → Except E (σ × E × Option D)} (hf : KeepsOK A f) (st : σ)
    {a b : Cursor} {Ua Va Ub Vb : List (Nat × E)} {ea eb : E} (ha : (abs s).es = Ua ++ (a.leaf, ea) :: Va) (hoa : a.offset ≤ B.rleLen ea)
    (hb : (abs s).es = Ub ++ (b.leaf, eb) :: Vb) (hob : b.offset ≤ B.rleLen eb) (hle : unitLen B Ua + a.offset ≤ unitLen B Ub + b.offset)
    (hh : h ≤ 8) {sp : Seq E} {ws : List Nat} (hsp : specUnwind B f st (abs s) a b = .ok (some (sp, ws))) :
    ∃ t h', updateU B ho f st s a b = .ok (.error t) ∧ abs t = sp ∧ h' ≤ h + 1 ∧ SoundH A.okE m h' t ∧
      ∃ s', repairRun B t (ws.map fun l => .fix l false none) = .ok s' ∧ InvH A m h' s' ∧ abs s' = sp := by
  obtain ⟨⟨lvl, g⟩, sz⟩ := hi
  obtain ⟨ua, va, o1, rfl, -, hea⟩ := entries_split g.wf ha
  obtain ⟨ub, vb, o2, rfl, -, heb⟩ := entries_split g.wf hb
  obtain ⟨t, s2, lvl2, h2, u1, g2, sz2, hh2, o, hne, rfl⟩ := updateU_spec hm.1 hm.2 (ho := ho) hf st g sz hsl o1 hea hoa o2 heb hob
    (notBehind_of_pos g.wf (fun l x hx => hpos (l, x) ((entries_mem g.wf).mpr hx)) o1 o2 heb hob hle) hh hsp
  obtain ⟨s', r1, r2, r3⟩ := o.repair hm.1 hne g2 sz2
  exact ⟨t, h2, u1, rfl, hh2, o.sound g2 sz2, s', r1, r2, r3⟩

/-- `update` is unwound exactly if the specification says so, and then leaves exactly what it says. -/
theorem C91_update_iff {B : Trait E C D} {A : Law B} {m : Fill} {h : Nat} {s : Tree E C} (hm : 1 ≤ m.lo ∧ m.lo + m.d ≤ 5)
    (hi : InvH A m h s) (hsl : SplitLen B A.okE) (hpos : ∀ x ∈ (abs s).es, 0 < B.rleLen x.2)
    (ho : HashOrd E) {f : σ → E → Except E (σ × E × Option D)} (hf : KeepsOK A f) (st : σ)
    {a b : Cursor} {Ua Va Ub Vb : List (Nat × E)} {ea eb : E} (ha : (abs s).es = Ua ++ (a.leaf, ea) :: Va) (hoa : a.offset ≤ B.rleLen ea)
    (hb : (abs s).es = Ub ++ (b.leaf, eb) :: Vb) (hob : b.offset ≤ B.rleLen eb) (hle : unitLen B Ua + a.offset ≤ unitLen B Ub + b.offset)
    (hh : h ≤ 8) (sp : Seq E) :
    (∃ t, updateU B ho f st s a b = .ok (.error t) ∧ abs t = sp) ↔ ∃ ws, specUnwind B f st (abs s) a b = .ok (some (sp, ws)) := by
  constructor
  · rintro ⟨t, hu, rfl⟩
    obtain ⟨⟨lvl, g⟩, sz⟩ := id hi
    obtain ⟨ua, va, o1, rfl, -, hea⟩ := entries_split g.wf ha
    obtain ⟨ub, vb, o2, rfl, -, heb⟩ := entries_split g.wf hb
    obtain ⟨⟨r, hr⟩, hn⟩ := updateU_run (t := t) hm.1 hm.2 (ho := ho) hf st g sz hsl o1 hea hoa o2 heb hob
      (notBehind_of_pos g.wf (fun l x hx => hpos (l, x) ((entries_mem g.wf).mpr hx)) o1 o2 heb hob hle)
    cases r with
    | none => exact absurd hu (hn hr)
    | some r =>
      obtain ⟨sp, ws⟩ := r
      obtain ⟨t', h', u1, u2, -⟩ := C91_update hm hi hsl hpos ho hf st ha hoa hb hob hle hh hr
      rw [u1] at hu
      cases hu
      exact ⟨ws, by rw [hr, u2]⟩
  · rintro ⟨ws, hsp⟩
    obtain ⟨t, h', u1, u2, -⟩ := C91_update hm hi hsl hpos ho hf st ha hoa hb hob hle hh hsp
    exact ⟨t, u1, u2⟩

/-- `update_leaf`: an unwound call has changed the one element, and nothing else. -/
theorem C91_leaf {B : Trait E C D} {A : Law B} {m : Fill} {h : Nat} {s : Tree E C} (hm : 1 ≤ m.lo) (hi : InvH A m h s) {l : Nat} {e e' : E} (hl : (l, e) ∈ (abs s).es)
    {f : E → Except E (E × Bool × Option E × Option E)} (hf : f e = .error e') (he : A.okE e') :
    ∃ t, updateLeafU B s l f = .ok (.error t) ∧ (l, e') ∈ (abs t).es ∧ Unwound A m h s t [l] := by
  obtain ⟨⟨lvl, g⟩, sz⟩ := hi
  have hel : elm s l = some e := (entries_mem g.wf).mp hl
  obtain ⟨⟨x, q⟩, hL, rfl⟩ := Option.map_eq_some_iff.mp hel
  have o := (Over.refl g.okE).set hL he
  refine ⟨s.setLf l ⟨e', q⟩, ?_, ?_, o.unwound hm (by simp) g sz⟩
  · have hf : f x = .error e' := hf
    simp only [updateLeafU, getLf_ok hL, bind_ok, hf, pure_ok]
  · exact (entries_mem (o.sh.wf g.wf)).mpr (by rw [elm_upd hL, if_pos rfl])

/-- `update_leaf_by_search`, every tree of at most 10 levels and every finder whose query finds `r`: if the closure panics at the element found, or returns two elements to insert (`unimplemented!()`),
then this element is what the closure left and nothing else is changed. -/
theorem C91_search {B : Trait E C D} {A : Law B} {m : Fill} {h : Nat} {s : Tree E C} {q : Query E C Q F} {arg : Q} {r : QueryResult}
    {e : E} {U V : List (Nat × E)} (hm : 1 ≤ m.lo) (hi : InvH A m h s) (h10 : h ≤ 10)
    (hq : query q s arg = .ok (some r)) (hes : (abs s).es = U ++ (r.cursor.leaf, e) :: V) :
    ∃ fnd, (r.found = true → fnd = true) ∧ ∀ (f : E → QueryResult → Except E (E × Option (D × Option E × Option E))) (e' : E),
      (f e ⟨r.cursor, fnd⟩ = .error e' ∨ ∃ d n1 n2, f e ⟨r.cursor, fnd⟩ = .ok (e', some (d, n1, some n2))) → A.okE e' →
      ∃ t, bySearchU B q s arg f = .ok (.error t) ∧ abs t = ⟨(abs s).next, U ++ (r.cursor.leaf, e') :: V⟩ ∧ Unwound A m h s t [r.cursor.leaf] := by
  obtain ⟨⟨lvl, g⟩, sz⟩ := hi
  have ne : NE s := InvH.ne (A := A) (h := h) ⟨⟨lvl, g⟩, sz⟩ hm
  obtain ⟨fd, hq⟩ := query_with hq
  obtain ⟨h1, p, i, arr, cp, rest, fdm, fnd, k1, k2, k3, k4, k5, k6⟩ := search_start g ne h10 hq hes
  refine ⟨fnd, k6, fun f e' hf ok' => ?_⟩
  have o := (Over.refl g.okE).set k4 ok'
  refine ⟨_, ?_, ?_, o.unwound hm (by simp) g sz⟩
  · unfold bySearchU
    rcases hf with hf | ⟨d, n1, n2, hf⟩
    · have hf' : f e ⟨⟨r.cursor.leaf, r.cursor.offset⟩, fnd⟩ = .error e' := hf
      simp only [h1, bind_ok, Bool.false_eq_true, if_false, k1, getLf_ok k4, k5, hf', pure_ok]
    · have hf' : f e ⟨⟨r.cursor.leaf, r.cursor.offset⟩, fnd⟩ = .ok (e', some (d, n1, some n2)) := hf
      simp only [h1, bind_ok, Bool.false_eq_true, if_false, k1, getLf_ok k4, k5, hf', pure_ok]
  · show (Seq.mk _ (entries _) : Seq E) = _
    rw [entries_upd (e := e) g.wf o.sh.order (fun k => elm_upd k4 k) hes]
    simp [abs]

/-- `update_leaf_by_search`: trees of any height and all finders, if the call is unwound. -/
theorem C91_search_any {B : Trait E C D} {A : Law B} {m : Fill} {h : Nat} {s t : Tree E C} (hm : 1 ≤ m.lo) (hi : InvH A m h s) {q : Query E C Q F} {arg : Q}
    {f : E → QueryResult → Except E (E × Option (D × Option E × Option E))}
    (hf : ∀ e r, A.okE e → (∀ e', f e r = .error e' → A.okE e') ∧ ∀ e' x, f e r = .ok (e', x) → A.okE e') (hu : bySearchU B q s arg f = .ok (.error t)) :
    ∃ l, Unwound A m h s t [l] := by
  obtain ⟨⟨lvl, g⟩, sz⟩ := hi
  rw [bySearchU] at hu
  obtain ⟨em, -, hu⟩ := bind_inv hu
  split at hu
  · cases hu
  · obtain ⟨⟨l, arr, path, fd⟩, -, hu⟩ := bind_inv hu
    obtain ⟨⟨e, p⟩, hg, hu⟩ := bind_inv hu
    obtain ⟨⟨⟨offset, found⟩, fd'⟩, -, hu⟩ := bind_inv hu
    have hL : s.lf.get l = some ⟨e, p⟩ := by
      unfold getLf at hg
      cases hx : s.lf.get l with
      | none => rw [hx] at hg; cases hg
      | some y => rw [hx] at hg; cases hg; rfl
    have he := hf e ⟨⟨l, offset⟩, found⟩ (g.okE l e (elm_of hL))
    refine ⟨l, ?_⟩
    simp only at hu
    split at hu
    · next hx => cases hu; exact ((Over.refl g.okE).set hL (he.1 _ hx)).unwound hm (by simp) g sz
    · next hx => cases hu; exact ((Over.refl g.okE).set hL (he.2 _ _ hx)).unwound hm (by simp) g sz
    · obtain ⟨x, -, hu⟩ := bind_inv hu
      cases hu

/-- `update_leaves_with_arg_in_ranges` with ranges inside the elements: the leaves written are the first ones in the order of the groups, and each holds what `firstLeft` says: only the piece before the first cut. -/
theorem C91_ranges {B : Trait E C D} {A : Law B} {m : Fill} {h : Nat} {s t : Tree E C} (hm : 1 ≤ m.lo) (hi : InvH A m h s) {ho : HashOrd E} (hgrp : ∀ l, (ho.grp l).Perm l)
    {f : σ → E → Arg → Except E (σ × E)} (hf : KeepsArg A f) (st : σ) {args : List (Nat × Nat × Nat × Arg)}
    (hin : ∀ a ∈ args, ∀ e, (a.1, e) ∈ (abs s).es → a.2.1 ≤ a.2.2.1 ∧ a.2.2.1 ≤ B.rleLen e) (hu : updateLeavesU B ho f st s args = .ok (.error t)) :
    ∃ ws, ws ≠ [] ∧ ws <+: ho.grp (args.map fun a => a.1).eraseDups ∧ Unwound A m h s t ws ∧
      ∀ l ∈ ws, ∃ st e e', (l, e) ∈ (abs s).es ∧ (l, e') ∈ (abs t).es ∧ firstLeft B f ((args.filter fun a => a.1 = l).map Prod.snd) st e = .ok e' := by
  obtain ⟨⟨lvl, g⟩, sz⟩ := hi
  rw [updateLeavesU] at hu
  obtain ⟨r, hr, hu⟩ := bind_inv hu
  cases r with
  | ok r =>
    obtain ⟨x, -, hu⟩ := bind_inv hu
    obtain ⟨y, -, hu⟩ := bind_inv hu
    cases hu
  | error t' =>
    cases hu
    obtain ⟨ws, h1, h2, h3, h4⟩ := updGroupsU_over hf (s0 := s) _ st s [] [] [] ((hgrp _).nodup_iff.mpr (nodup_eraseDups' _)) (by simp) (Over.refl g.okE) (fun _ h => (by cases h)) (by
      intro l _ e he x hx
      obtain ⟨a, ha, rfl⟩ := List.mem_map.mp hx
      obtain ⟨ha1, hl⟩ := List.mem_filter.mp ha
      have hl : a.1 = l := by simpa using hl
      subst hl
      exact hin a ha1 e ((entries_mem g.wf).mpr he)) hr
    rw [List.nil_append] at h3 h4
    refine ⟨ws, h1, h2, h3.unwound hm h1 g sz, fun l hl => ?_⟩
    obtain ⟨st, e, e', e1, e2, e3⟩ := h4 l hl
    exact ⟨st, e, e', (entries_mem g.wf).mpr e1, (entries_mem (h3.sh.wf g.wf)).mpr e2, e3⟩

/-- The four functions here are those of the other properties, if one forgets what is left: for all trees, valid or not. -/
theorem C91_forget {B : Trait E C D} (ho : HashOrd E) (s : Tree E C) :
    (∀ (f : σ → E → Except E (σ × E × Option D)) (st : σ) (a b : Cursor), update B ho (fun st e => strict (f st e)) st s a b = forget (updateU B ho f st s a b)) ∧
    (∀ l f, updateLeaf B s l (fun e => strict (f e)) = forget (updateLeafU B s l f)) ∧
    (∀ (q : Query E C Q F) arg f, updateLeafBySearch B q s arg (fun e r => strict (f e r)) = forget (bySearchU B q s arg f)) ∧
    ∀ (f : σ → E → Arg → Except E (σ × E)) (st : σ) args, updateLeavesWithArg B ho (fun st e a => strict (f st e a)) st s args = forget (updateLeavesU B ho f st s args) :=
  ⟨fun f st a b => updateU_forget ho f st s a b, updateLeafU_forget s, fun q arg f => bySearchU_forget q s arg f, fun f st args => updateLeavesU_forget ho f st s args⟩

/-- a closure for the range map that sets the value and panics when it is called for the second time -/
def setOnce (n : Nat) (e : RElem) (k : Int) : Except RElem (Nat × RElem) := if n = 1 then .error e else .ok (n + 1, { e with value := some k })

theorem setOnce_ok : KeepsArg rangeLaw setOnce := by
  intro st e a he
  unfold setOnce
  refine ⟨fun e' h => ?_, fun st' e' h => ?_⟩ <;> split at h <;> cases h <;> exact he

/-- Witness: two elements of three units each; the closure panics at the second one.  Four of the six units are lost, although the closure removes nothing and panics without changing anything. -/
theorem C91_ranges_lost : ∃ (s t : Tree RElem Nat), Inv rangeLaw 5 s ∧ (abs s).es = [(0, ⟨some 1, 3⟩), (1, ⟨some 2, 3⟩)] ∧
    updateLeavesU rangeTrait ⟨id, id, id⟩ setOnce 0 s [(0, 0, 1, 7), (1, 0, 1, 8)] = .ok (.error t) ∧
    (abs t).es = [(0, ⟨some 7, 1⟩), (1, ⟨some 2, 1⟩)] := by
  obtain ⟨c, s, h1, h2, h3⟩ := C01_push (B := rangeTrait) (A := rangeLaw) (m := 5) (s := RangeMap.new) (e := ⟨some 1, 3⟩) (by decide) ⟨1, new_inv _ _⟩ (Nat.succ_pos 2)
  cases h1
  obtain ⟨c, s, h1, h2, h3⟩ := C01_push (B := rangeTrait) (A := rangeLaw) (m := 5) (e := ⟨some 2, 3⟩) (by decide) h2 (Nat.succ_pos 2)
  cases h1
  exact ⟨_, _, h2, rfl, rfl, rfl⟩

/-- the tree of the witness is sound and can be repaired -/
example : ∃ (s t : Tree RElem Nat) (h : Nat) (ws : List Nat), updateLeavesU rangeTrait ⟨id, id, id⟩ setOnce 0 s [(0, 0, 1, 7), (1, 0, 1, 8)] = .ok (.error t) ∧
    ws <+: [0, 1] ∧ Unwound rangeLaw 5 h s t ws := by
  obtain ⟨s, t, ⟨h, hi⟩, h1, h2, -⟩ := C91_ranges_lost
  obtain ⟨ws, -, w2, w3, -⟩ := C91_ranges (by decide) hi (ho := ⟨id, id, id⟩) (fun _ => .refl _) setOnce_ok 0 (by
    rw [h1]
    intro a ha e he
    simp only [List.mem_cons, List.not_mem_nil, or_false] at ha he
    rcases ha with rfl | rfl <;> rcases he with he | he <;> cases he <;> decide) h2
  exact ⟨s, t, h, ws, h2, w2, w3⟩

/-- one range in the middle of the element, the closure panics at once: the first unit is left -/
example : firstLeft rangeTrait setOnce [(1, 2, 7)] 1 ⟨some 1, 3⟩ = .ok ⟨some 1, 1⟩ := rfl

/-- the whole element, twice: the second call panics -/
example : firstLeft rangeTrait setOnce [(0, 3, 7), (0, 3, 8)] 0 ⟨some 1, 3⟩ = .ok ⟨some 7, 3⟩ := rfl

/-- a closure for the rope that empties four chunks and panics at the fifth, after emptying it as well -/
def wipeFour (n : Nat) (g : GapBuf) : Except GapBuf (Nat × GapBuf × Option Int) :=
  if n = 4 then .error (GapBuf.new g.capacity) else .ok (n + 1, GapBuf.new g.capacity, some (-(g.len : Int)))

theorem wipeFour_ok (cap : Nat) : KeepsOK (ropeLaw cap) wipeFour := by
  intro st e he
  have he : e.WF ∧ e.capacity = cap := he
  have hn : (GapBuf.new e.capacity).WF ∧ (GapBuf.new e.capacity).capacity = cap := by simp [GapBuf.new, GapBuf.WF, GapBuf.capacity, ← he.2]
  unfold wipeFour
  refine ⟨fun e' h => ?_, fun st' e' d h => ?_⟩ <;> split at h <;> cases h <;> exact hn

/-- The specification on a small sequence: the cut is made, the two chunks before the panic are updated, the fourth chunk is not reached. -/
example : specUnwind ropeTrait wipeFour 2 ⟨4, [(0, ⟨[1, 2, 3, 0], 3, 1⟩), (1, ⟨[4, 5, 6, 0], 3, 1⟩), (2, ⟨[7, 8, 9, 0], 3, 1⟩), (3, ⟨[7, 8, 9, 0], 3, 1⟩)]⟩ ⟨0, 1⟩ ⟨3, 3⟩ =
    .ok (some (⟨5, [(0, ⟨[1, 2, 2, 3], 1, 3⟩), (4, GapBuf.new 4), (1, GapBuf.new 4), (2, GapBuf.new 4), (3, ⟨[7, 8, 9, 0], 3, 1⟩)]⟩, [4, 1, 2])) := rfl

/-- The rope of 30 chunks, from the middle of chunk 3 to the middle of chunk 20: chunk 3 is cut, its second half and chunks 4 to 7 are emptied; five repairs. -/
example : ∃ t s' h', updateU ropeTrait ⟨id, id, id⟩ wipeFour 0 ropeSample ⟨3, 1⟩ ⟨20, 2⟩ = .ok (.error t) ∧ SoundH (ropeLaw 4).okE 5 h' t ∧
    repairRun ropeTrait t ([(abs ropeSample).next + 1, 4, 5, 6, 7].map fun l => .fix l false none) = .ok s' ∧ InvH (ropeLaw 4) 5 h' s' ∧ abs s' = abs t := by
  obtain ⟨sp, hsp⟩ : ∃ sp, specUnwind ropeTrait wipeFour 0 (abs ropeSample) ⟨3, 1⟩ ⟨20, 2⟩ = .ok (some (sp, [(abs ropeSample).next + 1, 4, 5, 6, 7])) := by
    have h0 : abs ropeSample = ⟨(abs ropeSample).next, (abs ropeSample).es⟩ := rfl
    rw [h0]
    generalize (abs ropeSample).next = n
    rw [ropeSample_spec.2]
    exact ⟨_, rfl⟩
  obtain ⟨t, h', u1, u2, -, u3, s', u4, u5, u6⟩ := C91_update (by decide) ropeSample_two (ropeContent 4).splitLen (by rw [ropeSample_es]; decide) ⟨id, id, id⟩ (wipeFour_ok 4) 0
    (a := ⟨3, 1⟩) (b := ⟨20, 2⟩) (ropeSample_at (k := 3) (by decide)) (by decide) (ropeSample_at (k := 20) (by decide)) (by decide) (by decide) (by decide) hsp
  exact ⟨t, s', h', u1, u3, u4, u5, u6.trans u2.symm⟩

/-- a range of three chunks: the closure does not get to its fifth call, so nothing is unwound -/
example (t : Tree GapBuf Int) : updateU ropeTrait ⟨id, id, id⟩ wipeFour 0 ropeSample ⟨3, 0⟩ ⟨5, 3⟩ ≠ .ok (.error t) := by
  intro hu
  obtain ⟨ws, hsp⟩ := (C91_update_iff (by decide) ropeSample_two (ropeContent 4).splitLen (by rw [ropeSample_es]; decide) ⟨id, id, id⟩ (wipeFour_ok 4) 0
    (a := ⟨3, 0⟩) (b := ⟨5, 3⟩) (ropeSample_at (k := 3) (by decide)) (by decide) (ropeSample_at (k := 5) (by decide)) (by decide) (by decide) (by decide) (abs t)).mp ⟨t, hu, rfl⟩
  rw [ropeSample_spec.2] at hsp
  cases hsp

/-- chunk 4 is emptied, then the closure panics -/
example : ∃ t, updateLeafU ropeTrait ropeSample 4 (fun g => .error (GapBuf.new g.capacity)) = .ok (.error t) ∧ (4, GapBuf.new 4) ∈ (abs t).es ∧
    Unwound (ropeLaw 4) 5 2 ropeSample t [4] :=
  C91_leaf (by decide) ropeSample_two (l := 4) (e := chunk 4) (by rw [ropeSample_es]; decide) rfl ⟨GapBuf.new_wf 4, GapBuf.new_capacity 4⟩

/-- byte 34 is in chunk 11 -/
example : ∃ t, bySearchU ropeTrait ropeQuery ropeSample 34 (fun g _ => .error (GapBuf.new g.capacity)) = .ok (.error t) ∧ Unwound (ropeLaw 4) 5 2 ropeSample t [11] := by
  obtain ⟨-, -, -, hq⟩ := ropeSample_query
  obtain ⟨fnd, -, hs⟩ := C91_search (B := ropeTrait) (A := ropeLaw 4) (m := 5) (by decide) ropeSample_two (by decide) hq (ropeSample_at (k := 11) (by decide))
  obtain ⟨t, h1, -, h3⟩ := hs (fun g _ => .error (GapBuf.new g.capacity)) (GapBuf.new 4) (.inl rfl) ⟨GapBuf.new_wf 4, GapBuf.new_capacity 4⟩
  exact ⟨t, h1, h3⟩

/-- the `unimplemented!()`: one chunk; the closure empties it and returns two elements to insert -/
example : ∃ (s t : Tree GapBuf Int), Inv (ropeLaw 4) 5 s ∧
    bySearchU ropeTrait ropeQuery s 1 (fun g _ => .ok (GapBuf.new g.capacity, some (0, some (GapBuf.new 4), some (GapBuf.new 4)))) = .ok (.error t) ∧
    (abs t).es = [(0, GapBuf.new 4)] ∧ ∃ h l, Unwound (ropeLaw 4) 5 h s t [l] := by
  obtain ⟨c, s, h1, ⟨h, hi⟩, h3⟩ := C01_push (B := ropeTrait) (A := ropeLaw 4) (m := 5) (s := newTree ropeTrait) (e := ⟨[1, 2, 3, 0], 3, 1⟩) (by decide) ⟨1, new_inv _ _⟩
    ⟨by simp [GapBuf.WF], rfl⟩
  cases h1
  refine ⟨_, _, ⟨h, hi⟩, rfl, rfl, h, ?_⟩
  refine C91_search_any (by decide) hi (q := ropeQuery) (arg := 1)
    (f := fun g _ => .ok (GapBuf.new g.capacity, some (0, some (GapBuf.new 4), some (GapBuf.new 4)))) (fun e r he => ⟨fun _ h => (by cases h), fun _ _ h => ?_⟩) rfl
  cases h
  have he : e.WF ∧ e.capacity = 4 := he
  rw [he.2]
  exact ⟨GapBuf.new_wf 4, GapBuf.new_capacity 4⟩

end GB
