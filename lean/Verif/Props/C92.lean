import Verif.Proof.UnwindSound
import Verif.Props.C88
import Verif.Props.C91

/-!
# C92: Histories in which panics of closures are caught

C91 is about one call on a valid tree.  Here a program catches every panic of a closure and goes on with the tree that is left, through any number of further operations and further caught panics, without ever repairing
a cache.  No operation goes wrong because of what an earlier panic left; the tree stays sound; leaves that no step touched keep their elements; and recomputing the caches of all leaves at the end makes the tree valid.
-/

namespace GB
variable {E C D X : Type}
open Tree

/-- A step that is called correctly.  In the last four the closure does panic, at some valid call, and leaves a valid element. -/
def UOp.sane {B : Trait E C D} (A : Law B) (ho : HashOrd E) (s : Tree E C) : UOp E C D → Prop
  | .op o => o.sane B A.okE s
  | .update f st a b => (∀ d, depth s = .ok d → d ≤ 8) ∧ InRange B (abs s) a b ∧ KeepsOK A f ∧ ∃ r, specUnwind B f st (abs s) a b = .ok (some r)
  | .leaf l f => ∃ e e', (l, e) ∈ (abs s).es ∧ f e = .error e' ∧ A.okE e'
  | .search q arg f => (∀ d, depth s = .ok d → d ≤ 10) ∧ ∃ r e, query q s arg = .ok (some r) ∧ (r.cursor.leaf, e) ∈ (abs s).es ∧
      ∀ fnd, ∃ e', A.okE e' ∧ (f e ⟨r.cursor, fnd⟩ = .error e' ∨ ∃ d n1 n2, f e ⟨r.cursor, fnd⟩ = .ok (e', some (d, n1, some n2)))
  | .ranges f st args => KeepsArg A f ∧ (∀ a ∈ args, ∀ e, (a.1, e) ∈ (abs s).es → a.2.1 ≤ a.2.2.1 ∧ a.2.2.1 ≤ B.rleLen e) ∧ ∃ t, updateLeavesU B ho f st s args = .ok (.error t)

/-- every step of a history is called correctly -/
def saneU {B : Trait E C D} (A : Law B) (ho : HashOrd E) : Tree E C → List (UOp E C D) → Prop
  | _, [] => True
  | s, o :: os => o.sane A ho s ∧ ∀ s', o.run B ho s = .ok s' → saneU A ho s' os

section
variable {B : Trait E C D} {A : Law B} (ct : CacheTotal B) {cont : E → List X} (K : ContentLaw B A.okE cont)
  {ho : HashOrd E} (hho : ∀ l, (ho.idx l).Perm l) (hcur : ∀ l, (ho.cur l).Perm l) (hgrp : ∀ l, (ho.grp l).Perm l)
include ct K hho hcur hgrp

/-- One step on a tree whose caches may be anything: it does not go wrong, the tree stays sound, and only the leaves that the step touches are changed. -/
theorem C92_step {h : Nat} {s : Tree E C} (hs : SoundH A.okE ⟨1, 4⟩ h s) {o : UOp E C D} (hv : o.sane A ho s) :
    ∃ s' h', o.run B ho s = .ok s' ∧ SoundH A.okE ⟨1, 4⟩ h' s' ∧ (o ≠ .op (.basic .clear) → Edit (o.touches B s (abs s)) (abs s) (abs s')) := by
  obtain ⟨lvl, w⟩ := hs.ex
  have L := elemsOf A
  cases o with
  | op o =>
    obtain ⟨s', h', h1, h2, h3⟩ := C88_step L ct K hho hcur hgrp hs hv
    exact ⟨s', h', h1, h2, fun hc => h3 fun he => hc (by rw [he])⟩
  | update f st a b =>
    obtain ⟨hd, hin, hf, ⟨sp, ws⟩, hsp⟩ := hv
    have hne : (abs s).es ≠ [] := by
      obtain ⟨-, Ua, ea, Va, -, -, -, ha, -⟩ := hin
      rw [ha]; simp
    obtain ⟨t, h', u1, u2, rfl, u4⟩ := updateU_sound (by decide) (by decide) ct (ho := ho) hf st hs K.splitLen hin (hd h (sound_depth L (by decide) hs hne)) hsp
    exact ⟨t, h', by simp only [UOp.run, u1, bind_ok, pure_ok, caught], u2, fun _ => u4⟩
  | leaf l f =>
    obtain ⟨e, e', hl, hf, he⟩ := hv
    have hel : elm s l = some e := (entries_mem w).mp hl
    obtain ⟨⟨x, q⟩, hL, rfl⟩ := Option.map_eq_some_iff.mp hel
    have o := (Over.refl hs.okE).set hL he
    have hf : f x = .error e' := hf
    exact ⟨_, h, by simp only [UOp.run, updateLeafU, getLf_ok hL, bind_ok, hf, pure_ok, caught], o.soundS hs, fun _ => o.edit w (by simp [UOp.touches])⟩
  | search q arg f =>
    obtain ⟨hd, r, e, hq, hm, hf⟩ := hv
    have hne : (abs s).es ≠ [] := List.ne_nil_of_mem hm
    obtain ⟨t, u1, u2⟩ := bySearchU_sound w (Sz.ne hs.sz (by decide)) (hd h (sound_depth L (by decide) hs hne)) hs.okE hq hm hf
    exact ⟨t, h, by simp only [UOp.run, u1, bind_ok, pure_ok, caught], u2.soundS hs, fun _ => u2.edit w (by simp only [List.mem_singleton]; rintro l rfl; exact ⟨r, hq, rfl⟩)⟩
  | ranges f st args =>
    obtain ⟨hf, hin, t, hu⟩ := hv
    obtain ⟨ws, w1, w2⟩ := updateLeavesU_over w hs.okE hgrp hf st hin hu
    exact ⟨t, h, by simp only [UOp.run, hu, bind_ok, pure_ok, caught], w2.soundS hs, fun _ => w2.edit w fun l hl => List.mem_map.mpr (w1 l hl)⟩

/-- Any history. -/
theorem C92_history : ∀ (os : List (UOp E C D)) {h : Nat} {s : Tree E C}, SoundH A.okE ⟨1, 4⟩ h s → saneU A ho s os →
    ∃ s' h', runU B ho s os = .ok s' ∧ SoundH A.okE ⟨1, 4⟩ h' s' ∧ ((∀ o ∈ os, o ≠ .op (.basic .clear)) → Edit (touchedU B ho abs s os) (abs s) (abs s')) := by
  intro os
  induction os with
  | nil =>
    intro h s hs _
    refine ⟨s, h, rfl, hs, fun _ => ?_⟩
    rw [(strip_same s).abs]
    exact Edit.refl (Inv.seqOK ⟨h, hs.strip (elemsOf A)⟩)
  | cons o os ih =>
    intro h s hs hv
    obtain ⟨s1, h', h1, i1, e1⟩ := C92_step ct K hho hcur hgrp hs hv.1
    obtain ⟨s2, h'', h2, i2, e2⟩ := ih i1 (hv.2 s1 h1)
    refine ⟨s2, h'', by simp only [runU, h1, bind_ok, h2], i2, fun hc => ?_⟩
    have := (e1 (hc o (by simp))).trans (e2 (fun x hx => hc x (by simp [hx])))
    refine ⟨fun l e hl he => this.keep l e (fun h => hl ?_) he, this.order, this.next⟩
    rcases h with h | h
    · exact .inl h
    · exact .inr ⟨s1, h1, h⟩

/-- What a holder of leaf indices sees: an index that no step touches still denotes the same element, and an index that was given out but is dead stays dead. -/
theorem C92_get_elem {os : List (UOp E C D)} {h : Nat} {s : Tree E C} (hs : SoundH A.okE ⟨1, 4⟩ h s) (hv : saneU A ho s os) (hc : ∀ o ∈ os, o ≠ .op (.basic .clear)) :
    ∃ s', runU B ho s os = .ok s' ∧ (∀ l e, ¬ touchedU B ho abs s os l → getElem s l = some e → getElem s' l = some e) ∧
      (∀ l, l < (abs s).next → getElem s l = none → getElem s' l = none) := by
  have L := elemsOf A
  obtain ⟨s', h', h1, i1, h2⟩ := C92_history ct K hho hcur hgrp os hs hv
  have ed := h2 hc
  refine ⟨s', h1, fun l e hl he => (sound_getElem L i1).mpr (ed.keep l e hl ((sound_getElem L hs).mp he)), ?_⟩
  intro l hl hd
  cases he : getElem s' l with
  | none => rfl
  | some e =>
    exfalso
    have hm : l ∈ (abs s').es.map Prod.fst := List.mem_map.mpr ⟨(l, e), (sound_getElem L i1).mp he, rfl⟩
    have hm' : l ∈ ((abs s').es.map Prod.fst).filter fun l => decide (l < (abs s).next) := List.mem_filter.mpr ⟨hm, by simpa using hl⟩
    obtain ⟨x, hx, hxl⟩ := List.mem_map.mp (ed.order.subset hm')
    have := (sound_getElem L hs).mpr (show (l, x.2) ∈ (abs s).es by rw [← hxl]; exact hx)
    rw [hd] at this
    cases this

/-- Any history from a valid tree, then the repair: the tree is valid and has the elements that the history left. -/
theorem C92_repair (W : CalcW A fun _ => True) {s : Tree E C} (hi : Inv A ⟨1, 4⟩ s) {os : List (UOp E C D)} (hv : saneU A ho s os) :
    ∃ s', runU B ho s os = .ok s' ∧ ((abs s').es ≠ [] → ∀ ls : List Nat, (∀ l, l ∈ ls ↔ l ∈ (abs s').es.map Prod.fst) →
      ∃ s'', repairRun B s' (ls.map fun l => .fix l false none) = .ok s'' ∧ Inv A ⟨1, 4⟩ s'' ∧ abs s'' = abs s') := by
  obtain ⟨h, hi⟩ := hi
  obtain ⟨s', h', h1, h2, -⟩ := C92_history ct K hho hcur hgrp os hi.sound hv
  refine ⟨s', h1, fun hne ls hl => ?_⟩
  obtain ⟨s'', g1, g2, g3, -⟩ := C89_repair W (by decide) h2 (fun _ _ _ => trivial) hne hl
  exact ⟨s'', g1, ⟨h', g2⟩, g3⟩

omit hho hcur hgrp in
/-- `update` again, where elements of length 0 are allowed (an earlier panic may have left some): the cursors are in order by their leaves. -/
theorem C92_update_empty {σ : Type} {h : Nat} {s : Tree E C} (hs : SoundH A.okE ⟨1, 4⟩ h s) {f : σ → E → Except E (σ × E × Option D)} (hf : KeepsOK A f) (st : σ)
    {a b : Cursor} {Ua Va Ub Vb : List (Nat × E)} {ea eb : E} (ha : (abs s).es = Ua ++ (a.leaf, ea) :: Va) (hoa : a.offset ≤ B.rleLen ea)
    (hb : (abs s).es = Ub ++ (b.leaf, eb) :: Vb) (hob : b.offset ≤ B.rleLen eb) (hab : (∃ P, Ub = Ua ++ (a.leaf, ea) :: P) ∨ (a.leaf = b.leaf ∧ a.offset ≤ b.offset))
    (hd : ∀ d, depth s = .ok d → d ≤ 8) {sp : Seq E} {ws : List Nat} (hsp : specUnwind B f st (abs s) a b = .ok (some (sp, ws))) :
    ∃ t h', updateU B ho f st s a b = .ok (.error t) ∧ SoundH A.okE ⟨1, 4⟩ h' t ∧ abs t = sp := by
  obtain ⟨lvl, w⟩ := hs.ex
  have hne : (abs s).es ≠ [] := by rw [ha]; simp
  obtain ⟨ua, va, o1, rfl, -, hea⟩ := entries_split w ha
  obtain ⟨ub, vb, o2, rfl, -, heb⟩ := entries_split w hb
  have live : ∀ ls : List Nat, (∀ l ∈ ls, l ∈ order s) → (entriesOf s ls).map Prod.fst = ls := fun ls h => entriesOf_fst w fun l hl => (mem_order w).mp (h l hl)
  obtain ⟨t, h', u1, u2, u3, -⟩ := updateU_core (by decide) (by decide) ct (ho := ho) hf st hs K.splitLen o1 hea hoa o2 heb hob (by
    rcases hab with ⟨P, hP⟩ | hab
    · refine .inl ⟨P.map Prod.fst, ?_⟩
      have := congrArg (List.map Prod.fst) hP
      rw [live ub (by rw [o2]; intro l hl; simp [hl]), List.map_append, live ua (by rw [o1]; intro l hl; simp [hl])] at this
      exact this
    · exact .inr (.inl hab)) (hd h (sound_depth (elemsOf A) (by decide) hs hne)) hsp
  exact ⟨t, h', u1, u2, u3⟩

end

theorem rangeTotal : CacheTotal rangeTrait := ⟨fun _ _ => ⟨_, rfl⟩, fun _ _ => ⟨_, rfl⟩⟩

/-- a closure for `update` that sets two values and panics in the third call, after setting that value as well -/
def thirdPanics (n : Nat) (e : RElem) : Except RElem (Nat × RElem × Option Int) :=
  if n = 2 then .error { e with value := some 9 } else .ok (n + 1, { e with value := some (10 + n) }, none)

theorem thirdPanics_ok : KeepsOK rangeLaw thirdPanics := by
  intro st e he
  unfold thirdPanics
  refine ⟨fun e' h => ?_, fun st' e' d h => ?_⟩ <;> split at h <;> cases h <;> exact he

/-- the two elements of `C91_ranges_lost` -/
def twoRanges : M (Tree RElem Nat) := do
  let (_, s) ← push rangeTrait (newTree rangeTrait) ⟨some 1, 3⟩
  let (_, s) ← push rangeTrait s ⟨some 2, 3⟩
  pure s

/-- a caught panic that loses four units, a push, a caught panic of `update` that leaves a cut, a caught panic of `update_leaf`, another push -/
def panicky : List (UOp RElem Nat Int) :=
  [.ranges setOnce 0 [(0, 0, 1, 7), (1, 0, 1, 8)], .op (.basic (.push ⟨some 5, 4⟩)), .update thirdPanics 0 ⟨0, 0⟩ ⟨2, 2⟩, .leaf 1 fun e => .error { e with len := 6 }, .op (.basic (.push ⟨some 3, 1⟩))]

example : ∃ s s' s'', twoRanges = .ok s ∧ runU rangeTrait ⟨id, id, id⟩ s panicky = .ok s' ∧
    (abs s').es = [(0, ⟨some 10, 1⟩), (1, ⟨some 11, 6⟩), (2, ⟨some 9, 2⟩), (3, ⟨some 5, 2⟩), (4, ⟨some 3, 1⟩)] ∧
    s'.rootCache ≠ 12 ∧ repairRun rangeTrait s' ([0, 1, 2, 3, 4].map fun l => .fix l false none) = .ok s'' ∧ Inv rangeLaw ⟨1, 4⟩ s'' ∧ abs s'' = abs s' ∧ s''.rootCache = 12 := by
  obtain ⟨c, s, h1, h2, h3⟩ := C01_push (B := rangeTrait) (A := rangeLaw) (m := ⟨1, 4⟩) (s := newTree rangeTrait) (e := ⟨some 1, 3⟩) (by decide) ⟨1, new_inv _ _⟩ (Nat.succ_pos 2)
  cases h1
  obtain ⟨c, s, h1, h2, h3⟩ := C01_push (B := rangeTrait) (A := rangeLaw) (m := ⟨1, 4⟩) (e := ⟨some 2, 3⟩) (by decide) h2 (Nat.succ_pos 2)
  cases h1
  obtain ⟨s', r1, r2⟩ := C92_repair rangeTotal rangeContent (ho := ⟨id, id, id⟩) (fun _ => .refl _) (fun _ => .refl _) (fun _ => .refl _) C89_range h2 (os := panicky) (by
    refine ⟨⟨setOnce_ok, ?_, _, rfl⟩, fun s1 q1 => ?_⟩
    · intro a ha e he
      have he : (a.1, e) ∈ [(0, (⟨some 1, 3⟩ : RElem)), (1, ⟨some 2, 3⟩)] := he
      simp only [List.mem_cons, List.not_mem_nil, or_false] at ha he
      rcases ha with rfl | rfl <;> rcases he with he | he <;> cases he <;> decide
    cases q1
    refine ⟨Nat.succ_pos 3, fun s1 q1 => ?_⟩
    cases q1
    refine ⟨⟨fun d hd => ?_, ⟨?_, [], ⟨some 7, 1⟩, [(1, ⟨some 2, 1⟩), (2, ⟨some 5, 4⟩)], [(0, ⟨some 7, 1⟩), (1, ⟨some 2, 1⟩)], ⟨some 5, 4⟩, [], rfl, by decide, rfl, by decide, by decide⟩,
      thirdPanics_ok, _, rfl⟩, fun s1 q1 => ?_⟩
    · cases hd; decide
    · intro x hx
      have hx : x ∈ [(0, (⟨some 7, 1⟩ : RElem)), (1, ⟨some 2, 1⟩), (2, ⟨some 5, 4⟩)] := hx
      simp only [List.mem_cons, List.not_mem_nil, or_false] at hx
      rcases hx with rfl | rfl | rfl <;> decide
    cases q1
    refine ⟨⟨⟨some 11, 1⟩, _, ?_, rfl, Nat.succ_pos 5⟩, fun s1 q1 => ?_⟩
    · show (1, (⟨some 11, 1⟩ : RElem)) ∈ [(0, (⟨some 10, 1⟩ : RElem)), (1, ⟨some 11, 1⟩), (2, ⟨some 9, 2⟩), (3, ⟨some 5, 2⟩)]
      simp
    cases q1
    exact ⟨Nat.succ_pos 0, fun _ _ => trivial⟩)
  cases r1
  obtain ⟨s'', g1, g2, g3⟩ := r2 (by intro h; cases h) [0, 1, 2, 3, 4] (fun l => Iff.rfl)
  refine ⟨_, _, s'', rfl, rfl, rfl, by decide, g1, g2, g3, ?_⟩
  rw [C07_root_cache (by decide) g2 (by rw [g3]; intro h; cases h), g3]
  rfl

/-- `update_leaf_by_search` for byte 34 of the rope of 30 chunks panics after emptying chunk 11; afterwards chunk 4 is emptied by a panic, too -/
example : ∃ s', runU ropeTrait ⟨id, id, id⟩ ropeSample [.search ropeQuery 34 (fun g _ => .error (GapBuf.new g.capacity)), .leaf 4 fun g => .error (GapBuf.new g.capacity)] = .ok s' ∧
    ∀ ls : List Nat, (∀ l, l ∈ ls ↔ l ∈ (abs s').es.map Prod.fst) → (abs s').es ≠ [] →
      ∃ s'', repairRun ropeTrait s' (ls.map fun l => .fix l false none) = .ok s'' ∧ Inv (ropeLaw 4) ⟨1, 4⟩ s'' ∧ abs s'' = abs s' := by
  obtain ⟨-, -, -, hq⟩ := ropeSample_query
  have hi : InvH (ropeLaw 4) ⟨1, 4⟩ 2 ropeSample := ⟨ropeSample_two.ex, Sz.mono ropeSample_two.sz (by decide) (by decide)⟩
  have hne : (abs ropeSample).es ≠ [] := by rw [ropeSample_at (k := 4) (by decide)]; simp
  have ok4 : (ropeLaw 4).okE (GapBuf.new 4) := ⟨GapBuf.new_wf 4, GapBuf.new_capacity 4⟩
  have hsane : UOp.sane (ropeLaw 4) ⟨id, id, id⟩ ropeSample (.search ropeQuery 34 (fun g _ => .error (GapBuf.new g.capacity)) : UOp GapBuf Int Int) :=
    ⟨fun d hd => by rw [sound_depth (elemsOf (ropeLaw 4)) (by decide) hi.sound hne] at hd; cases hd; decide, _, chunk 11, hq,
      (by rw [ropeSample_at (k := 11) (by decide)]; simp), fun _ => ⟨_, ok4, .inl rfl⟩⟩
  have ct : CacheTotal ropeTrait := ⟨fun _ _ => ⟨_, rfl⟩, fun _ _ => ⟨_, rfl⟩⟩
  obtain ⟨s', r1, r2⟩ := C92_repair ct (ropeContent 4) (ho := ⟨id, id, id⟩) (fun _ => .refl _) (fun _ => .refl _) (fun _ => .refl _) (C89_rope 4) ⟨2, hi⟩
    (os := [.search ropeQuery 34 (fun g _ => .error (GapBuf.new g.capacity)), .leaf 4 fun g => .error (GapBuf.new g.capacity)]) (by
      refine ⟨hsane, fun s1 q1 => ⟨?_, fun _ _ => trivial⟩⟩
      obtain ⟨s2, h2, k1, -, k3⟩ := C92_step ct (ropeContent 4) (ho := ⟨id, id, id⟩) (fun _ => .refl _) (fun _ => .refl _) (fun _ => .refl _) hi.sound hsane
      rw [k1] at q1
      cases q1
      refine ⟨chunk 4, _, (k3 (fun h => by cases h)).keep 4 (chunk 4) ?_ (by rw [ropeSample_at (k := 4) (by decide)]; simp), rfl, ok4⟩
      rintro ⟨r, hr, h4⟩
      rw [hq] at hr
      cases hr
      cases h4)
  exact ⟨s', r1, fun ls hl hne => r2 hne ls hl⟩

/-- chunk 7 does not notice that chunk 4 was emptied by a panic -/
example : ∃ s', runU ropeTrait ⟨id, id, id⟩ ropeSample [.leaf 4 fun g => .error (GapBuf.new g.capacity)] = .ok s' ∧ getElem s' 7 = some (chunk 7) := by
  have hi : InvH (ropeLaw 4) ⟨1, 4⟩ 2 ropeSample := ⟨ropeSample_two.ex, Sz.mono ropeSample_two.sz (by decide) (by decide)⟩
  obtain ⟨s', h1, h2, -⟩ := C92_get_elem (B := ropeTrait) (A := ropeLaw 4) ⟨fun _ _ => ⟨_, rfl⟩, fun _ _ => ⟨_, rfl⟩⟩ (ropeContent 4) (ho := ⟨id, id, id⟩)
    (fun _ => .refl _) (fun _ => .refl _) (fun _ => .refl _) (os := [.leaf 4 fun g => .error (GapBuf.new g.capacity)]) hi.sound
    ⟨⟨chunk 4, _, by rw [ropeSample_at (k := 4) (by decide)]; simp, rfl, GapBuf.new_wf 4, GapBuf.new_capacity 4⟩, fun _ _ => trivial⟩
    (by intro o ho; cases List.mem_singleton.mp ho; intro h; cases h)
  refine ⟨s', h1, h2 7 _ ?_ ((sound_getElem (elemsOf (ropeLaw 4)) hi.sound).mpr (by rw [ropeSample_at (k := 7) (by decide)]; simp))⟩
  rintro (h | ⟨_, -, h⟩)
  · exact absurd (show 7 = 4 from h) (by decide)
  · exact h

/-- Two chunks; a panic of `update_leaf` empties the first one, and a panic of `update` over both then empties the second one. -/
example : ∃ (s s1 t : Tree GapBuf Int) (h : Nat), Inv (ropeLaw 4) ⟨1, 4⟩ s ∧ updateLeafU ropeTrait s 0 (fun g => .error (GapBuf.new g.capacity)) = .ok (.error s1) ∧
    updateU ropeTrait ⟨id, id, id⟩ wipeFour 3 s1 ⟨0, 0⟩ ⟨1, 3⟩ = .ok (.error t) ∧ SoundH (ropeLaw 4).okE ⟨1, 4⟩ h t ∧ (abs t).es = [(0, GapBuf.new 4), (1, GapBuf.new 4)] := by
  obtain ⟨c, s, h1, h2, h3⟩ := C01_push (B := ropeTrait) (A := ropeLaw 4) (m := ⟨1, 4⟩) (s := newTree ropeTrait) (e := ⟨[1, 2, 3, 0], 3, 1⟩) (by decide) ⟨1, new_inv _ _⟩
    ⟨by simp [GapBuf.WF], rfl⟩
  cases h1
  obtain ⟨c, s, h1, ⟨h, hi⟩, h3⟩ := C01_push (B := ropeTrait) (A := ropeLaw 4) (m := ⟨1, 4⟩) (e := ⟨[4, 5, 6, 0], 3, 1⟩) (by decide) h2 ⟨by simp [GapBuf.WF], rfl⟩
  cases h1
  have hok : (ropeLaw 4).okE (GapBuf.new 4) := ⟨GapBuf.new_wf 4, GapBuf.new_capacity 4⟩
  obtain ⟨s1, k1, -, k2⟩ := C91_leaf (by decide) hi (l := 0) (e := ⟨[1, 2, 3, 0], 3, 1⟩) (e' := GapBuf.new 4) (.head _)
    (f := fun g => .error (GapBuf.new g.capacity)) rfl hok
  have hs := k2.sound
  cases k1
  obtain ⟨t, h', u1, u2, u3⟩ := C92_update_empty (B := ropeTrait) (A := ropeLaw 4) ⟨fun _ _ => ⟨_, rfl⟩, fun _ _ => ⟨_, rfl⟩⟩ (ropeContent 4) (ho := ⟨id, id, id⟩) hs (wipeFour_ok 4) 3
    (a := ⟨0, 0⟩) (b := ⟨1, 3⟩) (Ua := []) (ea := GapBuf.new 4) (Va := [(1, ⟨[4, 5, 6, 0], 3, 1⟩)]) rfl (Nat.zero_le _) (Ub := [(0, GapBuf.new 4)]) (eb := ⟨[4, 5, 6, 0], 3, 1⟩) (Vb := []) rfl
    (by decide) (.inl ⟨[], rfl⟩) (by intro d hd; cases hd; decide) (sp := ⟨2, [(0, GapBuf.new 4), (1, GapBuf.new 4)]⟩) (ws := [0, 1]) rfl
  exact ⟨_, _, t, h', ⟨h, hi⟩, rfl, u1, u2, by rw [u3]⟩

end GB
