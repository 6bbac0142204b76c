import Verif.Proof.SkelEdit
import Verif.Props.C43
import Verif.Props.C87

/-!
# C88: histories of all operations and wrong caches

C43 and C49 say what histories of all operations do to a valid tree.  Here the caches of the tree may hold anything, the functions on caches may return anything and
the closures may report any difference.  Still no operation panics, the tree stays valid apart from its caches, and every leaf that no operation of the history
touches keeps its element, its index and its place.

`BOp.sane` (Verif.Proof.SkelEdit) states the preconditions of an operation; none of them mentions a cache.
-/

namespace GB
variable {E C D X : Type}
open Tree

theorem sound_getElem {B : Trait E C D} {okE : E → Prop} (L : ElemLaw B okE) {m : Fill} {h : Nat} {s : Tree E C} (hs : SoundH okE m h s) {l : Nat} {e : E} :
    getElem s l = some e ↔ (l, e) ∈ (abs s).es := by
  have ts := strip_same s
  rw [ts.abs, ← getElem_entries ⟨h, hs.strip L⟩, getElem, getElem, ts.lf]

section
variable {B : Trait E C D} {okE : E → Prop} (L : ElemLaw B okE) (ct : CacheTotal B) {cont : E → List X} (K : ContentLaw B okE cont)
  {ho : HashOrd E} (hho : ∀ l, (ho.idx l).Perm l) (hcur : ∀ l, (ho.cur l).Perm l) (hgrp : ∀ l, (ho.grp l).Perm l)
include L ct K hho hcur hgrp

/-- one operation of any kind -/
theorem C88_step {h : Nat} {s : Tree E C} (hs : SoundH okE ⟨1, 4⟩ h s) {o : BOp E C D} (hv : o.sane B okE s) :
    ∃ s' h', o.run B ho s = .ok s' ∧ SoundH okE ⟨1, 4⟩ h' s' ∧ (o ≠ .basic .clear → Edit (o.touches B s (abs s)) (abs s) (abs s')) := by
  have ts := strip_same s
  have hi := hs.strip L
  by_cases hp : (abs s).es ≠ [] ∨ ∀ e, o ≠ .basic (.prepend e)
  · obtain ⟨t', h1, ⟨h', i1⟩, e1⟩ := bstep (R := fun _ _ _ => True) (bareContent K) (by decide) (.inr (bareLawE L))
      ⟨fun _ _ _ _ => rfl, fun _ _ _ _ _ _ => trivial, fun _ _ _ _ _ _ _ => trivial⟩ hho hcur hgrp ⟨h, hi⟩ (BOp.bare_valid L ts hv hp)
    have hr := BOp.run_rel ct ho ts o
    rw [h1] at hr
    obtain ⟨s', e2, ts'⟩ := hr.of_ok
    refine ⟨s', h', e2, ts'.sound i1.sound, fun hc => ?_⟩
    have := e1 (fun hb => hc (by
      cases o with
      | basic o => cases hb; rfl
      | _ => cases hb))
    rw [ts.abs, ts'.abs]
    refine ⟨fun l e hl he => this.keep l e (fun hx => hl ?_) he, this.order, this.next⟩
    rw [← ts.abs]
    exact (BOp.bare_touches ts o l).mp hx
  · rw [not_or, Classical.not_not] at hp
    obtain ⟨-, hp⟩ := hp
    obtain ⟨e, rfl⟩ : ∃ e, o = .basic (.prepend e) := Classical.byContradiction fun hx => hp fun e he => hx ⟨e, he⟩
    obtain ⟨s', h', h1, h2, h3⟩ := C85_op L ct (by decide) hs (o := .prepend e) hv
    refine ⟨s', h', h1, h3, fun _ => ?_⟩
    obtain ⟨⟨c, t'⟩, h4, h5⟩ := bind_inv h2
    cases h5
    refine prepend_edit (B := B) ?_ h4
    rw [ts.abs]
    exact Inv.seqOK ⟨h, hi⟩

/-- any history -/
theorem C88_history : ∀ (os : List (BOp E C D)) {h : Nat} {s : Tree E C}, SoundH okE ⟨1, 4⟩ h s → saneB B okE ho s os →
    ∃ s' h', runB B ho s os = .ok s' ∧ SoundH okE ⟨1, 4⟩ h' s' ∧ ((∀ o ∈ os, o ≠ .basic .clear) → Edit (touchedB B ho abs s os) (abs s) (abs s')) := by
  intro os
  induction os with
  | nil =>
    intro h s hs _
    refine ⟨s, h, rfl, hs, fun _ => ?_⟩
    rw [(strip_same s).abs]
    exact Edit.refl (Inv.seqOK ⟨h, hs.strip L⟩)
  | cons o os ih =>
    intro h s hs hv
    obtain ⟨s1, h', h1, i1, e1⟩ := C88_step L ct K hho hcur hgrp hs hv.1
    obtain ⟨s2, h'', h2, i2, e2⟩ := ih i1 (hv.2 s1 h1)
    refine ⟨s2, h'', by simp only [runB, h1, bind_ok, h2], i2, fun hc => ?_⟩
    have := (e1 (hc o (by simp))).trans (e2 (fun x hx => hc x (by simp [hx])))
    refine ⟨fun l e hl he => this.keep l e (fun h => hl ?_) he, this.order, this.next⟩
    rcases h with h | h
    · exact .inl h
    · exact .inr ⟨s1, h1, h⟩

/-- what a holder of leaf indices sees: an index that no step touches still denotes the same element, and an index that was given out but is dead stays dead -/
theorem C88_get_elem {os : List (BOp E C D)} {h : Nat} {s : Tree E C} (hs : SoundH okE ⟨1, 4⟩ h s) (hv : saneB B okE ho s os) (hc : ∀ o ∈ os, o ≠ .basic .clear) :
    ∃ s', runB B ho s os = .ok s' ∧ (∀ l e, ¬ touchedB B ho abs s os l → getElem s l = some e → getElem s' l = some e) ∧
      (∀ l, l < (abs s).next → getElem s l = none → getElem s' l = none) := by
  obtain ⟨s', h', h1, i1, h2⟩ := C88_history L ct K hho hcur hgrp os hs hv
  have ed := h2 hc
  refine ⟨s', h1, fun l e hl he => (sound_getElem L i1).mpr (ed.keep l e hl ((sound_getElem L hs).mp he)), ?_⟩
  intro l hl hd
  cases he : getElem s' l with
  | none => rfl
  | some e =>
    exfalso
    have hm : l ∈ (abs s').es.map Prod.fst := List.mem_map.mpr ⟨(l, e), (sound_getElem L i1).mp he, rfl⟩
    have hm' : l ∈ ((abs s').es.map Prod.fst).filter fun l => decide (l < (abs s).next) := List.mem_filter.mpr ⟨hm, by simpa using hl⟩
    obtain ⟨x, hx, hxl⟩ := List.mem_map.mp (ed.order.subset hm')
    have := (sound_getElem L hs).mpr (show (l, x.2) ∈ (abs s).es by rw [← hxl]; exact hx)
    rw [hd] at this
    cases this

end

/-! The tree with wrong caches of C84. -/

theorem junkDepth {s : Tree (Nat × Nat) Nat} {h : Nat} (hs : SoundH (fun e : Nat × Nat => 0 < e.2) 5 h s) (hne : (abs s).es ≠ []) (h8 : h ≤ 8) :
    ∀ d, depth s = .ok d → d ≤ 8 := by
  have ts := strip_same s
  have hi := hs.strip junkElems
  rw [depth_rel ts]
  rw [ts.abs] at hne
  obtain ⟨lvl, g⟩ := hi.ex
  intro d hd
  rw [depth_spec g.wf (hi.ne (by decide)) (fun h => hne ((abs_nil hi).mpr h))] at hd
  cases hd
  exact h8

/-- a change of three elements that reports nonsense, a push, and a removal -/
example : ∃ s s' h', runAll junkTrait (newTree junkTrait) junkOps = .ok s ∧
    runB junkTrait ⟨List.reverse, List.reverse, List.reverse⟩ s [.update junkFn 10 ⟨0, 1⟩ ⟨2, 1⟩, .basic (.push (4, 4)), .basic (.remove ⟨3, 0⟩)] = .ok s' ∧
    SoundH (fun e : Nat × Nat => 0 < e.2) ⟨1, 4⟩ h' s' := by
  obtain ⟨s, h, h1, he, hs, h8⟩ := junkTree
  obtain ⟨s', h', p1, p2, -⟩ := C88_history junkElems junkTotal junkContent (ho := ⟨List.reverse, List.reverse, List.reverse⟩)
    List.reverse_perm List.reverse_perm List.reverse_perm [.update junkFn 10 ⟨0, 1⟩ ⟨2, 1⟩, .basic (.push (4, 4)), .basic (.remove ⟨3, 0⟩)]
    (s := s) ⟨hs.ex, Sz.mono hs.sz (by decide) (by decide), hs.okE⟩
    ⟨⟨junkDepth hs (by rw [he]; simp) h8, by
      rw [he]
      exact ⟨by decide, [], (1, 2), [(3, (3, 1)), (2, (1, 3))], [(0, (1, 2)), (3, (3, 1))], (1, 3), [], rfl, by decide, rfl, by decide, by decide⟩,
      fun _ _ h => ⟨_, _, _, rfl, h⟩⟩, fun _ _ => ⟨Nat.succ_pos 3, fun _ _ => ⟨trivial, fun _ _ => trivial⟩⟩⟩
  exact ⟨s, s', h', h1, p1, p2⟩

/-- a search that wrong caches lead anywhere, and a removal: the leaves where the search does not end keep their elements -/
example (n : Nat) : ∃ s r s', runAll junkTrait (newTree junkTrait) junkOps = .ok s ∧ query junkQuery s n = .ok (some r) ∧
    runB junkTrait ⟨id, id, id⟩ s [.bySearch junkQuery n junkHalve, .basic (.remove ⟨3, 0⟩)] = .ok s' ∧
    (r.cursor.leaf ≠ 0 → getElem s' 0 = some (1, 2)) ∧ (r.cursor.leaf ≠ 2 → getElem s' 2 = some (1, 3)) ∧ getElem s' 1 = none := by
  obtain ⟨s, h, h1, he, hs, h8⟩ := junkTree
  have hs' : SoundH (fun e : Nat × Nat => 0 < e.2) ⟨1, 4⟩ h s := ⟨hs.ex, Sz.mono hs.sz (by decide) (by decide), hs.okE⟩
  obtain ⟨U, e, V, r, p1, -, p3⟩ := C86_query (by decide) hs (by rw [he]; simp) (junkPicks n) (fun _ _ _ => trivial) (junkOffset n)
  have hmem : (r.cursor.leaf, e) ∈ (abs s).es := by rw [p1]; simp
  have hpos : 0 < e.2 := hs.okEs _ hmem
  have hf : ∀ fnd, ∃ e1 d n1, junkHalve e ⟨r.cursor, fnd⟩ = .ok (e1, some (d, n1, none)) ∧ 0 < e1.2 ∧ (∀ a, n1 = some a → 0 < a.2) ∧ (junkTrait.canRemove e1 = true → n1 = none) := by
    intro fnd
    simp only [junkHalve]
    split
    · exact ⟨_, _, _, rfl, Nat.succ_pos 4, (fun _ h => by cases h), fun _ => rfl⟩
    · refine ⟨_, _, _, rfl, Nat.succ_pos 0, (fun _ h => by cases h; show 0 < e.2 - 1; omega), fun h => ?_⟩
      cases h
  obtain ⟨s', q1, q2, q3⟩ := C88_get_elem junkElems junkTotal junkContent (ho := ⟨id, id, id⟩) (fun _ => .refl _) (fun _ => .refl _) (fun _ => .refl _)
    (os := [.bySearch junkQuery n junkHalve, .basic (.remove ⟨3, 0⟩)]) hs' ⟨⟨fun d hd => by have := junkDepth hs (by rw [he]; simp) h8 d hd; omega, r, e, p3, hmem, fun fnd => .inl (hf fnd)⟩,
      fun _ _ => ⟨trivial, fun _ _ => trivial⟩⟩ (by simp)
  have key : ∀ l, l ≠ r.cursor.leaf → l ≠ 3 → ¬ touchedB junkTrait ⟨id, id, id⟩ abs s [.bySearch junkQuery n junkHalve, .basic (.remove ⟨3, 0⟩)] l := by
    rintro l hl h3 (⟨r', hr, rfl⟩ | ⟨_, -, hx | ⟨_, -, hx⟩⟩)
    · rw [p3] at hr
      cases hr
      exact hl rfl
    · exact h3 hx
    · exact hx
  refine ⟨s, r, s', h1, p3, q1, fun hl => q2 0 _ (key 0 (Ne.symm hl) (by decide)) ((sound_getElem junkElems hs).mpr (by rw [he]; decide)),
    fun hl => q2 2 _ (key 2 (Ne.symm hl) (by decide)) ((sound_getElem junkElems hs).mpr (by rw [he]; decide)), q3 1 (by rw [he]; decide) ?_⟩
  cases hg : getElem s 1 with
  | none => rfl
  | some x =>
    have := (sound_getElem junkElems hs).mp hg
    rw [he] at this
    simp at this

/-- prepending to the empty tree -/
example := C88_step junkElems junkTotal junkContent (ho := ⟨id, id, id⟩) (fun _ => .refl _) (fun _ => .refl _) (fun _ => .refl _) (h := 1) (s := newTree junkTrait)
  (let hs := C85_new junkElems; ⟨hs.ex, Sz.mono hs.sz (by decide) (by decide), hs.okE⟩) (o := .basic (.prepend (3, 3))) (Nat.succ_pos 2)

end GB
