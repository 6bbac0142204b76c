import Verif.Proof.SkelInv
import Verif.Proof.Iter
import Verif.Proof.Content
import Verif.Props.C06

/-!
# C84: wrong caches lose no element

The functions on caches (`calc_cache_internal`, `apply_cache_diff`, `get_elem_cache`, …) are supplied by the user of the crate, and
the bug of `prepend` (C02) shows that stored caches can be wrong even if these are right.  Nothing in `push`, `prepend`, `insert_by_path`, `remove_leaf` and
`clear` looks at a cache to decide what to do.  So whatever the caches hold, the tree has the same nodes, the same links and the same elements.  Only
searches by cache go wrong.

`TreeSame s t` (Verif.Spec.Skel) says that the two trees are the same node for node but for the caches.  `bare B` is the trait without caches.
-/

namespace GB
variable {E C C' D D' : Type}
open Tree

section
variable {B : Trait E C D} {B' : Trait E C' D'} (hb : ElemSame B B') (ct : CacheTotal B) (ct' : CacheTotal B') {s : Tree E C} {t : Tree E C'}
include hb ct ct'

/-- `push` returns the same and does the same to two trees that differ in their caches, with cache functions that differ too -/
theorem C84_push (h : TreeSame s t) (e : E) :
    MRel (fun a b => a.1 = b.1 ∧ TreeSame a.2 b.2) (push B s e) (push B' t e) := (push_rel hb ct ct' h e).imp fun _ _ h => ⟨h.1, h.2⟩

/-- the same for `prepend` -/
theorem C84_prepend (h : TreeSame s t) (e : E) :
    MRel (fun a b => a.1 = b.1 ∧ TreeSame a.2 b.2) (prepend B s e) (prepend B' t e) := (prepend_rel hb ct ct' h e).imp fun _ _ h => ⟨h.1, h.2⟩

/-- the same for `insert_by_path`, whatever the cursor is; a call fails on the one tree exactly if it does on the other -/
theorem C84_insert (h : TreeSame s t) (c : Cursor) (e : E) :
    MRel (fun a b => a.1 = b.1 ∧ TreeSame a.2 b.2) (insertByPath B s c e) (insertByPath B' t c e) :=
  (insertByPath_rel hb ct ct' h c e).imp fun _ _ h => ⟨h.1, h.2⟩

/-- the same for `remove_leaf`, whatever the cursor is -/
theorem C84_remove (h : TreeSame s t) (c : Cursor) :
    MRel (fun a b => a.1 = b.1 ∧ TreeSame a.2 b.2) (removeLeaf B s c) (removeLeaf B' t c) :=
  (removeLeaf_rel hb ct ct' h c).imp fun _ _ h => ⟨h.1, h.2⟩

/-- the same for every history -/
theorem C84_same (h : TreeSame s t) (os : List (Op E)) : MRel TreeSame (runAll B s os) (runAll B' t os) := runAll_rel hb ct ct' os h

end

/-- two such trees hold the same elements in the same leaves, in the same order -/
theorem C84_content {s : Tree E C} {t : Tree E C'} (h : TreeSame s t) : abs s = abs t := h.abs

/-- Every history on a new tree, with any functions on caches that do not panic: no operation fails, the elements are those of the abstract
sequence, and the tree without its caches is valid.  The iterator visits all the elements (C14), and `check()`
of the tree without its caches passes. -/
theorem C84_history {B : Trait E C D} {okE : E → Prop} (L : ElemLaw B okE) (ct : CacheTotal B) {os : List (Op E)} (hv : fitsAll B okE ⟨0, []⟩ os) :
    ∃ s, runAll B (newTree B) os = .ok s ∧ specAll B ⟨0, []⟩ os = .ok (abs s) ∧
      (∃ t : Tree E Unit, TreeSame s t ∧ Inv (bareLaw L) 5 t ∧ ((abs s).es.length < 3906250 → check (bare B) t = .ok ())) ∧
      ((abs s).es.length < 3906250 → iter s = .ok ((abs s).es.map Prod.snd)) := by
  obtain ⟨t, h1, hi, h2⟩ := bare_run L (m := 5) (by decide) os (t := newTree (bare B)) ⟨1, new_inv _ 5⟩ (by rw [new_entries]; exact hv)
  rw [new_entries] at h2
  have hr := runAll_rel (bare_same B) ct (bare_total B) os (newTree_rel B (bare B))
  rw [h1] at hr
  generalize runAll B (newTree B) os = r at hr
  cases hr with
  | @ok s _ hs =>
    refine ⟨s, rfl, by rw [hs.abs]; exact h2, ⟨t, hs, hi, ?_⟩, ?_⟩
    · intro hn
      rw [hs.abs] at hn
      obtain ⟨h, h9, hi⟩ := hi.low (by decide) hn
      obtain ⟨lvl, g⟩ := hi.ex
      exact check_ok g (hi.ne (by decide)) h9 fun _ => ⟨(), rfl⟩
    · intro hn
      rw [hs.abs] at hn
      obtain ⟨h, h9, hi⟩ := hi.low (by decide) hn
      obtain ⟨lvl, g⟩ := hi.ex
      exact iter_spec (hs.wf g.wf) (hs.ne (hi.ne (by decide))) h9

/-- The same from any tree whose caches have been damaged in any way. -/
theorem C84_damaged {B : Trait E C D} {okE : E → Prop} (L : ElemLaw B okE) (ct : CacheTotal B) {s : Tree E C} {t : Tree E Unit} (hs : TreeSame s t)
    (hi : Inv (bareLaw L) 5 t) {os : List (Op E)} (hv : fitsAll B okE (abs s) os) :
    ∃ s' t', runAll B s os = .ok s' ∧ specAll B (abs s) os = .ok (abs s') ∧ TreeSame s' t' ∧ Inv (bareLaw L) 5 t' := by
  rw [hs.abs] at hv
  obtain ⟨t', h1, hi', h2⟩ := bare_run L (m := 5) (by decide) os hi hv
  have hr := runAll_rel (bare_same B) ct (bare_total B) os hs
  rw [h1] at hr
  generalize runAll B s os = r at hr
  cases hr with
  | @ok s' _ hs' => exact ⟨s', t', rfl, by rw [hs.abs, hs'.abs]; exact h2, hs', hi'⟩

/-- A history that also prepends to empty trees: the caches may be wrong from then on (C02), the elements are right. -/
theorem C84_prepend_empty {B : Trait E C D} (A : Law B) (ct : CacheTotal B) {os : List (Op E)} (hv : fitsAll B A.okE ⟨0, []⟩ os) :
    ∃ s, runAll B (newTree B) os = .ok s ∧ specAll B ⟨0, []⟩ os = .ok (abs s) ∧
      ((abs s).es.length < 3906250 → iter s = .ok ((abs s).es.map Prod.snd)) := by
  have L : ElemLaw B A.okE :=
    { right := fun a b ha hb hc => by obtain ⟨e, h1, h2, -⟩ := A.merge_right a b ha hb hc; exact ⟨e, h1, h2⟩
      left := fun a b ha hb hc => by obtain ⟨e, h1, h2, -⟩ := A.merge_left a b ha hb hc; exact ⟨e, h1, h2⟩
      splits := fun e i he h0 hi => by obtain ⟨a, b, h1, h2, h3, -⟩ := A.split e i he h0 hi; exact ⟨a, b, h1, h2, h3⟩
      insert := fun e i d he hd hi => by
        rcases A.tryInsert e i d he hd hi with ⟨e', h1, h2, -⟩ | h1
        · exact Or.inl ⟨e', h1, h2⟩
        · exact Or.inr h1 }
  obtain ⟨s, h1, h2, -, h4⟩ := C84_history L ct hv
  exact ⟨s, h1, h2, h4⟩

/-! A trait of runs of equal numbers whose functions on caches return garbage. -/

/-- runs `(value, length)`; the cache of anything is a number that has nothing to do with it -/
def junkTrait : Trait (Nat × Nat) Nat Nat where
  rleLen := fun e => e.2
  split := fun e i => if i < e.2 then .ok ((e.1, i), (e.1, e.2 - i)) else .error .panic
  canMerge := fun a b => a.1 = b.1
  mergeRight := fun a b => .ok (a.1, a.2 + b.2)
  mergeLeft := fun a b => .ok (a.1, a.2 + b.2)
  tryInsert := fun _ _ d => .ok (.inr d)
  canRemove := fun e => e.2 = 0
  useDiff := true
  dflt := 99
  calcC := fun c cs => .ok (c + 17 * cs.length, 3)
  apply := fun c d => .ok (c * d)
  mergeDiff := fun _ d => d
  elemCache := fun _ => 7
  newCacheToDiff := fun _ => 0
  subCache := fun _ _ => 5

theorem junkElems : ElemLaw junkTrait fun e => 0 < e.2 where
  right := fun a b ha _ _ => ⟨_, rfl, by simp only at ha ⊢; omega⟩
  left := fun a b ha _ _ => ⟨_, rfl, by simp only at ha ⊢; omega⟩
  splits := fun e i _ h0 hi => ⟨(e.1, i), (e.1, e.2 - i), if_pos hi, h0, Nat.sub_pos_of_lt hi⟩
  insert := fun _ _ _ _ _ _ => Or.inr rfl

theorem junkTotal : CacheTotal junkTrait := ⟨fun _ _ => ⟨_, rfl⟩, fun _ _ => ⟨_, rfl⟩⟩

/-- prepend to a new tree, append, insert into a run, remove -/
def junkOps : List (Op (Nat × Nat)) := [.prepend (1, 5), .push (2, 3), .insertAt ⟨0, 2⟩ (3, 1), .push (2, 4), .remove ⟨1, 0⟩]

theorem junkFits : fitsAll junkTrait (fun e => 0 < e.2) ⟨0, []⟩ junkOps := by
  refine ⟨by show 0 < 5; decide, fun _ h => ?_⟩
  cases h
  refine ⟨by show 0 < 3; decide, fun _ h => ?_⟩
  cases h
  refine ⟨⟨by show 0 < 1; decide, (1, 5), by simp, by show 2 ≤ 5; decide⟩, fun _ h => ?_⟩
  cases h
  refine ⟨by show 0 < 4; decide, fun _ h => ?_⟩
  cases h
  exact ⟨trivial, fun _ _ => trivial⟩

example := C84_history junkElems junkTotal junkFits
example : ∃ s, runAll junkTrait (newTree junkTrait) junkOps = .ok s ∧ iter s = .ok [(1, 2), (3, 1), (1, 3)] ∧ check junkTrait s ≠ .ok () := by
  obtain ⟨s, h1, h2, -, h4⟩ := C84_history junkElems junkTotal junkFits
  refine ⟨s, h1, ?_, ?_⟩
  · have he : abs s = ⟨4, [(0, (1, 2)), (3, (3, 1)), (2, (1, 3))]⟩ := (Except.ok.inj h2).symm
    rw [he] at h4
    exact h4 (by decide)
  · cases h1
    intro h
    cases h

example : ElemSame junkTrait (bare junkTrait) ∧ CacheTotal (bare junkTrait) := ⟨bare_same _, bare_total _⟩
example (os : List (Op (Nat × Nat))) := C84_same (bare_same junkTrait) junkTotal (bare_total junkTrait) (newTree_rel junkTrait (bare junkTrait)) os

example (e : Nat × Nat) := C84_push (bare_same junkTrait) junkTotal (bare_total junkTrait) (newTree_rel junkTrait (bare junkTrait)) e
example (e : Nat × Nat) := C84_prepend (bare_same junkTrait) junkTotal (bare_total junkTrait) (newTree_rel junkTrait (bare junkTrait)) e

/-- the tree that `junkOps` builds and its twin without caches: an insertion and a removal, and again `junkOps`-like calls on the damaged tree -/
example : ∃ (s : Tree (Nat × Nat) Nat) (t : Tree (Nat × Nat) Unit), runAll junkTrait (newTree junkTrait) junkOps = .ok s ∧ abs t = abs s ∧
    (∀ c e, MRel (fun a b => a.1 = b.1 ∧ TreeSame a.2 b.2) (insertByPath junkTrait s c e) (insertByPath (bare junkTrait) t c e)) ∧
    (∀ c, MRel (fun a b => a.1 = b.1 ∧ TreeSame a.2 b.2) (removeLeaf junkTrait s c) (removeLeaf (bare junkTrait) t c)) ∧
    ∃ s' t', runAll junkTrait s [.insertAt ⟨2, 1⟩ (8, 8), .remove ⟨0, 0⟩] = .ok s' ∧ TreeSame s' t' ∧ Inv (bareLaw junkElems) 5 t' := by
  obtain ⟨s, h1, h2, ⟨t, hs, hi, -⟩, -⟩ := C84_history junkElems junkTotal junkFits
  have he : abs s = ⟨4, [(0, (1, 2)), (3, (3, 1)), (2, (1, 3))]⟩ := (Except.ok.inj h2).symm
  obtain ⟨s', t', q1, -, q3, q4⟩ := C84_damaged junkElems junkTotal hs hi (os := [.insertAt ⟨2, 1⟩ (8, 8), .remove ⟨0, 0⟩]) (by
    rw [he]
    exact ⟨⟨by show 0 < 8; decide, (1, 3), by simp, by show 1 ≤ 3; decide⟩, fun _ _ => ⟨trivial, fun _ _ => trivial⟩⟩)
  exact ⟨s, t, h1, (C84_content hs).symm, fun c e => C84_insert (bare_same _) junkTotal (bare_total _) hs c e,
    fun c => C84_remove (bare_same _) junkTotal (bare_total _) hs c, s', t', q1, q3, q4⟩

/-- a rope that is prepended to while it is empty (C02) -/
example : ∃ s, runAll ropeTrait (newTree ropeTrait) [.prepend (GapBuf.new 4), .push (GapBuf.new 4)] = .ok s := by
  obtain ⟨s, h1, -⟩ := C84_prepend_empty (ropeLaw 4) ⟨fun _ _ => ⟨_, rfl⟩, fun _ _ => ⟨_, rfl⟩⟩ (os := [.prepend (GapBuf.new 4), .push (GapBuf.new 4)])
    ⟨⟨GapBuf.new_wf 4, rfl⟩, fun _ _ => ⟨⟨GapBuf.new_wf 4, rfl⟩, fun _ _ => trivial⟩⟩
  exact ⟨s, h1⟩

end GB
