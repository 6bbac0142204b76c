import Verif.Proof.Heal
import Verif.Props.C07
import Verif.Props.C88

/-!
# C89: wrong caches can be recomputed

`recursive_update_cache(leaf, false, None)` recomputes the cache of a leaf and of all nodes above it from scratch.  Called once for every leaf, in any order, it makes
any tree valid that is valid apart from its caches, and keeps the elements.  Together with C88: whatever happened to the caches, the elements and the
structure survive all operations and the caches can be restored at any time.

`COkW okW s` says that the caches stored in `s` are in `okW`; `CalcW A okW` that recomputing works on such caches.  For ropes and the range map
`okW` is everything.  For the ordered map it is everything but `None`, on which `calc_cache_internal` panics.
-/

namespace GB
variable {E C D X : Type}
open Tree

/-- every leaf is repaired at least once, in any order -/
theorem C89_repair {B : Trait E C D} {A : Law B} {okW : C → Prop} (W : CalcW A okW) {m : Fill} (hm : 1 ≤ m.lo) {h : Nat} {s : Tree E C} (hs : SoundH A.okE m h s)
    (cok : COkW okW s) (hne : (abs s).es ≠ []) {ls : List Nat} (hl : ∀ l, l ∈ ls ↔ l ∈ (abs s).es.map Prod.fst) :
    ∃ s', repairRun B s (ls.map fun l => .fix l false none) = .ok s' ∧ InvH A m h s' ∧ abs s' = abs s ∧ s'.rootCache = A.total ((abs s).es.map fun x => B.elemCache x.2) := by
  obtain ⟨s', h1, h2, h3, -⟩ := heal_all W hm hs cok hl hne
  refine ⟨s', h1, h2, h3, ?_⟩
  rw [C07_root_cache hm ⟨h, h2⟩ (by rw [h3]; exact hne), h3]

/-- fewer repairs do if the caches are wrong on few paths only: it is enough that every entry that holds a wrong cache is that of a repaired leaf or of a node above one -/
theorem C89_paths {B : Trait E C D} {A : Law B} {okW : C → Prop} (W : CalcW A okW) {m : Fill} (hm : 1 ≤ m.lo) {h : Nat} {s : Tree E C} (hs : SoundH A.okE m h s)
    (cok : COkW okW s) {ls : List Nat} (hl : ∀ l ∈ ls, l ∈ (abs s).es.map Prod.fst) (hne : ls ≠ [])
    (hX : ∀ p c, c ∈ chs s p → EntryOK A s c ∨ ∃ l ∈ ls, OnPath s l c.arena) :
    ∃ s', repairRun B s (ls.map fun l => .fix l false none) = .ok s' ∧ InvH A m h s' ∧ abs s' = abs s := by
  obtain ⟨lvl, w⟩ := hs.ex
  have hlive : ∀ l ∈ ls, elm s l ≠ none := by
    intro l hx
    obtain ⟨⟨k, e⟩, h1, rfl⟩ := List.mem_map.mp (hl l hx)
    rw [(entries_mem w).mp h1]
    simp
  obtain ⟨s', h1, h2, h3, -⟩ := heal_paths W hm hs cok hlive (.inl hne) (fun p c hc hn => (hX p c hc).resolve_right hn)
  exact ⟨s', h1, h2, h3⟩

/-- The repair of a tree `t` that differs from a valid tree in its caches gives exactly this tree. -/
theorem C89_restore {B : Trait E C D} {A : Law B} {okW : C → Prop} (W : CalcW A okW) {m : Fill} (hm : 1 ≤ m.lo) {s t : Tree E C} (hi : Inv A m s)
    (ts : TreeSame t s) (cok : COkW okW t) (hne : (abs s).es ≠ []) {ls : List Nat} (hl : ∀ l, l ∈ ls ↔ l ∈ (abs s).es.map Prod.fst) :
    repairRun B t (ls.map fun l => .fix l false none) = .ok s := by
  obtain ⟨h, hi⟩ := hi
  have ha := ts.abs
  obtain ⟨s', h1, h2, h3, ts'⟩ := heal_all W hm (ts.sound hi.sound) cok (ls := ls) (by rw [ha]; exact hl) (by rw [ha]; exact hne)
  have tt := ts'.symm.trans ts
  obtain ⟨⟨l1, g1⟩, -⟩ := id h2
  obtain ⟨⟨l2, g2⟩, -⟩ := id hi
  rw [h1, tree_ext tt ?_ fun p hp => same_chs tt g1.wf g1.cinv g2.cinv _ p (Nat.le_refl _) hp]
  rw [C07_root_cache hm ⟨h, h2⟩ (by rw [h3, ha]; exact hne), C07_root_cache hm ⟨h, hi⟩ hne, h3, ha]

/-- the root cache alone: one repair of any leaf -/
theorem C89_root {B : Trait E C D} {A : Law B} {m : Fill} (hm : 1 ≤ m.lo) {h : Nat} {s : Tree E C} (hi : InvH A m h s) (rc : C) {l : Nat}
    (hl : l ∈ (abs s).es.map Prod.fst) :
    ∃ s', recursiveUpdateCache B { s with rootCache := rc } (.leaf l) false none = .ok s' ∧ InvH A m h s' ∧ abs s' = abs s := by
  obtain ⟨⟨lvl, g⟩, sz⟩ := hi
  have habs : abs { s with rootCache := rc } = abs s := by
    show (⟨s.lf.items.length, entries { s with rootCache := rc }⟩ : Seq E) = ⟨s.lf.items.length, entries s⟩
    rw [((SameShape.rootCache s rc).same rfl).entries]
  obtain ⟨s', h1, h2, h3⟩ := C89_paths (s := { s with rootCache := rc }) A.calcW hm (h := h)
    ⟨⟨lvl, (SameShape.rootCache s rc).wf g.wf⟩, SzX.congr (SameShape.rootCache s rc) sz, g.okE⟩ g.cok (ls := [l]) (by rw [habs]; intro k hk; rw [List.mem_singleton.mp hk]; exact hl) (by simp)
    (fun p c hc => .inl (g.cinv p c hc (fun h => h)))
  refine ⟨s', ?_, h2, h3.trans habs⟩
  simp only [List.map_cons, List.map_nil, repairRun, RepairOp.run] at h1
  obtain ⟨s2, e1, e2⟩ := bind_inv h1
  cases e2
  exact e1

/-- any history of operations on a tree with any caches, then the repair -/
theorem C89_history {B : Trait E C D} {A : Law B} (W : CalcW A fun _ => True) (ct : CacheTotal B) {cont : E → List X} (K : ContentLaw B A.okE cont)
    {ho : HashOrd E} (hho : ∀ l, (ho.idx l).Perm l) (hcur : ∀ l, (ho.cur l).Perm l) (hgrp : ∀ l, (ho.grp l).Perm l)
    {h : Nat} {s : Tree E C} (hs : SoundH A.okE ⟨1, 4⟩ h s) {os : List (BOp E C D)} (hv : saneB B A.okE ho s os) :
    ∃ s', runB B ho s os = .ok s' ∧ ((abs s').es ≠ [] → ∀ ls : List Nat, (∀ l, l ∈ ls ↔ l ∈ (abs s').es.map Prod.fst) →
      ∃ s'', repairRun B s' (ls.map fun l => .fix l false none) = .ok s'' ∧ Inv A ⟨1, 4⟩ s'' ∧ abs s'' = abs s') := by
  obtain ⟨s', h', h1, h2, -⟩ := C88_history (elemsOf A) ct K hho hcur hgrp os hs hv
  refine ⟨s', h1, fun hne ls hl => ?_⟩
  obtain ⟨s'', g1, g2, g3, -⟩ := C89_repair W (by decide) h2 (fun _ _ _ => trivial) hne hl
  exact ⟨s'', g1, ⟨h', g2⟩, g3⟩

/-- ropes: recomputing is right on any numbers, also on negative ones -/
theorem C89_rope (cap : Nat) : CalcW (ropeLaw cap) fun _ => True := ⟨fun _ _ _ _ => ⟨_, rfl⟩, fun _ _ _ => trivial, fun _ _ => trivial⟩

/-- the range map -/
theorem C89_range : CalcW rangeLaw fun _ => True := ⟨fun _ _ _ _ => ⟨_, rfl⟩, fun _ _ _ => trivial, fun _ _ => trivial⟩

/-- the ordered map, any bounds -/
theorem C89_ord (K V : Type) : CalcW (ordLaw K V) fun c => c.isSome := (ordLaw K V).calcW

/-- a rope of 30 chunks with a wrong root cache -/
def ropeBadRoot : Tree GapBuf Int := { ropeSample with rootCache := 7 }

/-- Letting the tree work out the difference (`can_use_diff`, as `DiffTrait`s do) does not repair: the difference of the leaf's parent is zero, and zero is added to the wrong
root cache. -/
theorem C89_diff_fails : ∃ s', recursiveUpdateCache ropeTrait ropeBadRoot (.leaf 3) true none = .ok s' ∧ s'.rootCache = 7 := by
  have h : (match recursiveUpdateCache ropeTrait ropeBadRoot (.leaf 3) true none with
    | .ok s' => decide (s'.rootCache = 7)
    | .error _ => false) = true := by decide +kernel
  split at h
  · next s' hs => exact ⟨s', hs, of_decide_eq_true h⟩
  · cases h

/-- the ordered map of 30 keys, the entries of whose root are forgotten -/
def ordForgot : Tree (Nat × Nat) (OrdCache Nat) :=
  match ordSample.inn.get ordSample.root with
  | some N => ordSample.setIn ordSample.root { N with children := N.children.map fun c => { c with cache := none } }
  | none => ordSample

/-- With `None` in the entries of the root every repair panics. -/
theorem C89_none_fails {l : Nat} (hl : l < 30) : recursiveUpdateCache (ordTrait Nat Nat) ordForgot (.leaf l) false none = .error .panic := by
  have h : ∀ l : Fin 30, (match recursiveUpdateCache (ordTrait Nat Nat) ordForgot (.leaf l.1) false none with
    | .error .panic => true
    | _ => false) = true := by decide +kernel
  have := h ⟨l, hl⟩
  split at this
  · assumption
  · cases this

/-! ## Cases -/

/-- other caches next to all children, which depend on their slots and on what was there, and another root cache -/
def wreck (f : Nat → C → C) (s : Tree E C) : Tree E C :=
  ⟨⟨s.inn.items.map (Option.map fun n => { n with children := n.children.mapIdx fun i c => { c with cache := f i c.cache } })⟩, s.lf, s.root, f 0 s.rootCache⟩

theorem wreck_same (f : Nat → C → C) (s : Tree E C) : TreeSame (wreck f s) s where
  len := by simp [wreck]
  inn := by
    intro x
    simp only [wreck, Arena.get, List.getElem?_map]
    cases s.inn.items[x]? with
    | none => exact .none
    | some o =>
      cases o with
      | none => exact .none
      | some n => exact .some ⟨rfl, rfl, by
          refine List.ext_getElem? fun i => ?_
          simp only [List.getElem?_map, List.getElem?_mapIdx, Option.map_map]
          rfl⟩
  lf := rfl
  root := rfl

/-- the rope of 30 chunks: whatever function is applied to the caches, repairing all leaves from the last to the first undoes it -/
example (f : Nat → Int → Int) : repairRun ropeTrait (wreck f ropeSample) ((List.range 30).reverse.map fun l => .fix l false none) = .ok ropeSample :=
  C89_restore (C89_rope 4) (m := 5) (by decide) ropeSample_spec.1 (wreck_same f _) (fun _ _ _ => trivial) (by rw [ropeSample_spec.2]; simp) (by
    intro l
    rw [ropeSample_spec.2]
    simp)

/-- the wrecked rope, in any order and with repetitions -/
example (f : Nat → Int → Int) {ls : List Nat} (hl : ∀ l, l ∈ ls ↔ l < 30) :
    ∃ s', repairRun ropeTrait (wreck f ropeSample) (ls.map fun l => .fix l false none) = .ok s' ∧ s'.rootCache = 90 := by
  obtain ⟨h, hi⟩ := ropeSample_spec.1
  obtain ⟨s', h1, -, -, h4⟩ := C89_repair (C89_rope 4) (by decide) ((wreck_same f _).sound hi.sound) (fun _ _ _ => trivial) (by rw [(wreck_same f _).abs, ropeSample_spec.2]; simp)
    (ls := ls) (by
      intro l
      rw [hl, (wreck_same f _).abs, ropeSample_spec.2]
      simp)
  refine ⟨s', h1, ?_⟩
  rw [h4, (wreck_same f _).abs, ropeSample_spec.2]
  decide +kernel

/-- the root cache of the rope -/
example : ∃ s', recursiveUpdateCache ropeTrait ropeBadRoot (.leaf 3) false none = .ok s' ∧ Inv (ropeLaw 4) 5 s' := by
  obtain ⟨h, hi⟩ := ropeSample_spec.1
  obtain ⟨s', h1, h2, -⟩ := C89_root (by decide) hi 7 (l := 3) (by rw [ropeSample_spec.2]; decide)
  exact ⟨s', h1, h, h2⟩

/-- leaf 4 is emptied behind the back of the caches; repairing this leaf (after another one) is enough -/
example : ∃ s0 s', s0 = (getElemMut ropeSample 4 fun _ => GapBuf.new 4).2 ∧ repairRun ropeTrait s0 ([9, 4].map fun l => .fix l false none) = .ok s' ∧ Inv (ropeLaw 4) 5 s' ∧ abs s' = abs s0 := by
  obtain ⟨h, hi⟩ := ropeSample_spec.1
  obtain ⟨⟨lvl, g⟩, sz⟩ := id hi
  have h4 : elm ropeSample 4 = some ⟨[4, 1, 2, 0], 3, 1⟩ := (entries_mem g.wf).mp (by
    show _ ∈ (abs ropeSample).es
    rw [ropeSample_spec.2]; decide)
  obtain ⟨L, hL, -⟩ := Option.map_eq_some_iff.mp h4
  have sh : SameShape ropeSample (ropeSample.setLf 4 ⟨GapBuf.new 4, L.parent⟩) := SameShape.setLf hL rfl
  have hel : ∀ k, elm (ropeSample.setLf 4 ⟨GapBuf.new 4, L.parent⟩) k = if k = 4 then some (GapBuf.new 4) else elm ropeSample k :=
    fun k => elm_setLf ropeSample (by rw [lpar_of hL]; simp) ⟨GapBuf.new 4, L.parent⟩ k
  have hg : (getElemMut ropeSample 4 fun _ => GapBuf.new 4).2 = ropeSample.setLf 4 ⟨GapBuf.new 4, L.parent⟩ := by rw [getElemMut, hL]
  have w' := sh.wf g.wf
  have h9 : elm ropeSample 9 = some ⟨[9, 1, 2, 0], 3, 1⟩ := (entries_mem g.wf).mp (by
    show _ ∈ (abs ropeSample).es
    rw [ropeSample_spec.2]; decide)
  obtain ⟨s', h1, h2, h3⟩ := C89_paths (C89_rope 4) (m := 5) (h := h) (s := ropeSample.setLf 4 ⟨GapBuf.new 4, L.parent⟩) (by decide)
    ⟨⟨lvl, w'⟩, SzX.congr sh sz, fun l e he => by
      rw [hel] at he
      split at he
      · cases he; exact ⟨GapBuf.new_wf 4, GapBuf.new_capacity 4⟩
      · exact g.okE l e he⟩
    (fun _ _ _ => trivial) (ls := [9, 4]) (by
      intro l hl
      rcases List.mem_cons.mp hl with rfl | hl
      · exact List.mem_map.mpr ⟨_, (entries_mem w').mpr ((hel 9).trans h9), rfl⟩
      · cases List.mem_singleton.mp hl
        exact List.mem_map.mpr ⟨_, (entries_mem w').mpr (hel 4), rfl⟩) (by simp)
    (fun p c hc => by
      have ho := g.cinv p c hc (fun h => h)
      unfold EntryOK at ho ⊢
      cases ha : c.arena with
      | internal y => rw [ha] at ho; exact .inl ho
      | leaf l =>
        rw [ha] at ho
        by_cases hl : l = 4
        · exact .inr ⟨4, by simp, .inl (by rw [hl])⟩
        · refine .inl fun e he => ho e ?_
          rw [hel, if_neg hl] at he
          exact he)
  exact ⟨_, s', hg.symm, h1, ⟨h, h2⟩, h3⟩

/-- the keys of an ordered map: the bounds in all nodes are replaced by others -/
example (a b : Nat) : repairRun (ordTrait Nat Nat) (wreck (fun i _ => some (a + i, b * i)) ordSample) ((List.range 30).map fun l => .fix l false none) = .ok ordSample :=
  C89_restore (C89_ord Nat Nat) (m := 6) (by decide) ordSample_spec.1 (wreck_same _ _) (by
    intro p c hc
    unfold chs wreck Arena.get at hc
    simp only [List.getElem?_map] at hc
    cases hx : ordSample.inn.items[p]? with
    | none => rw [hx] at hc; cases hc
    | some o =>
      rw [hx] at hc
      cases o with
      | none => cases hc
      | some n =>
        obtain ⟨i, hi⟩ := List.mem_iff_getElem?.mp hc
        simp only [Option.map_some, Option.join_some, List.getElem?_mapIdx, Option.map_eq_some_iff] at hi
        obtain ⟨d, -, rfl⟩ := hi
        rfl) (by rw [ordSample_spec.2]; simp) (by
    intro l
    rw [ordSample_spec.2]
    simp)

/-- a wrecked rope is edited, and repaired at the end -/
example (f : Nat → Int → Int) : ∃ s', runB ropeTrait ⟨id, id, id⟩ (wreck f ropeSample) [.basic (.remove ⟨3, 0⟩), .basic (.remove ⟨4, 0⟩)] = .ok s' ∧
    ((abs s').es ≠ [] → ∀ ls : List Nat, (∀ l, l ∈ ls ↔ l ∈ (abs s').es.map Prod.fst) →
      ∃ s'', repairRun ropeTrait s' (ls.map fun l => .fix l false none) = .ok s'' ∧ Inv (ropeLaw 4) ⟨1, 4⟩ s'' ∧ abs s'' = abs s') := by
  obtain ⟨h, -, hi⟩ := ropeSample_low
  exact C89_history (C89_rope 4) ⟨fun _ _ => ⟨_, rfl⟩, fun _ _ => ⟨_, rfl⟩⟩ (ropeContent 4) (ho := ⟨id, id, id⟩) (fun _ => .refl _) (fun _ => .refl _) (fun _ => .refl _)
    ((wreck_same f _).sound hi.sound) ⟨trivial, fun _ _ => ⟨trivial, fun _ _ => trivial⟩⟩

end GB
