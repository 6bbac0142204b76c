import Verif.Proof.History
import Verif.Proof.CheckSound
import Verif.Props.C04

/-!
# C06: structural validity is preserved

`check` is the model of `BTree::check()` itself (src/lib.rs:2772-2853).  The histories here are those of
`push`, `prepend` (on a non-empty tree), `insert_by_path`, `remove_leaf` and `clear`.  Full claim: every history
of *all* mutating operations passes `check()` at every point.  It is false in two places:
`prepend` on an empty tree (C02) and removing the last element of a tree whose `calc_cache_internal` does not
reset the cache for no children (`C06_ord_false_when_emptied`).  `C06_check_iff` says exactly when a valid tree passes, and
`C06_emptied` and `C06_ord_false_always` that no ordered map passes after its last key has been removed.
-/

namespace GB
variable {E C D X : Type}
open Tree

/-- `check()` means what the claim says: any state that passes it has the properties `Checked`. -/
theorem C06_check_means [DecidableEq C] {B : Trait E C D} {s : Tree E C} (h : check B s = .ok ()) : Checked B s := check_sound h

/-- After every valid history from `new()` the tree passes `check()`.  `hempty`: recomputing the cache of no
children gives the root cache of an empty tree.  The bound on the number of elements keeps the depth within the
capacity of the fixed-size paths. -/
theorem C06_check_partial [DecidableEq C] {B : Trait E C D} {A : Law B}
    (hempty : ∀ c, A.emptyOk c → ∃ d, B.calcC B.dflt [] = .ok (c, d)) {os : List (Op E)}
    (hv : validAll B A.okE ⟨0, []⟩ os) :
    ∃ s, runAll B (newTree B) os = .ok s ∧ specAll B ⟨0, []⟩ os = .ok (abs s) ∧
      ((abs s).es.length < 3906250 → check B s = .ok ()) := by
  obtain ⟨s, h1, hi, h2⟩ := run_spec (A := A) (m := 5) (by decide) (Or.inl (by decide)) os (newTree B) ⟨1, new_inv A 5⟩
    (by rw [new_entries]; exact hv)
  rw [new_entries] at h2
  refine ⟨s, h1, h2, ?_⟩
  intro hn
  obtain ⟨h, h9, hi⟩ := hi.low (by decide) hn
  have ne := hi.ne (by decide)
  obtain ⟨lvl, g⟩ := hi.ex
  apply check_ok g ne h9
  intro ho
  exact hempty _ (g.rok.2 ((empty_iff g.wf ne).mp ho))

/-- The same without the condition on the cache of no children, for trees that are not empty at the end. -/
theorem C06_check_nonempty_partial [DecidableEq C] {B : Trait E C D} {A : Law B} {os : List (Op E)}
    (hv : validAll B A.okE ⟨0, []⟩ os) :
    ∃ s, runAll B (newTree B) os = .ok s ∧ specAll B ⟨0, []⟩ os = .ok (abs s) ∧
      ((abs s).es ≠ [] → (abs s).es.length < 3906250 → check B s = .ok ()) := by
  obtain ⟨s, h1, hi, h2⟩ := run_spec (A := A) (m := 5) (by decide) (Or.inl (by decide)) os (newTree B) ⟨1, new_inv A 5⟩
    (by rw [new_entries]; exact hv)
  rw [new_entries] at h2
  refine ⟨s, h1, h2, ?_⟩
  intro hne hn
  obtain ⟨h, h9, hi⟩ := hi.low (by decide) hn
  have ne := hi.ne (by decide)
  have hoe : order s ≠ [] := fun h => hne ((abs_nil hi).mpr h)
  obtain ⟨lvl, g⟩ := hi.ex
  exact check_ok g ne h9 fun ho => absurd ho hoe

/-- **False for the ordered map when it becomes empty**: after inserting and deleting one key the root cache
still holds the key, and `check()` panics. -/
theorem C06_ord_false_when_emptied : ∃ s, runAll (ordTrait Nat Nat) (newTree (ordTrait Nat Nat)) [.push (1, 1), .remove ⟨0, 0⟩] = .ok s ∧
    (abs s).es = [] ∧ s.rootCache = some (1, 1) ∧ check (ordTrait Nat Nat) s = .error .panic :=
  ⟨_, rfl, rfl, rfl, rfl⟩

/-- Exactly when a valid tree passes: a tree with elements always, an empty one if recomputing the cache of no children gives its root cache. -/
theorem C06_check_iff [DecidableEq C] {B : Trait E C D} {A : Law B} {m : Fill} {s : Tree E C} {h : Nat} (hm : 1 ≤ m.lo) (hi : InvH A m h s) (hh : h ≤ 9) :
    check B s = .ok () ↔ ((abs s).es = [] → ∃ d, B.calcC B.dflt [] = .ok (s.rootCache, d)) := by
  have ne := hi.ne hm
  have hnil := abs_nil hi
  obtain ⟨lvl, g⟩ := hi.ex
  constructor
  · intro hck he
    obtain ⟨R, d, q1, q2⟩ := (check_sound hck).root
    have hc := (empty_iff g.wf ne).mp (hnil.mp he)
    rw [chs_of q1] at hc
    rw [hc] at q2
    exact ⟨d, q2⟩
  · intro hE
    exact check_ok g ne hh fun ho => hE (hnil.mpr ho)

/-- Removing the last element of a valid tree, for every trait: the new root cache is what `calc_cache_internal` makes of the old one and no children.  So
`check()` passes afterwards exactly if this is also what it makes of the default cache. -/
theorem C06_emptied [DecidableEq C] {B : Trait E C D} {A : Law B} {m : Fill} {s : Tree E C} {l o : Nat} {e : E}
    (hm : 1 ≤ m.lo ∧ m.lo + m.d ≤ 6) (hE : 2 ≤ m.lo ∨ LawE A) (hi : Inv A m s) (hs : (abs s).es = [(l, e)]) :
    ∃ s' c d, removeLeaf B s ⟨l, o⟩ = .ok (some e, s') ∧ Inv A m s' ∧ (abs s').es = [] ∧
      s.rootCache = B.elemCache e ∧ B.calcC (B.elemCache e) [] = .ok (c, d) ∧ s'.rootCache = c ∧
      (check B s' = .ok () ↔ ∃ d', B.calcC B.dflt [] = .ok (c, d')) := by
  obtain ⟨h, hi'⟩ := id hi
  have ne := hi'.ne hm.1
  have hle : h ≤ 1 := by
    obtain ⟨⟨lvl, g⟩, sz⟩ := hi'
    apply Decidable.byContradiction
    intro h2
    have h3 := height_bound g.wf sz (by omega)
    have h4 := Nat.one_le_pow (h - 1) m.lo hm.1
    rw [show entries s = _ from hs] at h3
    simp only [List.length_singleton] at h3
    omega
  obtain ⟨⟨lvl, g⟩, sz⟩ := hi'
  have h1 : h = 1 := by have := g.wf.h_pos; omega
  obtain ⟨s', lvl', h', k1, g', sz', hh', k3, -⟩ := removeLeaf_spec (B := B) (o := o) hm.1 hm.2 hE g sz (U := []) (V := []) hs
  subst h1
  have hme : elm s l = some e := (entries_mem g.wf).mp (by rw [show entries s = _ from hs]; simp)
  have hll : lpar s l ≠ none := by rw [Ne, ← elm_none, hme]; simp
  obtain ⟨p, i, he⟩ := g.wf.par_lf' hll
  have hlp := (g.wf.klf he).2
  obtain ⟨N, hN⟩ := lnk_isSome.mp (edge_live he)
  have hpr : p = s.root := by
    apply Decidable.byContradiction
    intro hr
    obtain ⟨q, -, hq, hlq⟩ := g.wf.parent_in hN hr
    have := (g.wf.klf he).1
    obtain ⟨Q, hQ⟩ := lnk_isSome.mp (edge_live hq)
    have := (g.wf.lvl_pos q Q hQ).2
    omega
  subst hpr
  -- the root has the leaf as its only child
  have hone : ∃ ch, N.children = [ch] ∧ i = 0 ∧ ch.arena = .leaf l := by
    obtain ⟨a, b, hab⟩ := edge_order g.wf he
    have hol : (order s).length = 1 := by
      have := congrArg List.length (entries_fst g.wf)
      rw [show entries s = _ from hs] at this
      simpa using this.symm
    obtain ⟨ch, hc, hca⟩ := edge_chs.mp he
    have hlen := congrArg List.length hab
    rw [chs_of hN] at hc
    have hi2 := (List.getElem?_eq_some_iff.mp hc).1
    have hk : (kids s s.root).length = N.children.length := by rw [kids_chs, List.length_map, chs_of hN]
    simp only [List.length_append, List.length_map, List.length_cons, hol] at hlen
    simp only [List.length_take, List.length_drop, hk] at hlen
    have h0 : i = 0 := by omega
    have h1 : N.children.length = 1 := by omega
    subst h0
    obtain ⟨x, hx⟩ := List.length_eq_one_iff.mp h1
    rw [hx] at hc
    cases hc
    exact ⟨_, hx, rfl, hca⟩
  obtain ⟨ch, hch, rfl, hca⟩ := hone
  have hcc : ch.cache = B.elemCache e := by
    have := g.cinv s.root ch (by rw [chs_of hN, hch]; simp) (fun h => h)
    simp only [EntryOK, hca] at this
    exact this e hme
  have hrc : s.rootCache = B.elemCache e := by
    rw [g.rok.1 (by rw [chs_of hN, hch]; simp), cch, chs_of hN, hch]
    simp only [List.map_cons, List.map_nil, hcc]
    exact A.total_single _ (A.elem_ok e (g.okE l e hme))
  obtain ⟨c, d, hcd, -⟩ := A.calc_empty (B.elemCache e)
  have hL : ∃ q, s.lf.get l = some ⟨e, q⟩ ∧ q = s.root := by
    obtain ⟨el, hL, hel⟩ := getLf_of hlp
    rw [elm_of hL] at hme
    cases hme
    exact ⟨_, hL, rfl⟩
  obtain ⟨q, hL, rfl⟩ := hL
  have hpn : N.parent = none := by
    obtain ⟨R, hR, hp⟩ := g.wf.root
    rw [hN] at hR
    cases hR
    exact hp
  have hrun : removeLeaf B s ⟨l, o⟩ = .ok (some e, { unlinkLeaf s s.root 0 l N with rootCache := c }) := by
    have hslot := getLeafSlot_wf g.wf he
    rw [chs_of hN, hch] at hslot
    have hhere : assertM (decide (ch.arena.raw = l)) = .ok () := assertM_true (decide_eq_true (by rw [hca]; rfl))
    have hg2 : (s.setIn s.root { N with children := [] }).getLf ch.arena.raw = .ok ⟨e, s.root⟩ := by
      rw [hca]; exact getLf_ok hL
    have hroot : (unlinkLeaf s s.root 0 l N).getIn s.root = .ok { N with children := [] } := by
      apply getIn_ok
      simp [unlinkLeaf, freeLf, Tree.setIn, Arena.get_set, (Arena.get_lt hN), hch]
    have hun : ({ (s.setIn s.root { N with children := [] }) with
        lf := (s.setIn s.root { N with children := [] }).lf.remove ch.arena.raw } : Tree E C) = unlinkLeaf s s.root 0 l N := by
      rw [hca]; simp [unlinkLeaf, freeLf, hch, Idx.raw]
    have hr' : (unlinkLeaf s s.root 0 l N).root = s.root := rfl
    have hrc' : (unlinkLeaf s s.root 0 l N).rootCache = B.elemCache e := hrc
    have hupd : recursiveUpdateCache B (unlinkLeaf s s.root 0 l N) (.internal s.root) B.useDiff none = .ok { unlinkLeaf s s.root 0 l N with rootCache := c } := by
      cases B.useDiff with
      | true => simp only [recursiveUpdateCache, pure_ok, bind_ok, hroot, hpn, hr', hrc', calcCache, List.map_nil, hcd]
      | false => simp only [recursiveUpdateCache, pure_ok, bind_ok, fuel, recUpdCalc, hroot, hpn, hr', hrc', calcCache, List.map_nil, hcd]
    have hrm : ∀ t : Tree E C, t.root = s.root → removeInternalF B t.fuel t s.root = .ok t := by
      intro t ht
      simp [fuel, removeInternalF, ht]
    simp only [removeLeaf, hL, getIn_ok hN, bind_ok, hslot, hch, vremove, List.getElem?_cons_zero, List.eraseIdx_cons_zero, hhere, hg2, hun, hupd]
    simp only [Node.isEmpty, List.length_nil, decide_true, if_true]
    rw [hrm { unlinkLeaf s s.root 0 l N with rootCache := c } rfl]
    rfl
  rw [hrun] at k1
  cases k1
  have hi2 : InvH A m h' { unlinkLeaf s s.root 0 l N with rootCache := c } := ⟨⟨lvl', g'⟩, sz'⟩
  have hes' : (abs { unlinkLeaf s s.root 0 l N with rootCache := c }).es = [] := k3
  refine ⟨_, c, d, hrun, ⟨h', hi2⟩, hes', hrc, hcd, rfl, ?_⟩
  rw [C06_check_iff hm.1 hi2 (by omega), hes']
  simp

/-- **No ordered map passes `check()` after its last key has been removed**, whatever the history before. -/
theorem C06_ord_false_always {K V : Type} [DecidableEq K] {m : Fill} {s : Tree (K × V) (OrdCache K)} {l o : Nat} {e : K × V}
    (hm : 2 ≤ m.lo ∧ m.lo + m.d ≤ 6) (hi : Inv (ordLaw K V) m s) (hs : (abs s).es = [(l, e)]) :
    ∃ s', removeLeaf (ordTrait K V) s ⟨l, o⟩ = .ok (some e, s') ∧ (abs s').es = [] ∧ s'.rootCache = some (e.1, e.1) ∧
      check (ordTrait K V) s' ≠ .ok () := by
  obtain ⟨s', c, d, h1, -, h3, -, h5, h6, h7⟩ := C06_emptied (B := ordTrait K V) (o := o) ⟨by omega, hm.2⟩ (.inl hm.1) hi hs
  cases h5
  refine ⟨s', h1, h3, h6, fun hck => ?_⟩
  obtain ⟨d', hd⟩ := h7.mp hck
  cases hd

/-- the same with the tree of one key -/
example : ∃ s s', Inv (ordLaw Nat Nat) 5 s ∧ (abs s).es = [(0, (1, 1))] ∧ removeLeaf (ordTrait Nat Nat) s ⟨0, 0⟩ = .ok (some (1, 1), s') ∧
    check (ordTrait Nat Nat) s' ≠ .ok () := by
  obtain ⟨c, s, h1, h2, h3⟩ := C01_push (B := ordTrait Nat Nat) (A := ordLaw Nat Nat) (m := 5) (s := newTree (ordTrait Nat Nat)) (e := (1, 1)) (by decide)
    ⟨1, new_inv _ _⟩ trivial
  cases h1
  obtain ⟨s', k1, -, -, k4⟩ := C06_ord_false_always (o := 0) (by decide) h2 (e := (1, 1)) (l := 0) rfl
  exact ⟨_, s', h2, rfl, k1, k4⟩

/-- a rope passes again after its last chunk has been removed -/
example : ∃ s s', Inv (ropeLaw 4) 5 s ∧ (abs s).es = [(0, ⟨[1, 2, 3, 0], 3, 1⟩)] ∧
    removeLeaf ropeTrait s ⟨0, 0⟩ = .ok (some ⟨[1, 2, 3, 0], 3, 1⟩, s') ∧ check ropeTrait s' = .ok () := by
  obtain ⟨c, s, h1, h2, h3⟩ := C01_push (B := ropeTrait) (A := ropeLaw 4) (m := 5) (s := newTree ropeTrait) (e := ⟨[1, 2, 3, 0], 3, 1⟩) (by decide)
    ⟨1, new_inv _ _⟩ ⟨by simp [GapBuf.WF], rfl⟩
  cases h1
  obtain ⟨s', c, d, k1, -, -, -, k5, -, k7⟩ := C06_emptied (B := ropeTrait) (o := 0) (by decide) (.inl (by decide)) h2 (e := ⟨[1, 2, 3, 0], 3, 1⟩) (l := 0) rfl
  cases k5
  exact ⟨_, s', h2, rfl, k1, k7.mpr ⟨_, rfl⟩⟩

example := C06_check_iff (h := 1) (m := 5) (A := ropeLaw 4) (by decide) (new_inv (ropeLaw 4) 5) (by decide)

example : Checked (ropeTrait) (newTree ropeTrait) := C06_check_means rfl

/-- a rope history with a cut inside a chunk -/
example := C06_check_partial (B := ropeTrait) (A := ropeLaw 4) (fun c hc => ⟨0, by cases hc; rfl⟩)
  (os := [.push ⟨[1, 2, 3, 4], 4, 0⟩, .insertAt ⟨0, 2⟩ ⟨[5, 6, 7, 0], 3, 1⟩, .prepend ⟨[8, 0, 0, 0], 1, 3⟩, .remove ⟨1, 0⟩]) (by
    refine ⟨⟨by simp [GapBuf.WF], rfl⟩, fun t' h => ?_⟩
    cases h
    refine ⟨⟨⟨by simp [GapBuf.WF], rfl⟩, _, List.mem_singleton.mpr rfl, by decide⟩, fun t' h => ?_⟩
    cases h
    refine ⟨⟨⟨by simp [GapBuf.WF], rfl⟩, by simp⟩, fun t' h => ⟨trivial, fun _ _ => trivial⟩⟩)

example := C06_check_nonempty_partial (B := ropeTrait) (A := ropeLaw 4) (os := [.push ⟨[1, 2, 3, 4], 4, 0⟩, .push ⟨[8, 0, 0, 0], 1, 3⟩, .remove ⟨0, 0⟩])
  ⟨⟨by simp [GapBuf.WF], rfl⟩, fun _ _ => ⟨⟨by simp [GapBuf.WF], rfl⟩, fun _ _ => ⟨trivial, fun _ _ => trivial⟩⟩⟩

end GB
