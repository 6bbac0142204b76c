import Verif.Proof.EditHistory
import Verif.Proof.SpineHeight
import Verif.Proof.CheckSound
import Verif.Props.C07
import Verif.Props.C28
import Verif.Props.C43

/-!
# C49: validity and balance after histories of all operations

C06, C28 and C29 are about histories of `push`, `prepend`, `insert_by_path`, `remove_leaf` and `clear`.  Here the histories
(`BOp`) also contain `update_leaf`, `drain`, `update`, `update_leaves_with_arg_in_ranges`, `insert_many_by_cursor` and
`update_leaf_by_search`.  Such trees are valid, nothing is leaked, and every node off the left edge has 5 to 11 children;
on the left edge `drain` can leave nodes with a single child (`C49_thin_left_edge`).  The depth is logarithmic all the same.

Histories with drains are for traits that obey `LawE` (the combination of no caches is neutral; `RopeTrait`).  For the
others the claim is false: `C49_drain_then_remove_false`.
-/

namespace GB
variable {E C D X : Type}
open Tree

/-- reached from the root through first children only -/
inductive LeftEdge (s : Tree E C) : Nat → Prop
  | root : LeftEdge s s.root
  | child {x y : Nat} {N : Node C} {c : Child C} {cs : List (Child C)} : LeftEdge s x → s.inn.get x = some N → N.children = c :: cs →
      c.arena = .internal y → LeftEdge s y

theorem leftEdge_iff {s : Tree E C} {x : Nat} : LeftEdge s x ↔ LSp s x := by
  constructor
  · intro h
    induction h with
    | root => exact .root
    | @child x y N c cs _ h1 h2 h3 ih => exact .step ih (by rw [kids_of h1, h2, ← h3]; rfl)
  · intro h
    induction h with
    | root => exact .root
    | @step q y _ h2 ih =>
      obtain ⟨N, hN⟩ := live_of_kid (head?_edge h2)
      rw [kids_of hN] at h2
      cases hc : N.children with
      | nil => rw [hc] at h2; cases h2
      | cons c cs =>
        rw [hc] at h2
        exact .child ih hN hc (Option.some.inj h2)

/-- What is claimed of the tree at the end of a history: the exact root cache, no node stored that cannot be reached, the
bounds `off` and `on` from below for the children of inner nodes off and on the left edge, and `check()` passing unless the tree is empty
or its paths may be too long. -/
structure Sound [DecidableEq C] (B : Trait E C D) (A : Law B) (off on : Nat) (s : Tree E C) : Prop where
  cache : (abs s).es ≠ [] → s.rootCache = A.total ((abs s).es.map fun x => B.elemCache x.2)
  stored : ∀ x, s.inn.get x ≠ none → Reach s (.internal x)
  leaves : ∀ l, s.lf.get l ≠ none → Reach s (.leaf l)
  few : ∀ x N, s.inn.get x = some N → N.children.length ≤ 11
  many : ∀ x N, s.inn.get x = some N → x ≠ s.root → on ≤ N.children.length ∧ (¬ LeftEdge s x → off ≤ N.children.length)
  passes : (abs s).es ≠ [] → (∀ d, depth s = .ok d → d ≤ 9) → check B s = .ok ()

theorem Inv.sound [DecidableEq C] {B : Trait E C D} {A : Law B} {m : Fill} {s : Tree E C} (hm : 1 ≤ m.lo) (hi : Inv A m s) :
    Sound B A (m.lo + m.d) m.lo s where
  cache := C07_root_cache hm hi
  stored := fun x hx => ((C28_reachable hi).1 x).mp hx
  leaves := fun l hl => ((C28_reachable hi).2 l).mp hl
  few := fun x N hx => by
    obtain ⟨h, hi⟩ := hi
    have := hi.sz x (lnk_isSome.mpr ⟨N, hx⟩) (fun h => h)
    rw [chs_of hx] at this
    exact this.1
  many := fun x N hx hr => by
    obtain ⟨h, hi⟩ := hi
    have := hi.sz x (lnk_isSome.mpr ⟨N, hx⟩) (fun h => h)
    rw [chs_of hx] at this
    exact ⟨(this.2.1 hr).1, fun hl => (this.2.1 hr).2 (fun h => hl (leftEdge_iff.mpr h))⟩
  passes := fun hne hd => by
    obtain ⟨h, h9, hi⟩ := hi.depth_low hm hne hd
    have ho : order s ≠ [] := fun h => hne ((abs_nil hi).mpr h)
    have ne := hi.ne hm
    obtain ⟨lvl, g⟩ := hi.ex
    exact check_ok g ne h9 fun h => absurd h ho

/-- Every valid history of all operations from `new()`, for traits that obey `LawE`: it runs without panic, and the tree at its end is
sound, with 5 to 11 children off the left edge. -/
theorem C49_history [DecidableEq C] {B : Trait E C D} {A : Law B} (hE : LawE A) {R : C → D → C → Prop} {cont : E → List X} (K : ContentLaw B A.okE cont)
    (L : DiffLaw A R) {ho : HashOrd E} (hho : ∀ l, (ho.idx l).Perm l) (hcur : ∀ l, (ho.cur l).Perm l) (hgrp : ∀ l, (ho.grp l).Perm l)
    {os : List (BOp E C D)} (hv : validB A R ⟨1, 4⟩ ho (newTree B) os) :
    ∃ s, runB B ho (newTree B) os = .ok s ∧ Sound B A 5 1 s := by
  obtain ⟨s, h1, h2, -⟩ := brun K (by decide) (.inr hE) L hho hcur hgrp os ⟨1, new_inv A ⟨1, 4⟩⟩ hv
  exact ⟨s, h1, h2.sound (Nat.le_refl 1)⟩

/-- Without drains (`valid` asks for `m.lo = 1` there) every trait will do, and every node but the root has at least 5 children. -/
theorem C49_history_no_drain [DecidableEq C] {B : Trait E C D} {A : Law B} {R : C → D → C → Prop} {cont : E → List X} (K : ContentLaw B A.okE cont)
    (L : DiffLaw A R) {ho : HashOrd E} (hho : ∀ l, (ho.idx l).Perm l) (hcur : ∀ l, (ho.cur l).Perm l) (hgrp : ∀ l, (ho.grp l).Perm l)
    {os : List (BOp E C D)} (hv : validB A R 5 ho (newTree B) os) :
    ∃ s, runB B ho (newTree B) os = .ok s ∧ Sound B A 5 5 s := by
  obtain ⟨s, h1, h2, -⟩ := brun (m := 5) K (by decide) (.inl (by decide)) L hho hcur hgrp os ⟨1, new_inv A 5⟩ hv
  exact ⟨s, h1, h2.sound (by decide)⟩

theorem fillRow_five : ∀ k, fillRow ⟨1, 4⟩ k = 5 ^ k + 1
  | 0 => rfl
  | k + 1 => by
    have := Nat.one_le_pow k 5 (by decide)
    have h : fillRow ⟨1, 4⟩ (k + 1) = 5 * fillRow ⟨1, 4⟩ k - 4 := rfl
    rw [h, fillRow_five k, Nat.pow_succ]
    omega

theorem InvH.depth_ok {B : Trait E C D} {A : Law B} {m : Fill} {s : Tree E C} {h : Nat} (hi : InvH A m h s) (hm : 1 ≤ m.lo) {d : Nat}
    (hd : depth s = .ok d) : d = h := by
  have ne := hi.ne hm
  obtain ⟨lvl, g⟩ := hi.ex
  have ho : order s ≠ [] := by
    intro ho
    obtain ⟨N, hN, -⟩ := g.wf.root
    have hc : N.children = [] := by rw [← chs_of hN]; exact (empty_iff g.wf ne).mp ho
    rw [depth] at hd
    cases hf : s.fuel with
    | zero => rw [hf] at hd; cases hd
    | succ n =>
      rw [hf, depthF, getIn_ok hN] at hd
      simp [hc, unwrap, bind_ok] at hd
  have hdh := depth_spec g.wf ne ho
  rw [hd] at hdh
  cases hdh
  rfl

/-- The depth is logarithmic in the number of elements, after drains too: a tree of `d ≥ 2` levels has more than `5^(d-1)` elements.
So the conditions on `depth()` in `validB` hold of themselves while there are fewer than 390626 elements. -/
theorem C49_depth {B : Trait E C D} {A : Law B} {s : Tree E C} (hi : Inv A ⟨1, 4⟩ s) {d : Nat} (hd : depth s = .ok d) :
    (2 ≤ d → 5 ^ (d - 1) < (abs s).es.length) ∧ ((abs s).es.length < 390626 → d ≤ 8) := by
  have key : 2 ≤ d → 5 ^ (d - 1) < (abs s).es.length := by
    intro h2
    obtain ⟨h, hi⟩ := hi
    cases hi.depth_ok (Nat.le_refl 1) hd
    obtain ⟨lvl, g⟩ := hi.ex
    have := height_bound_fill g.wf hi.sz h2
    rw [fillRow_five] at this
    exact this
  refine ⟨key, fun hn => ?_⟩
  apply Decidable.byContradiction
  intro h7
  have h1 := key (by omega)
  have h2 : 5 ^ 8 ≤ 5 ^ (d - 1) := Nat.pow_le_pow_right (by decide) (by omega)
  have : (5 : Nat) ^ 8 = 390625 := by decide
  omega

theorem c49_ok (a b c d : UInt8) : (ropeLaw 4).okE ⟨[a, b, c, d], 3, 1⟩ := ⟨by simp [GapBuf.WF], rfl⟩

/-- two chunks, then a drain from the middle of the first to the middle of the second -/
example : ∃ s, runB ropeTrait ⟨List.reverse, List.reverse, List.reverse⟩ (newTree ropeTrait)
    [.basic (.push ⟨[1, 2, 3, 0], 3, 1⟩), .basic (.push ⟨[4, 5, 6, 0], 3, 1⟩), .drain ⟨0, 1⟩ ⟨1, 2⟩ 0] = .ok s ∧ Sound ropeTrait (ropeLaw 4) 5 1 s := by
  refine C49_history (ropeLawE 4) (ropeContent 4) (C21_rope_diffs 4) List.reverse_perm List.reverse_perm List.reverse_perm
    ⟨c49_ok 1 2 3 0, fun s1 h1 => ⟨c49_ok 4 5 6 0, fun s2 h2 => ?_⟩⟩
  cases h1
  cases h2
  refine ⟨⟨rfl, fun d hd => ?_, ⟨by decide, [], ⟨[1, 2, 3, 0], 3, 1⟩, [(1, ⟨[4, 5, 6, 0], 3, 1⟩)], [(0, ⟨[1, 2, 3, 0], 3, 1⟩)], ⟨[4, 5, 6, 0], 3, 1⟩, [], rfl, by decide,
    rfl, by decide, by decide⟩, fun i hi => ?_⟩, fun _ _ => trivial⟩
  · cases hd; decide
  · cases hi; decide

/-- a map in which keys were inserted in bulk -/
example : ∃ s, runB (ordTrait Nat Nat) ⟨id, id, id⟩ (newTree (ordTrait Nat Nat)) [.basic (.push (1, 1)), .insertMany ⟨0, 0⟩ [(0, 0)]] = .ok s ∧
    Sound (ordTrait Nat Nat) (ordLaw Nat Nat) 5 5 s := by
  refine C49_history_no_drain (ordContent Nat Nat) (C21_ord_diffs Nat Nat) (fun _ => .refl _) (fun _ => .refl _) (fun _ => .refl _)
    ⟨trivial, fun s1 h1 => ⟨?_, fun _ _ => trivial⟩⟩
  cases h1
  exact ⟨fun _ _ => trivial, (1, 1), by decide +kernel, by decide⟩

/-- thirty chunks -/
example : 5 ^ (2 - 1) < (abs ropeSample).es.length ∧ ((abs ropeSample).es.length < 390626 → 2 ≤ 8) :=
  (C49_depth (let ⟨h, _, hi⟩ := ropeSample_low; ⟨h, hi⟩) (d := 2) (by rfl)).imp (· (Nat.le_refl 2)) id

/-- The left edge after draining the first five of thirty chunks. -/
def thinTest : Bool :=
  match drain ropeTrait ropeSample ⟨⟨0, 0⟩, true⟩ ⟨⟨5, 0⟩, true⟩ 0 with
  | .ok (_, _, s) =>
    match (s.inn.get s.root).bind (·.children.head?) with
    | some ⟨.internal x, _⟩ =>
      match s.inn.get x with
      | some N => decide (x ≠ s.root) && decide (N.children.length = 1)
      | none => false
    | _ => false
  | .error _ => false

theorem thinTest_true : thinTest = true := by decide +kernel

/-- Draining the first five of thirty chunks leaves a node with one child on the left edge. -/
theorem C49_thin_left_edge : ∃ (out rest : List GapBuf) (s : Tree GapBuf Int) (x : Nat) (N : Node Int),
    drain ropeTrait ropeSample ⟨⟨0, 0⟩, true⟩ ⟨⟨5, 0⟩, true⟩ 0 = .ok (out, rest, s) ∧
      s.inn.get x = some N ∧ x ≠ s.root ∧ LeftEdge s x ∧ N.children.length = 1 := by
  have h := thinTest_true
  unfold thinTest at h
  split at h
  · next out rest s hd =>
    split at h
    · next x c hx =>
      split at h
      · next N hN =>
        simp only [Bool.and_eq_true, decide_eq_true_eq] at h
        obtain ⟨R, hR, hc⟩ := Option.bind_eq_some_iff.mp hx
        obtain ⟨cs, hcs⟩ := List.head?_eq_some_iff.mp hc
        exact ⟨out, rest, s, x, N, hd, hN, h.1, .child .root hR hcs rfl, h.2⟩
      · cases h
    · cases h
  · cases h

def staleTest : Bool :=
  match drain (ordTrait Nat Nat) ordSample ⟨⟨0, 0⟩, true⟩ ⟨⟨5, 0⟩, true⟩ 0 with
  | .ok (_, _, s) =>
    match check (ordTrait Nat Nat) s, removeLeaf (ordTrait Nat Nat) s ⟨5, 0⟩ with
    | .ok (), .ok (some e, s') =>
      match check (ordTrait Nat Nat) s' with
      | .error .panic => decide (e = (10, 5)) && decide ((abs s').es.map Prod.snd = (List.range 24).map (fun i => (2 * (i + 6), i + 6))) &&
          decide (s'.rootCache = some (10, 58))
      | _ => false
    | _, _ => false
  | .error _ => false

theorem staleTest_true : staleTest = true := by decide +kernel

/-- **False for traits that do not obey `LawE`**: in the ordered map's tree, drain the first five of thirty entries, then remove the sixth.
The root cache still has the key of the removed entry as its least key, and `check()` panics. -/
theorem C49_drain_then_remove_false : ∃ out rest s s', drain (ordTrait Nat Nat) ordSample ⟨⟨0, 0⟩, true⟩ ⟨⟨5, 0⟩, true⟩ 0 = .ok (out, rest, s) ∧
    check (ordTrait Nat Nat) s = .ok () ∧ removeLeaf (ordTrait Nat Nat) s ⟨5, 0⟩ = .ok (some (10, 5), s') ∧
    (abs s').es.map Prod.snd = (List.range 24).map (fun i => (2 * (i + 6), i + 6)) ∧ s'.rootCache = some (10, 58) ∧
    check (ordTrait Nat Nat) s' = .error .panic := by
  have h := staleTest_true
  unfold staleTest at h
  split at h
  · next out rest s hd =>
    split at h
    · next e s' h1 h2 =>
      split at h
      · next h3 =>
        simp only [Bool.and_eq_true, decide_eq_true_eq] at h
        obtain ⟨⟨rfl, h4⟩, h5⟩ := h
        exact ⟨out, rest, s, s', hd, h1, h2, h4, h5, h3⟩
      · cases h
    · cases h
  · cases h

end GB
