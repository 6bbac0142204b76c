import Verif.Proof.Arena

/-!
# The invariants

`WF` is the structural invariant: parent links and slots agree with child lists, leaves at uniform
depth, every stored node reachable.  It is *local*: each clause talks about one edge.  `lvl` (the
level of an internal node, 1 for leaf parents) and `h` (the level of the root) are ghost values.
-/

namespace GB
variable {E C D : Type}
open Tree

/-- the child indices of a node (empty for a node that is not stored) -/
def kids (s : Tree E C) (x : Nat) : List Idx :=
  match s.inn.get x with
  | some N => N.children.map Child.arena
  | none => []

theorem kids_of {s : Tree E C} {x : Nat} {N : Node C} (h : s.inn.get x = some N) :
    kids s x = N.children.map Child.arena := by simp [kids, h]

/-- `a` is the `i`-th child of node `p` -/
abbrev Edge (s : Tree E C) (p i : Nat) (a : Idx) : Prop := (kids s p)[i]? = some a

theorem live_of_kid {s : Tree E C} {x i : Nat} {a : Idx} (h : Edge s x i a) :
    ∃ N, s.inn.get x = some N := by
  simp only [Edge, kids] at h
  split at h
  · exact ⟨_, ‹_›⟩
  · simp at h

/-- the structural invariant -/
structure WF (s : Tree E C) (lvl : Nat → Nat) (h : Nat) : Prop where
  root : ∃ N, s.inn.get s.root = some N ∧ N.parent = none
  root_lvl : lvl s.root = h
  h_pos : 1 ≤ h
  h_le : h ≤ s.inn.items.length
  kid_in : ∀ p i y, Edge s p i (.internal y) →
    lvl p = lvl y + 1 ∧ ∃ M, s.inn.get y = some M ∧ M.parent = some p ∧ M.slot = i
  kid_lf : ∀ p i l, Edge s p i (.leaf l) →
    lvl p = 1 ∧ ∃ L, s.lf.get l = some L ∧ L.parent = p
  uniq : ∀ p i j l, Edge s p i (.leaf l) → Edge s p j (.leaf l) → i = j
  lvl_pos : ∀ p N, s.inn.get p = some N → 1 ≤ lvl p ∧ lvl p ≤ h
  par_in : ∀ y M, s.inn.get y = some M → y ≠ s.root → ∃ p i, Edge s p i (.internal y)
  par_lf : ∀ l L, s.lf.get l = some L → ∃ p i, Edge s p i (.leaf l)

namespace WF
variable {s : Tree E C} {lvl : Nat → Nat} {h : Nat}

/-- the parent link of a non-root node points to the node that lists it -/
theorem parent_in (w : WF s lvl h) {y : Nat} {M : Node C} (hy : s.inn.get y = some M) (hr : y ≠ s.root) :
    ∃ p, M.parent = some p ∧ Edge s p M.slot (.internal y) ∧ lvl p = lvl y + 1 := by
  obtain ⟨p, i, hk⟩ := w.par_in y M hy hr
  obtain ⟨hl, M', hM', hp, hs⟩ := w.kid_in p i y hk
  rw [hy] at hM'
  cases hM'
  exact ⟨p, hp, hs ▸ hk, hl⟩

theorem parent_lf (w : WF s lvl h) {l : Nat} {L : LeafNode E} (hl : s.lf.get l = some L) :
    ∃ i, Edge s L.parent i (.leaf l) ∧ lvl L.parent = 1 := by
  obtain ⟨p, i, hk⟩ := w.par_lf l L hl
  obtain ⟨h1, L', hL', hp⟩ := w.kid_lf p i l hk
  rw [hl] at hL'
  cases hL'
  exact ⟨i, hp ▸ hk, hp ▸ h1⟩

/-- a node without parent is the root -/
theorem root_of_parent_none (w : WF s lvl h) {y : Nat} {M : Node C} (hy : s.inn.get y = some M)
    (hp : M.parent = none) : y = s.root := by
  apply Decidable.byContradiction
  intro hr
  obtain ⟨p, h1, -⟩ := w.parent_in hy hr
  simp [hp] at h1

theorem root_not_kid (w : WF s lvl h) {p i : Nat} : ¬ Edge s p i (.internal s.root) := by
  intro hk
  obtain ⟨N, hN, hp⟩ := w.root
  obtain ⟨-, M, hM, hp', -⟩ := w.kid_in p i _ hk
  rw [hN] at hM
  cases hM
  simp [hp] at hp'

theorem parent_some (w : WF s lvl h) {y : Nat} {M : Node C} {p : Nat} (hy : s.inn.get y = some M)
    (hp : M.parent = some p) : y ≠ s.root ∧ Edge s p M.slot (.internal y) ∧ lvl p = lvl y + 1 := by
  have hr : y ≠ s.root := by
    intro e
    obtain ⟨N, hN, hn⟩ := w.root
    rw [e, hN] at hy
    cases hy
    simp [hn] at hp
  obtain ⟨p', h1, h2, h3⟩ := w.parent_in hy hr
  rw [hp] at h1
  cases h1
  exact ⟨hr, h2, h3⟩

/-- a child determines its parent and its position -/
theorem kid_in_inj (w : WF s lvl h) {p q i j y : Nat} (h1 : Edge s p i (.internal y))
    (h2 : Edge s q j (.internal y)) : p = q ∧ i = j := by
  obtain ⟨-, M, hM, hp, hs⟩ := w.kid_in _ _ _ h1
  obtain ⟨-, M', hM', hp', hs'⟩ := w.kid_in _ _ _ h2
  rw [hM] at hM'
  cases hM'
  rw [hp] at hp'
  cases hp'
  exact ⟨rfl, by omega⟩

theorem kid_lf_inj (w : WF s lvl h) {p q i j l : Nat} (h1 : Edge s p i (.leaf l))
    (h2 : Edge s q j (.leaf l)) : p = q ∧ i = j := by
  obtain ⟨-, M, hM, hp⟩ := w.kid_lf _ _ _ h1
  obtain ⟨-, M', hM', hp'⟩ := w.kid_lf _ _ _ h2
  rw [hM] at hM'
  cases hM'
  subst hp hp'
  exact ⟨rfl, w.uniq _ _ _ _ h1 h2⟩

theorem kid_inj (w : WF s lvl h) {p q i j : Nat} {a : Idx} (h1 : Edge s p i a)
    (h2 : Edge s q j a) : p = q ∧ i = j := by
  cases a with
  | leaf l => exact w.kid_lf_inj h1 h2
  | internal y => exact w.kid_in_inj h1 h2

theorem kids_nodup (w : WF s lvl h) (p : Nat) : (kids s p).Nodup := by
  rw [List.Nodup, List.pairwise_iff_getElem]
  intro i j hi hj hij e
  have h1 : Edge s p i (kids s p)[i] := List.getElem?_eq_getElem hi
  have h2 : Edge s p j (kids s p)[i] := by rw [e]; exact List.getElem?_eq_getElem hj
  have := (w.kid_inj h1 h2).2
  omega

/-- children of a node of level 1 are leaves, of a higher node internal nodes -/
theorem kid_leaf_iff (w : WF s lvl h) {p i : Nat} {a : Idx} (hk : Edge s p i a) :
    lvl p = 1 ↔ ∃ l, a = .leaf l := by
  cases a with
  | leaf l => exact ⟨fun _ => ⟨l, rfl⟩, fun _ => (w.kid_lf _ _ _ hk).1⟩
  | internal y =>
    obtain ⟨hl, M, hM, -⟩ := w.kid_in _ _ _ hk
    have := (w.lvl_pos y M hM).1
    constructor
    · intro e; omega
    · rintro ⟨l, e⟩; cases e

theorem live_lt (w : WF s lvl h) {y : Nat} {M : Node C} (hy : s.inn.get y = some M) (hr : y ≠ s.root) :
    lvl y < h := by
  obtain ⟨p, -, hk, hl⟩ := w.parent_in hy hr
  obtain ⟨N, hN⟩ := live_of_kid hk
  have := (w.lvl_pos p N hN).2
  omega

end WF

/-! ## Same shape: states that differ only in caches and elements -/

/-- link data of a node without caches -/
def Node.shape (N : Node C) : Option Nat × Nat × List Idx := (N.parent, N.slot, N.children.map Child.arena)

/-- The two states have the same nodes, links and child indices. -/
structure SameShape (s s' : Tree E C) : Prop where
  root : s'.root = s.root
  items : s'.inn.items.length = s.inn.items.length
  lfitems : s'.lf.items.length = s.lf.items.length
  inn : ∀ x, (s'.inn.get x).map Node.shape = (s.inn.get x).map Node.shape
  lf : ∀ l, (s'.lf.get l).map LeafNode.parent = (s.lf.get l).map LeafNode.parent

namespace SameShape
variable {s s' s'' : Tree E C}

theorem refl (s : Tree E C) : SameShape s s := ⟨rfl, rfl, rfl, fun _ => rfl, fun _ => rfl⟩

theorem trans (h : SameShape s s') (h' : SameShape s' s'') : SameShape s s'' :=
  ⟨h'.root.trans h.root, h'.items.trans h.items, h'.lfitems.trans h.lfitems,
    fun x => (h'.inn x).trans (h.inn x), fun l => (h'.lf l).trans (h.lf l)⟩

theorem symm (h : SameShape s s') : SameShape s' s :=
  ⟨h.root.symm, h.items.symm, h.lfitems.symm, fun x => (h.inn x).symm, fun l => (h.lf l).symm⟩

theorem get (h : SameShape s s') {x : Nat} {N : Node C} (hx : s.inn.get x = some N) :
    ∃ N', s'.inn.get x = some N' ∧ N'.parent = N.parent ∧ N'.slot = N.slot ∧
      N'.children.map Child.arena = N.children.map Child.arena := by
  have := h.inn x
  rw [hx] at this
  cases hx' : s'.inn.get x with
  | none => simp [hx'] at this
  | some N' =>
    rw [hx'] at this
    simp only [Option.map_some, Option.some.injEq, Node.shape, Prod.mk.injEq] at this
    exact ⟨N', rfl, this.1, this.2.1, this.2.2⟩

theorem getLf (h : SameShape s s') {x : Nat} {N : LeafNode E} (hx : s.lf.get x = some N) :
    ∃ N', s'.lf.get x = some N' ∧ N'.parent = N.parent := by
  have := h.lf x
  rw [hx] at this
  cases hx' : s'.lf.get x with
  | none => simp [hx'] at this
  | some N' =>
    rw [hx'] at this
    simp only [Option.map_some, Option.some.injEq] at this
    exact ⟨N', rfl, this⟩

theorem kids (h : SameShape s s') (x : Nat) : kids s' x = kids s x := by
  cases hx : s.inn.get x with
  | none =>
    have := h.inn x
    rw [hx] at this
    cases hx' : s'.inn.get x with
    | none => simp [GB.kids, hx, hx']
    | some N => simp [hx'] at this
  | some N =>
    obtain ⟨N', hx', -, -, hc⟩ := h.get hx
    rw [kids_of hx, kids_of hx', hc]

theorem edge (h : SameShape s s') {p i : Nat} {a : Idx} : Edge s' p i a ↔ Edge s p i a := by
  simp only [Edge, h.kids]

theorem wf (h : SameShape s s') {lvl : Nat → Nat} {n : Nat} (w : WF s lvl n) : WF s' lvl n where
  root := by
    obtain ⟨N, hN, hp⟩ := w.root
    obtain ⟨N', h1, h2, -⟩ := h.get hN
    exact ⟨N', h.root ▸ h1, h2.trans hp⟩
  root_lvl := by rw [h.root]; exact w.root_lvl
  h_pos := w.h_pos
  h_le := by rw [h.items]; exact w.h_le
  kid_in := by
    intro p i y hk
    rw [h.edge] at hk
    obtain ⟨h1, M, hM, hp, hs⟩ := w.kid_in p i y hk
    obtain ⟨M', hM', hp', hs', -⟩ := h.get hM
    exact ⟨h1, M', hM', hp'.trans hp, hs'.trans hs⟩
  kid_lf := by
    intro p i y hk
    rw [h.edge] at hk
    obtain ⟨h1, M, hM, hp⟩ := w.kid_lf p i y hk
    obtain ⟨M', hM', hp'⟩ := h.getLf hM
    exact ⟨h1, M', hM', hp'.trans hp⟩
  uniq := by
    intro p i j l
    rw [h.edge, h.edge]
    exact w.uniq p i j l
  lvl_pos := by
    intro p N hN
    obtain ⟨N', hN', -⟩ := h.symm.get hN
    exact w.lvl_pos p N' hN'
  par_in := by
    intro y M hM hr
    obtain ⟨N', hN', -⟩ := h.symm.get hM
    rw [h.root] at hr
    obtain ⟨p, i, hk⟩ := w.par_in y N' hN' hr
    exact ⟨p, i, by rw [h.edge]; exact hk⟩
  par_lf := by
    intro y M hM
    obtain ⟨N', hN', -⟩ := h.symm.getLf hM
    obtain ⟨p, i, hk⟩ := w.par_lf y N' hN'
    exact ⟨p, i, by rw [h.edge]; exact hk⟩

/-- overwriting a node by one with the same shape -/
theorem setIn {x : Nat} {N N' : Node C} (hx : s.inn.get x = some N) (hs : N'.shape = N.shape) :
    SameShape s (s.setIn x N') where
  root := rfl
  items := by simp
  lfitems := rfl
  inn := by
    intro y
    simp only [setIn_inn, Arena.get_set_live hx]
    split
    · next e => subst e; simp [hx, hs]
    · rfl
  lf := fun _ => rfl

theorem setLf {x : Nat} {N N' : LeafNode E} (hx : s.lf.get x = some N) (hs : N'.parent = N.parent) :
    SameShape s (s.setLf x N') where
  root := rfl
  items := rfl
  lfitems := by simp
  inn := fun _ => rfl
  lf := by
    intro y
    simp only [setLf_lf, Arena.get_set_live hx]
    split
    · next e => subst e; simp [hx, hs]
    · rfl

theorem rootCache (s : Tree E C) (c : C) : SameShape s { s with rootCache := c } :=
  ⟨rfl, rfl, rfl, fun _ => rfl, fun _ => rfl⟩

end SameShape

/-! ## The sequence of leaves -/

theorem flatMap_congr' {α β : Type} {l : List α} {f g : α → List β} (h : ∀ a ∈ l, f a = g a) :
    l.flatMap f = l.flatMap g := by
  induction l with
  | nil => rfl
  | cons a l ih =>
    rw [List.flatMap_cons, List.flatMap_cons, h a (by simp), ih (fun b hb => h b (by simp [hb]))]

/-- leaves below a child index, `n` levels deep -/
def leavesAt (s : Tree E C) : Nat → Nat → List Nat
  | 0, _ => []
  | n + 1, x => (kids s x).flatMap fun a => match a with
    | .leaf l => [l]
    | .internal y => leavesAt s n y

/-- The in-order list of leaf indices: left-to-right traversal of the child lists from the root.
(`inn.items.length` bounds the depth.) -/
def order (s : Tree E C) : List Nat := leavesAt s s.inn.items.length s.root

theorem leavesAt_stable {s : Tree E C} {lvl : Nat → Nat} {h : Nat} (w : WF s lvl h) :
    ∀ (n x : Nat), (∃ N, s.inn.get x = some N) → lvl x ≤ n → leavesAt s n x = leavesAt s (lvl x) x := by
  intro n
  induction n with
  | zero =>
    intro x ⟨N, hN⟩ hn
    have := (w.lvl_pos x N hN).1
    omega
  | succ n ih =>
    intro x ⟨N, hN⟩ hn
    have h1 := (w.lvl_pos x N hN).1
    obtain ⟨k, hk⟩ : ∃ k, lvl x = k + 1 := ⟨lvl x - 1, by omega⟩
    rw [hk]
    simp only [leavesAt]
    apply flatMap_congr'
    intro a ha
    cases a with
    | leaf l => rfl
    | internal y =>
      obtain ⟨i, hi⟩ := List.mem_iff_getElem?.mp ha
      obtain ⟨e, M, hM, -⟩ := w.kid_in x i y hi
      simp only
      rw [ih y ⟨M, hM⟩ (by omega)]
      have : k = lvl y := by omega
      rw [this]

theorem order_eq {s : Tree E C} {lvl : Nat → Nat} {h : Nat} (w : WF s lvl h) :
    order s = leavesAt s h s.root := by
  obtain ⟨N, hN, -⟩ := w.root
  rw [order, leavesAt_stable w _ _ ⟨N, hN⟩ (by rw [w.root_lvl]; exact w.h_le), w.root_lvl]

end GB
