import Verif.Proof.CountChildren
import Verif.Props.C49
import Verif.Proof.SampleTwo

/-!
# C52: number of nodes

`internal_avg_children_num` divides the number of children of all internal nodes by the number of internal nodes.
-/

namespace GB
variable {E C D X : Type}
open Tree

theorem foldl_sum {α : Type} (f : α → Nat) : ∀ (l : List α) (a : Nat), l.foldl (fun sum n => sum + f n) a = a + (l.map f).sum
  | [], a => by simp
  | x :: l, a => by rw [List.foldl_cons, foldl_sum f l]; simp; omega

/-- The two numbers `internal_avg_children_num` divides: every node but the root is a child of exactly one node, so there are
as many children as inner nodes and elements, less one.  The divisor is not zero. -/
theorem C52_children {B : Trait E C D} {A : Law B} {m : Fill} {s : Tree E C} (hi : Inv A m s) {sum n : Nat} (h : internalAvgChildrenNum s = (sum, n)) :
    1 ≤ n ∧ sum + 1 = n + (abs s).es.length ∧ nodeLen s = sum + 1 ∧ sum ≤ 11 * n := by
  have hl := fun h' i => lf_len (h := h') (s := s) (A := A) (m := m) i
  obtain ⟨h', hi⟩ := hi
  have hl := hl h' hi
  obtain ⟨⟨lvl, g⟩, sz⟩ := hi
  cases h
  have h1 := sum_children g.wf
  have h2 : (order s).length = (abs s).es.length := (entries_length g.wf).symm
  rw [foldl_sum, Nat.zero_add]
  have h3 : ∀ l : List (Node C), (∀ x ∈ l, x.children.length ≤ 11) → (l.map fun n => n.children.length).sum ≤ 11 * l.length := by
    intro l
    induction l with
    | nil => intro _; simp
    | cons x l ih =>
      intro hx
      have := ih (fun y hy => hx y (by simp [hy]))
      have := hx x (by simp)
      simp only [List.map_cons, List.sum_cons, List.length_cons]
      omega
  have h4 := h3 (s.inn.items.filterMap id) (by
    intro N hN
    obtain ⟨o, ho, hoN⟩ := List.mem_filterMap.mp hN
    cases hoN
    obtain ⟨x, hx⟩ := List.mem_iff_getElem?.mp ho
    have hx : s.inn.get x = some N := by rw [Arena.get, hx]; rfl
    have := (sz x (lnk_isSome.mpr ⟨N, hx⟩) (fun h => h)).1
    rwa [chs_of hx] at this)
  have h5 : ∀ l : List (Option (Node C)), (l.filterMap id).length = l.countP Option.isSome := by
    intro l
    induction l with
    | nil => rfl
    | cons o l ih => cases o <;> simp [ih]
  rw [h5] at h4
  have h6 : s.inn.len = s.inn.items.countP Option.isSome := rfl
  have h7 : 1 ≤ s.inn.len := by
    rw [inn_len g.wf]
    obtain ⟨N, hN, -⟩ := g.wf.root
    exact List.length_pos_of_mem ((nodesAbove_all g.wf s.root).mpr (by rw [hN]; simp))
  rw [nodeLen, hl]
  omega

theorem inn_len_one {s : Tree E C} {lvl : Nat → Nat} (w : WF s lvl 1) : s.inn.len = 1 := by
  rw [inn_len w]; rfl

/-- Trees are of size linear in the number of elements: beside the root there is at most one inner node for four elements. -/
theorem C52_space {B : Trait E C D} {A : Law B} {s : Tree E C} (hi : Inv A 5 s) : 4 * nodeLen s ≤ 5 * (abs s).es.length + 4 := by
  obtain ⟨h, hi⟩ := hi
  have hl := lf_len hi
  obtain ⟨⟨lvl, g⟩, sz⟩ := hi
  have h2 : (order s).length = (abs s).es.length := (entries_length g.wf).symm
  rw [nodeLen, hl]
  rcases Nat.lt_or_ge h 2 with h1 | h1
  · have : h = 1 := by have := g.wf.h_pos; omega
    subst this
    rw [inn_len_one g.wf]
    omega
  · have h3 := inn_len_fill g.wf sz (by decide) h1
    have h4 : (4 : Nat) * (s.inn.len - 1) + 2 ≤ (order s).length + (h - 1) * 0 := h3
    omega

theorem inv_space {B : Trait E C D} {A : Law B} {s : Tree E C} {d : Nat} (hi : InvH A ⟨1, 4⟩ d s) :
    4 * nodeLen s ≤ 5 * (abs s).es.length + 4 * d := by
  have hl := lf_len hi
  obtain ⟨⟨lvl, g⟩, sz⟩ := hi
  have h2 : (order s).length = (abs s).es.length := (entries_length g.wf).symm
  have h0 := g.wf.h_pos
  rw [nodeLen, hl]
  rcases Nat.lt_or_ge d 2 with h1 | h1
  · have : d = 1 := by omega
    subst this
    rw [inn_len_one g.wf]
    omega
  · have h3 := inn_len_fill g.wf sz (Nat.le_refl 1) h1
    have h4 : (4 : Nat) * (s.inn.len - 1) + 2 ≤ (order s).length + (d - 1) * 4 := h3
    omega

/-- After drains there can be one more on each level. -/
theorem C52_space_drained {B : Trait E C D} {A : Law B} {s : Tree E C} (hi : Inv A ⟨1, 4⟩ s) {d : Nat} (hd : depth s = .ok d) :
    4 * nodeLen s ≤ 5 * (abs s).es.length + 4 * d := by
  obtain ⟨h, hi⟩ := hi
  have hdh := hi.depth_ok (Nat.le_refl 1) hd
  subst hdh
  exact inv_space hi

/-- After a valid history of all operations without drains, on a tree from `new()`. -/
theorem C52_history {B : Trait E C D} {A : Law B} {R : C → D → C → Prop} {cont : E → List X} (K : ContentLaw B A.okE cont) (L : DiffLaw A R)
    {ho : HashOrd E} (hho : ∀ l, (ho.idx l).Perm l) (hcur : ∀ l, (ho.cur l).Perm l) (hgrp : ∀ l, (ho.grp l).Perm l)
    {os : List (BOp E C D)} (hv : validB A R 5 ho (newTree B) os) :
    ∃ s, runB B ho (newTree B) os = .ok s ∧ 4 * nodeLen s ≤ 5 * (abs s).es.length + 4 := by
  obtain ⟨s, h1, h2, -⟩ := brun (m := 5) K (by decide) (.inl (by decide)) L hho hcur hgrp os ⟨1, new_inv A 5⟩ hv
  exact ⟨s, h1, C52_space h2⟩

/-- After a valid history of all operations, for traits that obey `LawE`. -/
theorem C52_history_drained {B : Trait E C D} {A : Law B} (hE : LawE A) {R : C → D → C → Prop} {cont : E → List X} (K : ContentLaw B A.okE cont)
    (L : DiffLaw A R) {ho : HashOrd E} (hho : ∀ l, (ho.idx l).Perm l) (hcur : ∀ l, (ho.cur l).Perm l) (hgrp : ∀ l, (ho.grp l).Perm l)
    {os : List (BOp E C D)} (hv : validB A R ⟨1, 4⟩ ho (newTree B) os) :
    ∃ s, runB B ho (newTree B) os = .ok s ∧ ∀ d, depth s = .ok d → 4 * nodeLen s ≤ 5 * (abs s).es.length + 4 * d := by
  obtain ⟨s, h1, h2, -⟩ := brun K (by decide) (.inr hE) L hho hcur hgrp os ⟨1, new_inv A ⟨1, 4⟩⟩ hv
  exact ⟨s, h1, fun d hd => C52_space_drained h2 hd⟩

/-- `OrdTreeMap` of thirty keys: six inner nodes with 35 children -/
example : internalAvgChildrenNum ordSample = (35, 6) ∧ (35 + 1 = 6 + (abs ordSample).es.length ∧ nodeLen ordSample = 35 + 1) ∧ 4 * nodeLen ordSample ≤ 5 * 30 + 4 :=
  have h : internalAvgChildrenNum ordSample = (35, 6) := by decide +kernel
  have h1 := (C52_children ordSample_spec.1 h).2
  ⟨h, ⟨h1.1, h1.2.1⟩, by
    have := C52_space (let ⟨h, hi⟩ := ordSample_spec.1; ⟨h, hi.ex, Sz.mono hi.sz (by decide) (by decide)⟩)
    rw [ordSample_spec.2] at this
    exact this⟩

/-- the rope of thirty chunks, two levels deep, seen as a tree that may have a thin left edge -/
example : 4 * nodeLen ropeSample ≤ 5 * (abs ropeSample).es.length + 4 * 2 :=
  C52_space_drained (let ⟨h, _, hi⟩ := ropeSample_low; ⟨h, hi⟩) (by rfl)

example := C52_history (ropeContent 4) (C21_rope_diffs 4) (ho := ⟨List.reverse, List.reverse, List.reverse⟩) List.reverse_perm List.reverse_perm List.reverse_perm
  (os := [.basic (.push (chunk 1)), .basic (.push (chunk 2)), .basic (.remove ⟨0, 0⟩)]) ⟨chunk_ok 1, fun _ _ => ⟨chunk_ok 2, fun _ _ => ⟨trivial, fun _ _ => trivial⟩⟩⟩

example := C52_history_drained (ropeLawE 4) (ropeContent 4) (C21_rope_diffs 4) (ho := ⟨List.reverse, List.reverse, List.reverse⟩) List.reverse_perm
  List.reverse_perm List.reverse_perm
  (os := [.basic (.push (chunk 1)), .basic (.push (chunk 2)), .basic (.remove ⟨0, 0⟩)]) ⟨chunk_ok 1, fun _ _ => ⟨chunk_ok 2, fun _ _ => ⟨trivial, fun _ _ => trivial⟩⟩⟩

end GB
