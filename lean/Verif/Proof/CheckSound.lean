import Verif.Proof.Check

/-!
# What `check()` tests

Converse direction: a tree of any shape that passes `check()` has the tested properties.
-/

namespace GB
variable {E C D : Type}
open Tree

/-- `n` parent links lead from the internal node `x` to the root -/
inductive Depth (s : Tree E C) : Nat → Nat → Prop
  | root : Depth s s.root 0
  | step {x n : Nat} {N : Node C} {p : Nat} : x ≠ s.root → s.inn.get x = some N → N.parent = some p → Depth s p n → Depth s x (n + 1)

theorem assertM_inv {b : Bool} {u : Unit} (h : assertM b = .ok u) : b = true := by
  cases b with
  | true => rfl
  | false => cases h

theorem getIn_inv {s : Tree E C} {x : Nat} {N : Node C} (h : s.getIn x = .ok N) : s.inn.get x = some N := by
  simp only [getIn, unwrap] at h
  cases hx : s.inn.get x with
  | none => rw [hx] at h; cases h
  | some c => rw [hx] at h; cases h; rfl

theorem vget_inv {α : Type} {l : List α} {i : Nat} {a : α} (h : vget l i = .ok a) : l[i]? = some a := by
  simp only [vget, unwrap] at h
  cases hx : l[i]? with
  | none => rw [hx] at h; cases h
  | some c => rw [hx] at h; cases h; rfl

theorem checkAll_inv {α : Type} {f : α → M Unit} : ∀ {l : List α}, checkAll f l = .ok () → ∀ a ∈ l, f a = .ok () := by
  intro l
  induction l with
  | nil => intro _ a ha; simp at ha
  | cons b bs ih =>
    intro h a ha
    rw [checkAll] at h
    obtain ⟨u, h1, h2⟩ := bind_inv h
    rcases List.mem_cons.mp ha with rfl | ha
    · exact h1
    · exact ih h2 a ha

theorem checkChildren_inv [DecidableEq C] {B : Trait E C D} {s : Tree E C} {index : Nat} {node : Node C} :
    ∀ {cs : List (Child C)} {i : Nat}, checkChildren B s index node cs i = .ok () → ∀ (j : Nat) (c : Child C) (y : Nat), cs[j]? = some c → c.arena = .internal y →
      node.isChildLeaf = false ∧ ∃ Y d, s.inn.get y = some Y ∧ Y.parent = some index ∧ Y.slot = i + j ∧
        calcCache B Y B.dflt none = .ok (c.cache, d) := by
  intro cs
  induction cs with
  | nil => intro i _ j c y hj; simp at hj
  | cons c0 cs ih =>
    intro i h j c y hj hy
    rw [checkChildren] at h
    have key : checkChildren B s index node cs (i + 1) = .ok () ∧ ∀ y, c0.arena = .internal y →
        node.isChildLeaf = false ∧ ∃ Y d, s.inn.get y = some Y ∧ Y.parent = some index ∧ Y.slot = i ∧
          calcCache B Y B.dflt none = .ok (c0.cache, d) := by
      cases hc0 : c0.arena with
      | leaf l => rw [hc0] at h; exact ⟨h, fun y hy => by cases hy⟩
      | internal y =>
        rw [hc0] at h
        obtain ⟨_, k1, h⟩ := bind_inv h
        obtain ⟨Y, k2, h⟩ := bind_inv h
        obtain ⟨⟨ca, d⟩, k3, h⟩ := bind_inv h
        obtain ⟨_, k4, h⟩ := bind_inv h
        obtain ⟨_, k5, h⟩ := bind_inv h
        obtain ⟨_, k6, h⟩ := bind_inv h
        have k4 := of_decide_eq_true (assertM_inv k4)
        have k5 := of_decide_eq_true (assertM_inv k5)
        have k6 := of_decide_eq_true (assertM_inv k6)
        have k1 := assertM_inv k1
        rw [k6] at k3
        refine ⟨h, fun y' hy' => ?_⟩
        cases hy'
        exact ⟨by simpa using k1, Y, d, getIn_inv k2, k5, k4, k3⟩
    cases j with
    | zero =>
      simp only [List.getElem?_cons_zero, Option.some.injEq] at hj
      subst hj
      exact key.2 y hy
    | succ j =>
      obtain ⟨k1, Y, d, k2, k3, k4, k5⟩ := ih key.1 j c y (by simpa using hj) hy
      exact ⟨k1, Y, d, k2, k3, by omega, k5⟩

theorem checkNode_inv [DecidableEq C] {B : Trait E C D} {s : Tree E C} {x : Nat} {N : Node C} (hN : s.inn.get x = some N)
    (h : checkNode B s x = .ok ()) : (x ≠ s.root → N.children ≠ []) ∧ checkChildren B s x N N.children 0 = .ok () ∧
      (N.parent = none → x = s.root) ∧
      (∀ p, N.parent = some p → ∃ P c, s.inn.get p = some P ∧ P.children[N.slot]? = some c ∧ c.arena = .internal x) := by
  simp only [checkNode, hN] at h
  have key : (x ≠ s.root → N.children ≠ []) ∧ (do
      checkChildren B s x N N.children 0
      match N.parent with
      | some p => do
        let par ← s.getIn p
        let c ← vget par.children N.slot
        assertM (decide (c.arena = .internal x))
        let _ ← getPath s (.internal x)
        pure ()
      | none => assertM (decide (x = s.root)) : M Unit) = .ok () := by
    by_cases hx : x ≠ s.root
    · rw [if_pos hx] at h
      obtain ⟨_, h1, h⟩ := bind_inv h
      refine ⟨fun _ he => ?_, h⟩
      have := assertM_inv h1
      simp [Node.isEmpty, he] at this
    · rw [if_neg hx] at h
      exact ⟨fun h => absurd h hx, h⟩
  obtain ⟨key, h⟩ := key
  obtain ⟨_, h2, h⟩ := bind_inv h
  refine ⟨key, h2, ?_, ?_⟩
  · intro hp
    rw [hp] at h
    exact of_decide_eq_true (assertM_inv h)
  · intro p hp
    rw [hp] at h
    obtain ⟨P, k1, h⟩ := bind_inv h
    obtain ⟨c, k2, h⟩ := bind_inv h
    obtain ⟨_, k3, h⟩ := bind_inv h
    exact ⟨P, c, getIn_inv k1, vget_inv k2, of_decide_eq_true (assertM_inv k3)⟩

theorem levelF_inv {s : Tree E C} : ∀ {n x len k : Nat}, levelF n s x len = .ok k → ∃ d, Depth s x d ∧ k = len + d := by
  intro n
  induction n with
  | zero => intro x len k h; cases h
  | succ n ih =>
    intro x len k h
    rw [levelF] at h
    by_cases hx : x = s.root
    · rw [if_pos hx] at h
      cases h
      subst hx
      exact ⟨0, .root, rfl⟩
    · rw [if_neg hx] at h
      obtain ⟨N, h1, h⟩ := bind_inv h
      obtain ⟨p, h2, h⟩ := bind_inv h
      obtain ⟨d, k1, k2⟩ := ih h
      refine ⟨d + 1, .step hx (getIn_inv h1) ?_ k1, by omega⟩
      simp only [unwrap] at h2
      cases hp : N.parent with
      | none => rw [hp] at h2; cases h2
      | some c => rw [hp] at h2; cases h2; rfl

theorem getLeafSlot_inv {cs : List (Child C)} {l i : Nat} (h : getLeafSlot cs l = .ok i) : ∃ c, cs[i]? = some c ∧ c.arena = .leaf l := by
  induction cs generalizing i with
  | nil => cases h
  | cons c cs ih =>
    rw [getLeafSlot] at h
    obtain ⟨y, h1, h⟩ := bind_inv h
    have hy : c.arena = .leaf y := by
      cases hc : c.arena with
      | leaf k => rw [hc] at h1; cases h1; rfl
      | internal k => rw [hc] at h1; cases h1
    by_cases hyl : y = l
    · rw [if_pos hyl] at h
      cases h
      exact ⟨c, rfl, by rw [hy, hyl]⟩
    · rw [if_neg hyl] at h
      obtain ⟨j, h2, h⟩ := bind_inv h
      cases h
      obtain ⟨c', e1, e2⟩ := ih h2
      exact ⟨c', by simpa using e1, e2⟩

theorem checkLeaves_inv [DecidableEq C] {B : Trait E C D} {s : Tree E C} : ∀ {ls : List Nat} {lv : Option Nat}, checkLeaves B s ls lv = .ok () →
    ∃ n, (∀ k, lv = some k → (∃ l ∈ ls, s.lf.get l ≠ none) → k = n + 1) ∧ ∀ l ∈ ls, ∀ L, s.lf.get l = some L → Depth s L.parent n ∧
      ∃ (P : Node C) (i : Nat) (c : Child C), s.inn.get L.parent = some P ∧ P.children[i]? = some c ∧ c.arena = .leaf l ∧ c.cache = B.elemCache L.elem := by
  intro ls
  induction ls with
  | nil => intro lv _; exact ⟨0, by simp, by simp⟩
  | cons l ls ih =>
    intro lv h
    rw [checkLeaves] at h
    cases hl : s.lf.get l with
    | none =>
      rw [hl] at h
      obtain ⟨n, h1, h2⟩ := ih h
      refine ⟨n, ?_, ?_⟩
      · rintro k hk ⟨l', hm, hl'⟩
        rcases List.mem_cons.mp hm with rfl | hm
        · exact absurd hl hl'
        · exact h1 k hk ⟨l', hm, hl'⟩
      · intro l' hm L hL
        rcases List.mem_cons.mp hm with rfl | hm
        · rw [hl] at hL; cases hL
        · exact h2 l' hm L hL
    | some L =>
      rw [hl] at h
      obtain ⟨len, k1, h⟩ := bind_inv h
      obtain ⟨_, k2, h⟩ := bind_inv h
      obtain ⟨P, k3, h⟩ := bind_inv h
      obtain ⟨i, k4, h⟩ := bind_inv h
      obtain ⟨c, k5, h⟩ := bind_inv h
      obtain ⟨_, k6, h⟩ := bind_inv h
      obtain ⟨_, k7, h⟩ := bind_inv h
      obtain ⟨d, k8, k9⟩ := levelF_inv k1
      obtain ⟨n, h1, h2⟩ := ih h
      refine ⟨d, ?_, ?_⟩
      · intro k hk _
        subst hk
        have := of_decide_eq_true (assertM_inv k2)
        omega
      · intro l' hm L' hL'
        rcases List.mem_cons.mp hm with rfl | hm
        · rw [hl] at hL'
          cases hL'
          obtain ⟨c', e1, e2⟩ := getLeafSlot_inv k4
          rw [vget_inv k5] at e1
          cases e1
          exact ⟨k8, P, i, c, getIn_inv k3, vget_inv k5, e2, of_decide_eq_true (assertM_inv k6)⟩
        · have := h1 len rfl ⟨l', hm, by rw [hL']; simp⟩
          have hdn : n = d := by omega
          subst hdn
          exact h2 l' hm L' hL'

/-- What `check()` tests, for an arbitrary state of the arenas: parent links and slots agree with the lists of children in
both directions, no leaf beside internal children, no empty node but the root, all leaves at one depth, caches exact. -/
structure Checked [DecidableEq C] (B : Trait E C D) (s : Tree E C) : Prop where
  nonempty : ∀ x N, s.inn.get x = some N → x ≠ s.root → N.children ≠ []
  child : ∀ x N, s.inn.get x = some N → ∀ (i : Nat) (c : Child C) (y : Nat), N.children[i]? = some c → c.arena = .internal y →
    N.isChildLeaf = false ∧ ∃ Y d, s.inn.get y = some Y ∧ Y.parent = some x ∧ Y.slot = i ∧
      B.calcC B.dflt (Y.children.map Child.cache) = .ok (c.cache, d)
  parent : ∀ x N p, s.inn.get x = some N → N.parent = some p → ∃ P c, s.inn.get p = some P ∧
    P.children[N.slot]? = some c ∧ c.arena = .internal x
  top : ∀ x N, s.inn.get x = some N → N.parent = none → x = s.root
  root : ∃ R d, s.inn.get s.root = some R ∧ B.calcC B.dflt (R.children.map Child.cache) = .ok (s.rootCache, d)
  depth : ∃ n, ∀ l L, s.lf.get l = some L → Depth s L.parent n
  leaf : ∀ l L, s.lf.get l = some L → ∃ (P : Node C) (i : Nat) (c : Child C), s.inn.get L.parent = some P ∧
    P.children[i]? = some c ∧ c.arena = .leaf l ∧ c.cache = B.elemCache L.elem

theorem check_sound [DecidableEq C] {B : Trait E C D} {s : Tree E C} (h : check B s = .ok ()) : Checked B s := by
  rw [check] at h
  obtain ⟨_, h1, h⟩ := bind_inv h
  obtain ⟨R, h2, h⟩ := bind_inv h
  obtain ⟨⟨rc, d⟩, h3, h⟩ := bind_inv h
  obtain ⟨_, h4, h⟩ := bind_inv h
  obtain ⟨n, -, h5⟩ := checkLeaves_inv h
  have hn : ∀ x N, s.inn.get x = some N → _ := fun x N hN => checkNode_inv hN (checkAll_inv h1 x (List.mem_range.mpr (Arena.get_lt hN)))
  have h4 := of_decide_eq_true (assertM_inv h4)
  refine ⟨fun x N hN => (hn x N hN).1, ?_, fun x N p hN hp => (hn x N hN).2.2.2 p hp, fun x N hN => (hn x N hN).2.2.1, ?_, ?_, ?_⟩
  · intro x N hN i c y hi hy
    obtain ⟨k1, Y, d, k2, k3, k4, k5⟩ := checkChildren_inv (hn x N hN).2.1 i c y hi hy
    exact ⟨k1, Y, d, k2, k3, by simpa using k4, k5⟩
  · exact ⟨R, d, getIn_inv h2, by rw [h4]; exact h3⟩
  · exact ⟨n, fun l L hL => (h5 l (List.mem_range.mpr (Arena.get_lt hL)) L hL).1⟩
  · intro l L hL
    exact (h5 l (List.mem_range.mpr (Arena.get_lt hL)) L hL).2

end GB
