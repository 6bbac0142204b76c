import Verif.Proof.View

/-!
# The sequence of leaves: uniqueness, completeness, and how it changes with child lists
-/

namespace GB
variable {E C D : Type}
open Tree

/-- leaves below a child index -/
def sub (s : Tree E C) (n : Nat) : Idx → List Nat
  | .leaf l => [l]
  | .internal y => leavesAt s n y

theorem leavesAt_succ (s : Tree E C) (n x : Nat) : leavesAt s (n + 1) x = (kids s x).flatMap (sub s n) := by
  rw [leavesAt]
  apply flatMap_congr'
  intro a _
  cases a <;> rfl

section
variable {s : Tree E C} {lvl : Nat → Nat} {h : Nat}

theorem mem_kids {s : Tree E C} {x : Nat} {a : Idx} : a ∈ kids s x ↔ ∃ i, Edge s x i a :=
  List.mem_iff_getElem?

theorem mem_leavesAt_inj (w : WF s lvl h) : ∀ (n : Nat) {x x' l : Nat}, lvl x = n → lvl x' = n →
    l ∈ leavesAt s n x → l ∈ leavesAt s n x' → x = x' := by
  intro n
  induction n with
  | zero => intro x x' l _ _ hm; simp [leavesAt] at hm
  | succ n ih =>
    intro x x' l hx hx' hm hm'
    rw [leavesAt_succ, List.mem_flatMap] at hm hm'
    obtain ⟨a, ha, hl⟩ := hm
    obtain ⟨a', ha', hl'⟩ := hm'
    obtain ⟨i, hi⟩ := mem_kids.mp ha
    obtain ⟨i', hi'⟩ := mem_kids.mp ha'
    cases a with
    | leaf k =>
      have hk : l = k := by simpa [sub] using hl
      have h1 := (w.klf hi).1
      cases a' with
      | leaf k' =>
        have hk' : l = k' := by simpa [sub] using hl'
        subst hk hk'
        exact (w.kid_lf_inj hi hi').1
      | internal y =>
        have h2 := (w.kin hi')
        have h3 := (w.lvl_pos' (by rw [h2.2]; simp)).1
        omega
    | internal y =>
      have h2 := (w.kin hi)
      have h3 := (w.lvl_pos' (by rw [h2.2]; simp)).1
      cases a' with
      | leaf k' =>
        have := (w.klf hi').1
        omega
      | internal y' =>
        have h2' := (w.kin hi')
        have : y = y' := ih (by omega) (by omega) hl hl'
        subst this
        exact (w.kid_in_inj hi hi').1

theorem nodup_flatMap' {α β : Type} {l : List α} {f : α → List β}
    (h1 : ∀ a ∈ l, (f a).Nodup) (h2 : l.Pairwise fun a b => ∀ x, x ∈ f a → x ∈ f b → False) :
    (l.flatMap f).Nodup := by
  induction l with
  | nil => simp
  | cons a l ih =>
    rw [List.flatMap_cons, List.nodup_append]
    rw [List.pairwise_cons] at h2
    refine ⟨h1 a (by simp), ih (fun b hb => h1 b (by simp [hb])) h2.2, ?_⟩
    intro x hx y hy e
    subst e
    obtain ⟨b, hb, hxb⟩ := List.mem_flatMap.mp hy
    exact h2.1 b hb x hx hxb

theorem leavesAt_nodup (w : WF s lvl h) : ∀ (n : Nat) {x : Nat}, lvl x = n → (leavesAt s n x).Nodup := by
  intro n
  induction n with
  | zero => intro x _; simp [leavesAt]
  | succ n ih =>
    intro x hx
    rw [leavesAt_succ]
    apply nodup_flatMap'
    · intro a ha
      obtain ⟨i, hi⟩ := mem_kids.mp ha
      cases a with
      | leaf k => simp [sub]
      | internal y =>
        have := w.kin hi
        exact ih (by omega)
    · rw [List.pairwise_iff_getElem]
      intro i j hi hj hij l hl hl'
      have ei : Edge s x i (kids s x)[i] := List.getElem?_eq_getElem hi
      have ej : Edge s x j (kids s x)[j] := List.getElem?_eq_getElem hj
      generalize (kids s x)[i] = a at *
      generalize (kids s x)[j] = b at *
      cases a with
      | leaf k =>
        cases b with
        | leaf k' =>
          simp only [sub, List.mem_singleton] at hl hl'
          subst hl hl'
          have := (w.kid_lf_inj ei ej).2
          omega
        | internal y =>
          have h2 := (w.kin ej)
          have h3 := (w.lvl_pos' (by rw [h2.2]; simp)).1
          have := (w.klf ei).1
          omega
      | internal y =>
        have h2 := (w.kin ei)
        have h3 := (w.lvl_pos' (by rw [h2.2]; simp)).1
        cases b with
        | leaf k' =>
          have := (w.klf ej).1
          omega
        | internal y' =>
          have h2' := (w.kin ej)
          have : y = y' := mem_leavesAt_inj w n (by omega) (by omega) hl hl'
          subst this
          have := (w.kid_in_inj ei ej).2
          omega

theorem order_nodup (w : WF s lvl h) : (order s).Nodup := by
  rw [order_eq w]
  exact leavesAt_nodup w h w.root_lvl

/-- Every leaf below a node of level `k` is below the root. -/
theorem mem_order_of_mem (w : WF s lvl h) : ∀ (d : Nat) {x l : Nat}, lnk s x ≠ none → h - lvl x = d →
    l ∈ leavesAt s (lvl x) x → l ∈ order s := by
  intro d
  induction d with
  | zero =>
    intro x l hx hd hm
    have hr : x = s.root := by
      apply Decidable.byContradiction
      intro hr
      obtain ⟨N, hN⟩ := lnk_isSome.mp hx
      have := w.live_lt hN hr
      omega
    rw [order_eq w, ← w.root_lvl]
    exact hr ▸ hm
  | succ d ih =>
    intro x l hx hd hm
    have hr : x ≠ s.root := by
      intro e
      rw [e, w.root_lvl] at hd
      omega
    obtain ⟨p, i, he⟩ := w.par_in' hx hr
    have h1 := w.kin he
    refine ih (x := p) (edge_live he) (by omega) ?_
    rw [h1.1, leavesAt_succ, List.mem_flatMap]
    exact ⟨.internal x, mem_kids.mpr ⟨i, he⟩, hm⟩

theorem leaf_of_mem (w : WF s lvl h) : ∀ (n : Nat) {x l : Nat}, l ∈ leavesAt s n x → lpar s l ≠ none := by
  intro n
  induction n with
  | zero => intro x l hm; simp [leavesAt] at hm
  | succ n ih =>
    intro x l hm
    rw [leavesAt_succ, List.mem_flatMap] at hm
    obtain ⟨a, ha, hl⟩ := hm
    obtain ⟨i, hi⟩ := mem_kids.mp ha
    cases a with
    | leaf k =>
      have hk : l = k := by simpa [sub] using hl
      subst hk
      rw [(w.klf hi).2]
      simp
    | internal y => exact ih hl

/-- The leaves in the sequence are exactly the stored leaves. -/
theorem mem_order (w : WF s lvl h) {l : Nat} : l ∈ order s ↔ lpar s l ≠ none := by
  constructor
  · intro hm
    rw [order_eq w] at hm
    exact leaf_of_mem w _ hm
  · intro hl
    obtain ⟨p, i, he⟩ := w.par_lf' hl
    refine mem_order_of_mem w _ (edge_live he) rfl ?_
    rw [(w.klf he).1, leavesAt_succ, List.mem_flatMap]
    exact ⟨.leaf l, mem_kids.mpr ⟨i, he⟩, by simp [sub]⟩

/-- There is a path of live nodes from any live node to the root. -/
theorem root_kids_ne (w : WF s lvl h) : ∀ (d : Nat) {x : Nat}, lnk s x ≠ none → x ≠ s.root →
    h - lvl x = d → kids s s.root ≠ [] := by
  intro d
  induction d with
  | zero =>
    intro x hx hr hd
    obtain ⟨N, hN⟩ := lnk_isSome.mp hx
    have := w.live_lt hN hr
    omega
  | succ d ih =>
    intro x hx hr hd
    obtain ⟨p, i, he⟩ := w.par_in' hx hr
    have h1 := w.kin he
    by_cases hp : p = s.root
    · subst hp
      intro hk
      simp [Edge, hk] at he
    · exact ih (edge_live he) hp (by omega)

/-- If the root has no children, it is the only node. -/
theorem empty_root (w : WF s lvl h) (hk : kids s s.root = []) :
    (∀ x, lnk s x ≠ none → x = s.root) ∧ (∀ l, lpar s l = none) := by
  have h1 : ∀ x, lnk s x ≠ none → x = s.root := by
    intro x hx
    apply Decidable.byContradiction
    intro hr
    exact root_kids_ne w _ hx hr rfl hk
  refine ⟨h1, fun l => ?_⟩
  apply Decidable.byContradiction
  intro hl
  obtain ⟨p, i, he⟩ := w.par_lf' hl
  have := h1 p (edge_live he)
  subst this
  simp [Edge, hk] at he

/-- On an empty tree the height may be reset to 1. -/
theorem WF.empty_reset (w : WF s lvl h) (hk : kids s s.root = []) : WF s (fun _ => 1) 1 := by
  obtain ⟨h1, h2⟩ := empty_root w hk
  refine WF.of_views w.root' rfl (Nat.le_refl _) ?_ ?_ ?_ ?_ ?_ ?_ ?_
  · have := w.h_pos; have := w.h_le; omega
  · intro p i y he
    have := h1 p (edge_live he); subst this; simp [Edge, hk] at he
  · intro p i y he
    have := h1 p (edge_live he); subst this; simp [Edge, hk] at he
  · intro p i j l he
    have := h1 p (edge_live he); subst this; simp [Edge, hk] at he
  · intro p _; omega
  · intro y hy hr; exact absurd (h1 y hy) hr
  · intro l hl; exact absurd (h2 l) hl

end

/-! ## How the sequence changes -/

section
variable {s s' : Tree E C} {lvl : Nat → Nat} {h : Nat}

/-- Nodes whose sub-tree has unchanged child lists have unchanged leaves. -/
theorem leavesAt_congr_below (w : WF s lvl h) (k : Nat)
    (hc : ∀ y, lnk s y ≠ none → lvl y ≤ k → kids s' y = kids s y) :
    ∀ (n x : Nat), lnk s x ≠ none → lvl x ≤ k → leavesAt s' n x = leavesAt s n x := by
  intro n
  induction n with
  | zero => intro x _ _; rfl
  | succ n ih =>
    intro x hx hl
    rw [leavesAt_succ, leavesAt_succ, hc x hx hl]
    apply flatMap_congr'
    intro a ha
    obtain ⟨i, hi⟩ := mem_kids.mp ha
    cases a with
    | leaf l => rfl
    | internal y =>
      have h1 := w.kin hi
      exact ih y (by rw [h1.2]; simp) (by omega)

/-- If on level `k` the leaves change by a substitution and above that level the child lists are
unchanged, then the leaves of all higher nodes change by this substitution. -/
theorem leavesAt_subst_above (w : WF s lvl h) (k : Nat) (f : Nat → List Nat)
    (hk : ∀ y, lnk s y ≠ none → lvl y = k → leavesAt s' k y = (leavesAt s k y).flatMap f)
    (hc : ∀ y, lnk s y ≠ none → k < lvl y → kids s' y = kids s y) (h1 : 1 ≤ k) :
    ∀ (n x : Nat), lnk s x ≠ none → lvl x = n → k ≤ n →
      leavesAt s' n x = (leavesAt s n x).flatMap f := by
  intro n
  induction n with
  | zero => intro x _ _ hn; omega
  | succ n ih =>
    intro x hx hl hn
    rcases Nat.lt_or_eq_of_le hn with hlt | heq
    · rw [leavesAt_succ, leavesAt_succ, hc x hx (by omega), List.flatMap_assoc]
      apply flatMap_congr'
      intro a ha
      obtain ⟨i, hi⟩ := mem_kids.mp ha
      cases a with
      | leaf l =>
        have := (w.klf hi).1
        omega
      | internal y =>
        have h1 := w.kin hi
        exact ih y (by rw [h1.2]; simp) (by omega) (by omega)
    · subst heq
      exact hk x hx hl

theorem flatMap_singleton_id {α : Type} (l : List α) : (l.flatMap fun a => [a]) = l := by
  induction l with
  | nil => rfl
  | cons a l ih => rw [List.flatMap_cons, ih]; rfl

/-- Special case: unchanged on level `k`, hence unchanged above. -/
theorem leavesAt_congr_above (w : WF s lvl h) (k : Nat)
    (hk : ∀ y, lnk s y ≠ none → lvl y = k → leavesAt s' k y = leavesAt s k y)
    (hc : ∀ y, lnk s y ≠ none → k < lvl y → kids s' y = kids s y) (h1 : 1 ≤ k)
    (n x : Nat) (hx : lnk s x ≠ none) (hl : lvl x = n) (hn : k ≤ n) :
      leavesAt s' n x = leavesAt s n x := by
  have := leavesAt_subst_above w k (fun a => [a]) (fun y hy hl => by
    rw [flatMap_singleton_id]; exact hk y hy hl) hc h1 n x hx hl hn
  rwa [flatMap_singleton_id] at this

theorem SameShape.order {s s' : Tree E C} (hs : SameShape s s') : order s' = order s := by
  have : ∀ n x, leavesAt s' n x = leavesAt s n x := by
    intro n
    induction n with
    | zero => intro x; rfl
    | succ n ih =>
      intro x
      rw [leavesAt_succ, leavesAt_succ, hs.kids]
      apply flatMap_congr'
      intro a _
      cases a with
      | leaf l => rfl
      | internal y => exact ih y
  simp only [GB.order, this, hs.items, hs.root]

end
end GB
