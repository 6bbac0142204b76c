import Verif.Proof.Inv

/-!
# Views of the state

A state is described by four partial functions: links and child lists of internal nodes, parent and
element of leaves.  Every model function is characterised by its effect on them.
-/

namespace GB
variable {E C D : Type}
open Tree

/-- link data of a node -/
def lnk (s : Tree E C) (x : Nat) : Option (Option Nat × Nat) :=
  (s.inn.get x).map fun N => (N.parent, N.slot)

/-- child list of a node (empty if not stored) -/
def chs (s : Tree E C) (x : Nat) : List (Child C) :=
  match s.inn.get x with
  | some N => N.children
  | none => []

/-- parent of a leaf -/
def lpar (s : Tree E C) (l : Nat) : Option Nat := (s.lf.get l).map LeafNode.parent

/-- element of a leaf -/
def elm (s : Tree E C) (l : Nat) : Option E := (s.lf.get l).map LeafNode.elem

theorem kids_chs (s : Tree E C) (x : Nat) : kids s x = (chs s x).map Child.arena := by
  unfold kids chs
  split <;> simp_all

theorem chs_of {s : Tree E C} {x : Nat} {N : Node C} (h : s.inn.get x = some N) : chs s x = N.children := by
  simp [chs, h]

theorem lnk_of {s : Tree E C} {x : Nat} {N : Node C} (h : s.inn.get x = some N) :
    lnk s x = some (N.parent, N.slot) := by simp [lnk, h]

theorem get_of_lnk {s : Tree E C} {x i : Nat} {p : Option Nat} (h : lnk s x = some (p, i)) :
    s.inn.get x = some ⟨p, i, chs s x⟩ := by
  unfold lnk at h
  cases hx : s.inn.get x with
  | none => simp [hx] at h
  | some N =>
    simp only [hx, Option.map_some, Option.some.injEq, Prod.mk.injEq] at h
    simp [chs, hx, ← h.1, ← h.2]

theorem lpar_of {s : Tree E C} {l : Nat} {L : LeafNode E} (h : s.lf.get l = some L) :
    lpar s l = some L.parent := by simp [lpar, h]

theorem elm_of {s : Tree E C} {l : Nat} {L : LeafNode E} (h : s.lf.get l = some L) :
    elm s l = some L.elem := by simp [elm, h]

theorem getLf_of {s : Tree E C} {l p : Nat} (h : lpar s l = some p) :
    ∃ e, s.lf.get l = some ⟨e, p⟩ ∧ elm s l = some e := by
  unfold lpar at h
  cases hx : s.lf.get l with
  | none => simp [hx] at h
  | some L =>
    simp only [hx, Option.map_some, Option.some.injEq] at h
    exact ⟨L.elem, by simp [← h], by simp [elm, hx]⟩

theorem lnk_none {s : Tree E C} {x : Nat} : lnk s x = none ↔ s.inn.get x = none := by
  simp [lnk]

theorem lnk_isSome {s : Tree E C} {x : Nat} : lnk s x ≠ none ↔ ∃ N, s.inn.get x = some N := by
  rw [Ne, lnk_none, Option.eq_none_iff_forall_ne_some]
  simp

theorem lpar_none {s : Tree E C} {x : Nat} : lpar s x = none ↔ s.lf.get x = none := by
  simp [lpar]

theorem lpar_isSome {s : Tree E C} {x : Nat} : lpar s x ≠ none ↔ ∃ N, s.lf.get x = some N := by
  rw [Ne, lpar_none, Option.eq_none_iff_forall_ne_some]
  simp

theorem chs_none {s : Tree E C} {x : Nat} (h : lnk s x = none) : chs s x = [] := by
  rw [lnk_none] at h
  simp [chs, h]

theorem edge_chs {s : Tree E C} {p i : Nat} {a : Idx} :
    Edge s p i a ↔ ∃ c, (chs s p)[i]? = some c ∧ c.arena = a := by
  rw [Edge, kids_chs, List.getElem?_map, Option.map_eq_some_iff]

theorem edge_live {s : Tree E C} {p i : Nat} {a : Idx} (h : Edge s p i a) : lnk s p ≠ none :=
  lnk_isSome.mpr (live_of_kid h)

/-- Building `WF` from views. -/
theorem WF.of_views {s : Tree E C} {lvl : Nat → Nat} {h : Nat}
    (root : ∃ i, lnk s s.root = some (none, i)) (root_lvl : lvl s.root = h) (h_pos : 1 ≤ h)
    (h_le : h ≤ s.inn.items.length)
    (kid_in : ∀ p i y, Edge s p i (.internal y) → lvl p = lvl y + 1 ∧ lnk s y = some (some p, i))
    (kid_lf : ∀ p i l, Edge s p i (.leaf l) → lvl p = 1 ∧ lpar s l = some p)
    (uniq : ∀ p i j l, Edge s p i (.leaf l) → Edge s p j (.leaf l) → i = j)
    (lvl_pos : ∀ p, lnk s p ≠ none → 1 ≤ lvl p ∧ lvl p ≤ h)
    (par_in : ∀ y, lnk s y ≠ none → y ≠ s.root → ∃ p i, Edge s p i (.internal y))
    (par_lf : ∀ l, lpar s l ≠ none → ∃ p i, Edge s p i (.leaf l)) : WF s lvl h where
  root := by
    obtain ⟨i, hi⟩ := root
    exact ⟨_, get_of_lnk hi, rfl⟩
  root_lvl := root_lvl
  h_pos := h_pos
  h_le := h_le
  kid_in := by
    intro p i y hk
    obtain ⟨h1, h2⟩ := kid_in p i y hk
    exact ⟨h1, _, get_of_lnk h2, rfl, rfl⟩
  kid_lf := by
    intro p i y hk
    obtain ⟨h1, h2⟩ := kid_lf p i y hk
    obtain ⟨e, h3, -⟩ := getLf_of h2
    exact ⟨h1, _, h3, rfl⟩
  uniq := uniq
  lvl_pos := fun p N hN => lvl_pos p (lnk_isSome.mpr ⟨N, hN⟩)
  par_in := fun y M hM hr => par_in y (lnk_isSome.mpr ⟨M, hM⟩) hr
  par_lf := fun y M hM => par_lf y (lpar_isSome.mpr ⟨M, hM⟩)

namespace WF
variable {s : Tree E C} {lvl : Nat → Nat} {h : Nat}

theorem kin (w : WF s lvl h) {p i y : Nat} (e : Edge s p i (.internal y)) :
    lvl p = lvl y + 1 ∧ lnk s y = some (some p, i) := by
  obtain ⟨h1, M, hM, h2, h3⟩ := w.kid_in _ _ _ e
  exact ⟨h1, by rw [lnk_of hM, h2, h3]⟩

theorem klf (w : WF s lvl h) {p i l : Nat} (e : Edge s p i (.leaf l)) :
    lvl p = 1 ∧ lpar s l = some p := by
  obtain ⟨h1, M, hM, h2⟩ := w.kid_lf _ _ _ e
  exact ⟨h1, by rw [lpar_of hM, h2]⟩

theorem lvl_pos' (w : WF s lvl h) {p : Nat} (hp : lnk s p ≠ none) : 1 ≤ lvl p ∧ lvl p ≤ h := by
  obtain ⟨N, hN⟩ := lnk_isSome.mp hp
  exact w.lvl_pos p N hN

theorem par_in' (w : WF s lvl h) {y : Nat} (hy : lnk s y ≠ none) (hr : y ≠ s.root) :
    ∃ p i, Edge s p i (.internal y) := by
  obtain ⟨N, hN⟩ := lnk_isSome.mp hy
  exact w.par_in y N hN hr

theorem par_lf' (w : WF s lvl h) {l : Nat} (hy : lpar s l ≠ none) :
    ∃ p i, Edge s p i (.leaf l) := by
  obtain ⟨N, hN⟩ := lpar_isSome.mp hy
  exact w.par_lf l N hN

theorem root' (w : WF s lvl h) : ∃ i, lnk s s.root = some (none, i) := by
  obtain ⟨N, hN, hp⟩ := w.root
  exact ⟨N.slot, by rw [lnk_of hN, hp]⟩

/-- link of a non-root node -/
theorem lnk_edge (w : WF s lvl h) {y p i : Nat} (hy : lnk s y = some (some p, i)) :
    Edge s p i (.internal y) ∧ y ≠ s.root := by
  have := w.parent_some (get_of_lnk hy) rfl
  exact ⟨this.2.1, this.1⟩

theorem lpar_edge (w : WF s lvl h) {l p : Nat} (hl : lpar s l = some p) :
    ∃ i, Edge s p i (.leaf l) := by
  obtain ⟨e, he, -⟩ := getLf_of hl
  obtain ⟨i, hi, -⟩ := w.parent_lf he
  exact ⟨i, hi⟩

theorem lnk_lt (_w : WF s lvl h) {y : Nat} (hy : lnk s y ≠ none) : y < s.inn.items.length := by
  obtain ⟨N, hN⟩ := lnk_isSome.mp hy
  exact Arena.get_lt hN

theorem lpar_lt (_w : WF s lvl h) {y : Nat} (hy : lpar s y ≠ none) : y < s.lf.items.length := by
  obtain ⟨N, hN⟩ := lpar_isSome.mp hy
  exact Arena.get_lt hN

end WF

/-! ## Views after primitive updates -/

section prim
variable (s : Tree E C)

theorem lnk_setIn {x : Nat} (hx : lnk s x ≠ none) (N' : Node C) (y : Nat) :
    lnk (s.setIn x N') y = if y = x then some (N'.parent, N'.slot) else lnk s y := by
  obtain ⟨M, hM⟩ := lnk_isSome.mp hx
  simp only [lnk, setIn_inn, Arena.get_set_live hM]
  split <;> simp

theorem chs_setIn {x : Nat} (hx : lnk s x ≠ none) (N' : Node C) (y : Nat) :
    chs (s.setIn x N') y = if y = x then N'.children else chs s y := by
  obtain ⟨M, hM⟩ := lnk_isSome.mp hx
  simp only [chs, setIn_inn, Arena.get_set_live hM]
  by_cases h : y = x <;> simp [h]

@[simp] theorem lpar_setIn (x : Nat) (N' : Node C) (y : Nat) : lpar (s.setIn x N') y = lpar s y := rfl
@[simp] theorem elm_setIn (x : Nat) (N' : Node C) (y : Nat) : elm (s.setIn x N') y = elm s y := rfl
@[simp] theorem lnk_setLf (x : Nat) (N' : LeafNode E) (y : Nat) : lnk (s.setLf x N') y = lnk s y := rfl
@[simp] theorem chs_setLf (x : Nat) (N' : LeafNode E) (y : Nat) : chs (s.setLf x N') y = chs s y := rfl

theorem lpar_setLf {x : Nat} (hx : lpar s x ≠ none) (N' : LeafNode E) (y : Nat) :
    lpar (s.setLf x N') y = if y = x then some N'.parent else lpar s y := by
  obtain ⟨M, hM⟩ := lpar_isSome.mp hx
  simp only [lpar, setLf_lf, Arena.get_set_live hM]
  split <;> simp

theorem elm_setLf {x : Nat} (hx : lpar s x ≠ none) (N' : LeafNode E) (y : Nat) :
    elm (s.setLf x N') y = if y = x then some N'.elem else elm s y := by
  obtain ⟨M, hM⟩ := lpar_isSome.mp hx
  simp only [elm, setLf_lf, Arena.get_set_live hM]
  split <;> simp

@[simp] theorem items_setIn (x : Nat) (N' : Node C) : (s.setIn x N').inn.items.length = s.inn.items.length := by
  simp
@[simp] theorem lfitems_setLf (x : Nat) (N' : LeafNode E) : (s.setLf x N').lf.items.length = s.lf.items.length := by
  simp

end prim

end GB
