import Verif.Proof.Count
import Verif.Proof.SpineHeight

/-!
# Counting children
-/

namespace GB
variable {E C D V : Type}
open Tree

theorem filterMap_sum (f : V → Nat) (items : List (Option V)) :
    ((items.filterMap id).map f).sum = ((List.range items.length).map fun i => (items[i]?.join.map f).getD 0).sum := by
  generalize hn : items.length = n
  induction n generalizing items with
  | zero =>
    have : items = [] := List.length_eq_zero_iff.mp hn
    subst this; rfl
  | succ n ih =>
    have hne : items ≠ [] := by intro h; rw [h] at hn; simp at hn
    obtain ⟨xs, x, rfl⟩ : ∃ xs x, items = xs ++ [x] := ⟨items.dropLast, items.getLast hne, (List.dropLast_concat_getLast hne).symm⟩
    have hn' : xs.length = n := by simpa using hn
    have h1 : (List.range n).map (fun i => ((xs ++ [x])[i]?.join.map f).getD 0) = (List.range n).map (fun i => (xs[i]?.join.map f).getD 0) := by
      apply List.map_congr_left
      intro i hi
      rw [List.getElem?_append_left (by rw [hn']; exact List.mem_range.mp hi)]
    rw [List.range_succ, List.map_append, List.sum_append, h1, ← ih xs hn', List.filterMap_append, List.map_append, List.sum_append]
    congr 1
    simp only [List.map_cons, List.map_nil, List.sum_cons, List.sum_nil]
    rw [List.getElem?_append_right (by omega), hn', Nat.sub_self]
    cases x <;> simp

/-- a sum over the live entries of an arena is a sum over any list of their indices -/
theorem arena_sum {a : Arena V} {L : List Nat} (f : V → Nat) (hnd : L.Nodup) (hm : ∀ i, i ∈ L ↔ a.get i ≠ none) :
    ((a.items.filterMap id).map f).sum = (L.map fun i => ((a.get i).map f).getD 0).sum := by
  rw [filterMap_sum]
  have hp : L.Perm ((List.range a.items.length).filter fun i => (a.get i).isSome) := by
    rw [List.perm_ext_iff_of_nodup hnd (List.nodup_range.filter _)]
    intro i
    simp only [List.mem_filter, List.mem_range, hm i, Option.isSome_iff_ne_none]
    constructor
    · intro h
      obtain ⟨v, hv⟩ := Option.ne_none_iff_exists'.mp h
      exact ⟨Arena.get_lt hv, h⟩
    · rintro ⟨-, h⟩; exact h
  have h2 : ∀ (l : List Nat) (g : Nat → Nat) (p : Nat → Bool), (∀ i ∈ l, p i = false → g i = 0) → (l.map g).sum = ((l.filter p).map g).sum := by
    intro l g p h
    induction l with
    | nil => rfl
    | cons x l ih =>
      have ih := ih (fun i hi => h i (by simp [hi]))
      cases hx : p x with
      | true => simp [hx, ih]
      | false => simp [hx, ih, h x (by simp) hx]
  show ((List.range a.items.length).map fun i => ((a.get i).map f).getD 0).sum = _
  rw [h2 _ _ (fun i => (a.get i).isSome) (by
    intro i _ hi
    cases hv : a.get i with
    | none => rfl
    | some v => rw [hv] at hi; cases hi)]
  exact (hp.map _).sum_nat.symm

section
variable {s : Tree E C} {lvl : Nat → Nat} {h : Nat}

/-- the internal nodes of the rows above `d`, row by row -/
def nodesAbove (s : Tree E C) : Nat → List Nat
  | 0 => []
  | d + 1 => nodesAbove s d ++ (rowI s d).map Idx.raw

theorem nodesAbove_spec (w : WF s lvl h) : ∀ d, d ≤ h → (nodesAbove s d).Nodup ∧ ∀ x, x ∈ nodesAbove s d ↔ lnk s x ≠ none ∧ h - lvl x < d := by
  intro d
  induction d with
  | zero => intro _; simp [nodesAbove]
  | succ d ih =>
    intro hd
    obtain ⟨h1, h2⟩ := ih (by omega)
    have hrow : ∀ x, x ∈ (rowI s d).map Idx.raw ↔ lnk s x ≠ none ∧ h - lvl x = d := by
      intro x
      rw [List.mem_map]
      constructor
      · rintro ⟨a, ha, rfl⟩
        obtain ⟨y, rfl, h3, h4⟩ := rowI_internal w d (by omega) a ha
        exact ⟨h3, by show h - lvl y = d; omega⟩
      · rintro ⟨h3, h4⟩
        exact ⟨_, mem_row w d h3 h4, rfl⟩
    refine ⟨?_, fun x => ?_⟩
    · rw [nodesAbove, List.nodup_append]
      refine ⟨h1, ?_, ?_⟩
      · have key : ∀ u : List Idx, (∀ a ∈ u, a ∈ rowI s d) → u.Nodup → (u.map Idx.raw).Nodup := by
          intro u
          induction u with
          | nil => intro _ _; simp
          | cons a u ih =>
            intro hu nd
            rw [List.nodup_cons] at nd
            rw [List.map_cons, List.nodup_cons]
            refine ⟨fun hm => ?_, ih (fun b hb => hu b (by simp [hb])) nd.2⟩
            obtain ⟨b, hb, hab⟩ := List.mem_map.mp hm
            obtain ⟨x, rfl, -, -⟩ := rowI_internal w d (by omega) a (hu a (by simp))
            obtain ⟨y, rfl, -, -⟩ := rowI_internal w d (by omega) b (hu b (by simp [hb]))
            cases (show y = x from hab)
            exact nd.1 hb
        exact key _ (fun _ h => h) (row_nodup w d)
      · intro a ha b hb hab
        subst hab
        have := (h2 a).mp ha
        have := (hrow a).mp hb
        omega
    · rw [nodesAbove, List.mem_append, h2, hrow]
      constructor
      · rintro (⟨a, b⟩ | ⟨a, b⟩) <;> exact ⟨a, by omega⟩
      · rintro ⟨a, b⟩
        rcases Nat.lt_or_ge (h - lvl x) d with hlt | hge
        · exact .inl ⟨a, hlt⟩
        · exact .inr ⟨a, by omega⟩

/-- every stored internal node is in one of the rows -/
theorem nodesAbove_all (w : WF s lvl h) (x : Nat) : x ∈ nodesAbove s h ↔ s.inn.get x ≠ none := by
  rw [(nodesAbove_spec w h (Nat.le_refl _)).2 x]
  constructor
  · rintro ⟨h1, -⟩ h2
    rw [lnk, h2] at h1
    exact h1 rfl
  · intro h1
    obtain ⟨N, hN⟩ := Option.ne_none_iff_exists'.mp h1
    have h2 : lnk s x ≠ none := lnk_isSome.mpr ⟨N, hN⟩
    have := w.lvl_pos' h2
    exact ⟨h2, by omega⟩

theorem inn_len (w : WF s lvl h) : s.inn.len = (nodesAbove s h).length :=
  len_nodup (nodesAbove_spec w h (Nat.le_refl _)).1 (nodesAbove_all w)

theorem nodesAbove_kids (w : WF s lvl h) : ∀ d, d ≤ h →
    ((nodesAbove s d).map fun x => ((s.inn.get x).map fun n => n.children.length).getD 0).sum + 1 = (nodesAbove s d).length + (rowI s d).length := by
  intro d
  induction d with
  | zero => intro _; simp [nodesAbove, rowI]
  | succ d ih =>
    intro hd
    have ih := ih (by omega)
    have key : ∀ u : List Idx, (∀ a ∈ u, a ∈ rowI s d) →
        ((u.map Idx.raw).map fun x => ((s.inn.get x).map fun n => n.children.length).getD 0).sum = (u.flatMap (kidsI s)).length := by
      intro u
      induction u with
      | nil => intro _; rfl
      | cons a u ih =>
        intro hu
        obtain ⟨x, rfl, hx, -⟩ := rowI_internal w d (by omega) a (hu a (by simp))
        obtain ⟨N, hN⟩ := lnk_isSome.mp hx
        have ih := ih (fun b hb => hu b (by simp [hb]))
        simp only [List.map_cons, List.sum_cons, List.flatMap_cons, List.length_append, ih]
        congr 1
        show ((s.inn.get x).map fun n => n.children.length).getD 0 = (kids s x).length
        rw [hN, kids_of hN]
        simp
    have key := key (rowI s d) (fun _ h => h)
    rw [nodesAbove, List.map_append, List.sum_append, List.length_append, List.length_map, key, rowI]
    omega

/-- each node but the root is the child of one node -/
theorem sum_children (w : WF s lvl h) : ((s.inn.items.filterMap id).map fun n => n.children.length).sum + 1 = s.inn.len + (order s).length := by
  rw [arena_sum _ (nodesAbove_spec w h (Nat.le_refl _)).1 (nodesAbove_all w), nodesAbove_kids w h (Nat.le_refl _), inn_len w, row_order w, List.length_map]

/-- the internal nodes take space linear in the number of elements, up to the thin nodes on the left edge -/
theorem nodesAbove_fill {m : Fill} (w : WF s lvl h) (sz : Sz m s h) (hm : 1 ≤ m.lo) : ∀ d, d + 1 ≤ h →
    (m.lo + m.d - 1) * ((nodesAbove s (d + 1)).length - 1) + (rowI s 1).length ≤ (rowI s (d + 1)).length + d * m.d := by
  intro d
  induction d with
  | zero => intro _; simp [nodesAbove, rowI]
  | succ d ih =>
    intro hd
    have ih := ih (by omega)
    have h1 := rows_grow_fill w sz (d := d + 1) (by omega) (by omega)
    have h2 : 1 ≤ (nodesAbove s (d + 1)).length := by
      have h3 : s.root ∈ nodesAbove s (d + 1) := by
        obtain ⟨N, hN, -⟩ := w.root
        rw [(nodesAbove_spec w (d + 1) (by omega)).2, w.root_lvl]
        exact ⟨lnk_isSome.mpr ⟨N, hN⟩, by omega⟩
      exact List.length_pos_of_mem h3
    rw [nodesAbove, List.length_append, List.length_map,
      show (nodesAbove s (d + 1)).length + (rowI s (d + 1)).length - 1 = ((nodesAbove s (d + 1)).length - 1) + (rowI s (d + 1)).length by omega, Nat.mul_add]
    obtain ⟨k, hk⟩ : ∃ k, m.lo + m.d = k + 1 := ⟨m.lo + m.d - 1, by omega⟩
    rw [hk] at ih h1 ⊢
    rw [Nat.add_mul, Nat.one_mul] at h1
    rw [Nat.add_mul d 1, Nat.one_mul]
    simp only [Nat.add_sub_cancel] at ih ⊢
    omega

theorem inn_len_fill {m : Fill} (w : WF s lvl h) (sz : Sz m s h) (hm : 1 ≤ m.lo) (h2 : 2 ≤ h) :
    (m.lo + m.d - 1) * (s.inn.len - 1) + 2 ≤ (order s).length + (h - 1) * m.d := by
  have h3 := nodesAbove_fill w sz hm (h - 1) (by omega)
  rw [show h - 1 + 1 = h by omega, row_order w, List.length_map, ← inn_len w] at h3
  obtain ⟨i, hi⟩ := w.root'
  have h4 := (sz s.root (by rw [hi]; simp) (fun h => h)).2.2 rfl h2
  have h5 : (rowI s 1).length = (chs s s.root).length := by simp [rowI, kidsI, kids_chs]
  omega

end
end GB
