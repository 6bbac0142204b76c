import Verif.Proof.History

/-!
# Counting stored nodes
-/

namespace GB
variable {E C D V : Type}
open Tree

theorem countP_nodup : ∀ (n : Nat) (items : List (Option V)) (L : List Nat), items.length = n → L.Nodup →
    (∀ i, i ∈ L ↔ ∃ v, items[i]? = some (some v)) → items.countP Option.isSome = L.length := by
  intro n
  induction n with
  | zero =>
    intro items L hn _ hm
    have : items = [] := List.length_eq_zero_iff.mp hn
    subst this
    cases L with
    | nil => rfl
    | cons i L => have := (hm i).mp (by simp); simp at this
  | succ n ih =>
    intro items L hn hnd hm
    have hne : items ≠ [] := by intro h; rw [h] at hn; simp at hn
    obtain ⟨xs, x, rfl⟩ : ∃ xs x, items = xs ++ [x] := ⟨items.dropLast, items.getLast hne, (List.dropLast_concat_getLast hne).symm⟩
    simp only [List.length_append, List.length_cons, List.length_nil, Nat.zero_add, Nat.add_right_cancel_iff] at hn
    have hlt : ∀ i, i < n → (xs ++ [x])[i]? = xs[i]? := fun i hi => List.getElem?_append_left (by omega)
    have hge : (xs ++ [x])[n]? = some x := by rw [List.getElem?_append_right (by omega)]; simp [hn]
    have hgt : ∀ i, n < i → (xs ++ [x])[i]? = none := fun i hi => List.getElem?_eq_none (by simp; omega)
    have hxs : ∀ i, n ≤ i → xs[i]? = none := fun i hi => List.getElem?_eq_none (by omega)
    cases x with
    | none =>
      rw [List.countP_append, ih xs L hn hnd]
      · simp
      · intro i
        rw [hm i]
        rcases Nat.lt_trichotomy i n with h | h | h
        · rw [hlt i h]
        · subst h; rw [hge, hxs _ (Nat.le_refl _)]; simp
        · rw [hgt i h, hxs i (by omega)]
    | some v =>
      have hmem : n ∈ L := (hm n).mpr ⟨v, hge⟩
      have hlen := List.length_erase_of_mem hmem
      have hpos := List.length_pos_of_mem hmem
      rw [List.countP_append, ih xs (L.erase n) hn (hnd.erase n)]
      · simp; omega
      · intro i
        rw [hnd.mem_erase_iff, hm i]
        rcases Nat.lt_trichotomy i n with h | h | h
        · rw [hlt i h]; simp; omega
        · subst h; rw [hxs _ (Nat.le_refl _)]; simp
        · rw [hgt i h, hxs i (by omega)]; simp

theorem len_nodup {a : Arena V} {L : List Nat} (hnd : L.Nodup) (hm : ∀ i, i ∈ L ↔ a.get i ≠ none) : a.len = L.length := by
  apply countP_nodup _ _ _ rfl hnd
  intro i
  rw [hm i, Arena.get]
  cases h : a.items[i]? with
  | none => simp
  | some x => cases x <;> simp

/-- the number of stored leaves is the number of elements -/
theorem lf_len {B : Trait E C D} {A : Law B} {m : Fill} {h : Nat} {s : Tree E C} (i : InvH A m h s) : s.lf.len = (abs s).es.length := by
  obtain ⟨lvl, g⟩ := i.ex
  have h1 : (abs s).es.length = (order s).length := by
    rw [← entries_fst g.wf, List.length_map]; rfl
  rw [h1]
  apply len_nodup (order_nodup g.wf)
  intro l
  rw [mem_order g.wf, Ne, Ne, lpar_none]

/-- an empty tree stores only its root -/
theorem inn_len_empty {B : Trait E C D} {A : Law B} {m : Fill} {h : Nat} {s : Tree E C} (i : InvH A m h s) (hm : 1 ≤ m.lo) (hn : (abs s).es = []) :
    s.inn.len = 1 := by
  have ne := i.ne hm
  obtain ⟨lvl, g⟩ := i.ex
  have hc := (empty_iff g.wf ne).mp ((abs_nil i).mp hn)
  have : ∀ n y, lnk s y ≠ none → h - lvl y ≤ n → y = s.root := by
    intro n
    induction n with
    | zero =>
      intro y hy hl
      obtain ⟨N, hN⟩ := lnk_isSome.mp hy
      apply Decidable.byContradiction
      intro hr
      have := g.wf.live_lt hN hr
      omega
    | succ n ih =>
      intro y hy hl
      obtain ⟨N, hN⟩ := lnk_isSome.mp hy
      apply Decidable.byContradiction
      intro hr
      obtain ⟨p, -, he, h3⟩ := g.wf.parent_in hN hr
      have := ih p (edge_live he) (by have := g.wf.live_lt hN hr; omega)
      subst this
      rw [Edge, kids_chs, hc] at he
      simp at he
  have h1 : s.inn.len = [s.root].length := by
    apply len_nodup (by simp)
    intro y
    simp only [List.mem_singleton]
    constructor
    · intro hy
      subst hy
      obtain ⟨N, hN, -⟩ := g.wf.root
      rw [hN]; simp
    · intro hy
      obtain ⟨N, hN⟩ := Option.ne_none_iff_exists'.mp hy
      exact this _ y (lnk_isSome.mpr ⟨N, hN⟩) (Nat.le_refl _)
  exact h1

end GB
