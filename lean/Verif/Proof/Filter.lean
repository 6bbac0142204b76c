import Verif.Proof.Caches

/-!
# `iter_with_filter`
-/

namespace GB
variable {E C D R : Type}
open Tree

/-- number of nodes below (and including) an index, `n` levels deep -/
def size (s : Tree E C) : Nat → Idx → Nat
  | _, .leaf _ => 1
  | 0, .internal _ => 1
  | n + 1, .internal x => 1 + ((kids s x).map (size s n)).sum

/-- What `iter_with_filter` should yield below an index: depth-first, children in order, entering only
children whose cache passes; the accumulated value of a child is that of its parent plus the values of the
earlier siblings. -/
def filt (s : Tree E C) (add : R → R → R) (f : C → Bool × R) : Nat → Idx × R → List (R × E)
  | _, (.leaf l, r) => (elm s l).toList.map fun e => (r, e)
  | 0, (.internal _, _) => []
  | n + 1, (.internal x, r) => (filterChildren add f (chs s x) r).flatMap (filt s add f n)

section
variable {s : Tree E C} {lvl : Nat → Nat} {h : Nat}

/-- the levels of an index -/
def AtLvl (s : Tree E C) (lvl : Nat → Nat) (k : Nat) : Idx → Prop
  | .leaf l => k = 0 ∧ lpar s l ≠ none
  | .internal x => lnk s x ≠ none ∧ lvl x = k

theorem AtLvl.kid (w : WF s lvl h) {k x : Nat} (hx : AtLvl s lvl (k + 1) (.internal x)) : ∀ a ∈ kids s x, AtLvl s lvl k a := by
  intro a ha
  obtain ⟨i, hi⟩ := mem_kids.mp ha
  cases a with
  | leaf l =>
    have := w.klf hi
    refine ⟨?_, by rw [this.2]; simp⟩
    have := hx.2
    omega
  | internal y =>
    have := w.kin hi
    refine ⟨by rw [this.2]; simp, ?_⟩
    have := hx.2
    omega

theorem AtLvl.zero (w : WF s lvl h) {a : Idx} (ha : AtLvl s lvl 0 a) : ∃ l, a = .leaf l ∧ lpar s l ≠ none := by
  cases a with
  | leaf l => exact ⟨l, rfl, ha.2⟩
  | internal x => have := (w.lvl_pos' ha.1).1; have := ha.2; omega

theorem AtLvl.succ {k : Nat} {a : Idx} (ha : AtLvl s lvl (k + 1) a) : ∃ x, a = .internal x ∧ lnk s x ≠ none := by
  cases a with
  | leaf l => have := ha.1; omega
  | internal x => exact ⟨x, rfl, ha.1⟩

theorem size_row (w : WF s lvl h) (d : Nat) (hd : d < h) : ∀ u : List Idx, (∀ a ∈ u, a ∈ rowI s d) →
    (u.map (size s (h - d))).sum = u.length + ((u.flatMap (kidsI s)).map (size s (h - (d + 1)))).sum := by
  intro u
  induction u with
  | nil => intro _; rfl
  | cons a u ih =>
    intro hu
    obtain ⟨x, rfl, -, -⟩ := rowI_internal w d hd a (hu a (by simp))
    have := ih (fun b hb => hu b (by simp [hb]))
    have e : h - d = (h - (d + 1)) + 1 := by omega
    have e2 : size s (h - d) (.internal x) = 1 + ((kids s x).map (size s (h - (d + 1)))).sum := by rw [e, size]
    simp only [List.map_cons, List.sum_cons, List.flatMap_cons, List.map_append, List.sum_append, List.length_cons, this, e2,
      kidsI]
    omega

/-- the whole tree has at most as many nodes as the arenas have slots -/
theorem size_root_le (w : WF s lvl h) : size s h (.internal s.root) ≤ s.inn.items.length + s.lf.items.length := by
  have key : ∀ k d, d + k = h → ((rowI s d).map (size s (h - d))).sum =
      ((List.range' d k).flatMap (rowI s)).length + (rowI s h).length := by
    intro k
    induction k with
    | zero =>
      intro d hd
      have : d = h := by omega
      subst this
      have hl : ∀ u : List Idx, (∀ a ∈ u, ∃ l, a = .leaf l ∧ lpar s l ≠ none) → (u.map (size s (d - d))).sum = u.length := by
        intro u
        induction u with
        | nil => intro _; rfl
        | cons a u ih =>
          intro hu
          obtain ⟨l, rfl, -⟩ := hu a (by simp)
          simp only [List.map_cons, List.sum_cons, ih (fun b hb => hu b (by simp [hb])), List.length_cons]
          cases d - d <;> simp only [size] <;> omega
      rw [hl _ (rowI_leaf w)]
      simp
    | succ k ih =>
      intro d hd
      rw [size_row w d (by omega) (rowI s d) (fun _ h => h)]
      have : (rowI s d).flatMap (kidsI s) = rowI s (d + 1) := rfl
      rw [this, ih (d + 1) (by omega), List.range'_succ, List.flatMap_cons, List.length_append]
      omega
  have h1 := key h 0 (by omega)
  have h2 := rows_length_le w
  have h3 := order_length_le w
  rw [row_order w, List.length_map, ← List.range_eq_range'] at h1
  simp only [rowI, List.map_cons, List.map_nil, List.sum_cons, List.sum_nil, Nat.sub_zero, Nat.add_zero] at h1
  omega

theorem filterChildren_kids (add : R → R → R) (f : C → Bool × R) : ∀ (cs : List (Child C)) (r : R),
    ((filterChildren add f cs r).map Prod.fst).Sublist (cs.map Child.arena) := by
  intro cs
  induction cs with
  | nil => intro r; simp [filterChildren]
  | cons c cs ih =>
    intro r
    simp only [filterChildren]
    split
    · exact (ih _).cons_cons _
    · exact (ih _).cons _

theorem sum_sublist {l m : List Nat} (hs : l.Sublist m) : l.sum ≤ m.sum := by
  induction hs with
  | slnil => simp
  | cons a _ ih => simp only [List.sum_cons]; omega
  | cons_cons a _ ih => simp only [List.sum_cons]; omega

theorem filterF_spec (w : WF s lvl h) (add : R → R → R) (f : C → Bool × R) :
    ∀ (n k : Nat) (q1 q2 : List (Idx × R)), (∀ x ∈ q1, AtLvl s lvl (k + 1) x.1) → (∀ x ∈ q2, AtLvl s lvl k x.1) →
    (q1.map fun x => size s (k + 1) x.1).sum + (q2.map fun x => size s k x.1).sum < n →
    filterF add f n s (q1 ++ q2) = .ok (q2.flatMap (filt s add f k) ++ q1.flatMap (filt s add f (k + 1))) := by
  intro n
  induction n with
  | zero => intro k q1 q2 _ _ hn; omega
  | succ n ih =>
    have exp : ∀ (k x : Nat) (r : R), AtLvl s lvl (k + 1) (.internal x) →
        (∀ y ∈ filterChildren add f (chs s x) r, AtLvl s lvl k y.1) ∧
        ((filterChildren add f (chs s x) r).map fun y => size s k y.1).sum + 1 ≤ size s (k + 1) (.internal x) := by
      intro k x r hx
      have hsub := filterChildren_kids add f (chs s x) r
      rw [← kids_chs] at hsub
      constructor
      · intro y hy
        exact hx.kid w y.1 (hsub.subset (List.mem_map.mpr ⟨y, hy, rfl⟩))
      · have := sum_sublist (hsub.map (size s k))
        rw [List.map_map] at this
        simp only [size]
        have e : (fun y : Idx × R => size s k y.1) = size s k ∘ Prod.fst := rfl
        rw [e]
        omega
    intro k q1 q2 h1 h2 hn
    cases q1 with
    | nil =>
      cases q2 with
      | nil => rfl
      | cons y q2 =>
        obtain ⟨a, r⟩ := y
        have ha := h2 (a, r) (by simp)
        simp only [List.map_nil, List.sum_nil, List.map_cons, List.sum_cons] at hn
        cases k with
        | zero =>
          obtain ⟨l, rfl, hl⟩ := AtLvl.zero w ha
          obtain ⟨p, hp⟩ := Option.ne_none_iff_exists'.mp hl
          obtain ⟨e, hL, he⟩ := getLf_of hp
          have hi := ih 0 [] q2 (by simp) (fun x hx => h2 x (by simp [hx])) (by simp [size] at hn ⊢; omega)
          simp only [List.nil_append] at hi ⊢
          simp only [filterF, getLf_ok hL, bind_ok, hi]
          simp [filt, he]
        | succ k =>
          obtain ⟨x, rfl, hx⟩ := ha.succ
          obtain ⟨N, hN⟩ := lnk_isSome.mp hx
          obtain ⟨e1, e2⟩ := exp k x r ha
          have hi := ih k q2 (filterChildren add f (chs s x) r) (fun x hx => h2 x (by simp [hx])) e1 (by omega)
          simp only [List.nil_append, filterF, getIn_ok hN, bind_ok, ← chs_of hN, hi]
          simp [filt]
    | cons y q1 =>
      obtain ⟨a, r⟩ := y
      have ha := h1 (a, r) (by simp)
      obtain ⟨x, rfl, hx⟩ := ha.succ
      obtain ⟨N, hN⟩ := lnk_isSome.mp hx
      obtain ⟨e1, e2⟩ := exp k x r ha
      simp only [List.map_cons, List.sum_cons] at hn
      have hi := ih k q1 (q2 ++ filterChildren add f (chs s x) r) (fun x hx => h1 x (by simp [hx])) (by
        intro z hz
        rcases List.mem_append.mp hz with hz | hz
        · exact h2 z hz
        · exact e1 z hz) (by simp only [List.map_append, List.sum_append]; omega)
      simp only [List.cons_append, filterF, getIn_ok hN, bind_ok, ← chs_of hN, List.append_assoc, hi]
      simp [filt]

/-- `iter_with_filter` yields the filtered depth-first sequence. -/
theorem iterWithFilter_filt (w : WF s lvl h) (zero : R) (add : R → R → R) (f : C → Bool × R) :
    iterWithFilter zero add f s = .ok (filt s add f h (.internal s.root, zero)) := by
  obtain ⟨i, hi⟩ := w.root'
  have hr : AtLvl s lvl h (.internal s.root) := ⟨by rw [hi]; simp, w.root_lvl⟩
  have := filterF_spec w add f (leafFuel s) h [] [(.internal s.root, zero)] (by simp) (by
    intro x hx
    simp only [List.mem_singleton] at hx
    subst hx; exact hr) (by
    have := size_root_le w
    simp only [List.map_nil, List.sum_nil, List.map_cons, List.sum_cons, leafFuel]
    omega)
  simpa [iterWithFilter] using this

end
end GB
