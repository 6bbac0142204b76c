import Verif.Proof.Abs

/-!
# Height of trees with a thin left edge
-/

namespace GB
variable {E C D : Type}
open Tree

section
variable {s : Tree E C} {lvl : Nat → Nat} {h : Nat}

/-- one node per level is on the left edge -/
theorem LSp.uniq (w : WF s lvl h) {y : Nat} (hy : LSp s y) : ∀ {z : Nat}, LSp s z → lvl z = lvl y → z = y := by
  have top : ∀ {z : Nat}, LSp s z → lvl z = h → z = s.root := by
    intro z hz hl
    cases hz with
    | root => rfl
    | @step q _ h1 h2 =>
      have := (w.kin (head?_edge h2)).1
      have := (w.lvl_pos' (h1.live w)).2
      omega
  induction hy with
  | root => intro z hz hl; exact top hz (by rw [hl, w.root_lvl])
  | @step q y h1 h2 ih =>
    intro z hz hl
    cases hz with
    | root =>
      have := (w.kin (head?_edge h2)).1
      have := (w.lvl_pos' (h1.live w)).2
      have := w.root_lvl
      omega
    | @step q' _ h3 h4 =>
      have l1 := (w.kin (head?_edge h2)).1
      have l2 := (w.kin (head?_edge h4)).1
      cases ih h3 (by omega)
      rw [h2] at h4
      cases h4
      rfl

theorem rows_grow_fill {m : Fill} (w : WF s lvl h) (sz : Sz m s h) {d : Nat} (hd1 : 1 ≤ d) (hd : d < h) :
    (m.lo + m.d) * (rowI s d).length ≤ (rowI s (d + 1)).length + m.d := by
  have node : ∀ x, Idx.internal x ∈ rowI s d → lvl x = h - d ∧ m.le s x (chs s x).length := by
    intro x hx
    obtain ⟨x', e, hx', hlx⟩ := rowI_internal w d hd _ hx
    cases e
    exact ⟨hlx, (sz x hx' (fun h => h)).2.1 (by intro e; subst e; rw [w.root_lvl] at hlx; omega)⟩
  have off : ∀ u : List Idx, (∀ a ∈ u, a ∈ rowI s d) → (∀ x, .internal x ∈ u → ¬ LSp s x) →
      (m.lo + m.d) * u.length ≤ (u.flatMap (kidsI s)).length := by
    intro u
    induction u with
    | nil => intro _ _; simp
    | cons a u ih =>
      intro hu hn
      obtain ⟨x, rfl, -, -⟩ := rowI_internal w d hd a (hu a (by simp))
      have h1 := (node x (hu _ (by simp))).2.2 (hn x (by simp))
      have h2 := ih (fun b hb => hu b (by simp [hb])) (fun x hx => hn x (by simp [hx]))
      simp only [List.length_cons, List.flatMap_cons, List.length_append, kidsI, kids_chs, List.length_map, Nat.mul_add]
      omega
  have key : ∀ u : List Idx, u.Nodup → (∀ a ∈ u, a ∈ rowI s d) → (m.lo + m.d) * u.length ≤ (u.flatMap (kidsI s)).length + m.d := by
    intro u
    induction u with
    | nil => intro _ _; simp
    | cons a u ih =>
      intro nd hu
      rw [List.nodup_cons] at nd
      obtain ⟨x, rfl, -, -⟩ := rowI_internal w d hd a (hu a (by simp))
      obtain ⟨hlx, h1⟩ := node x (hu _ (by simp))
      simp only [List.length_cons, List.flatMap_cons, List.length_append, kidsI, kids_chs, List.length_map, Nat.mul_add]
      by_cases hl : LSp s x
      · have h2 := off u (fun b hb => hu b (by simp [hb])) (fun z hz hlz => by
          have := hl.uniq w hlz (by rw [(node z (hu _ (by simp [hz]))).1, hlx])
          subst this
          exact nd.1 hz)
        have := h1.1
        omega
      · have h2 := ih nd.2 (fun b hb => hu b (by simp [hb]))
        have := h1.2 hl
        omega
  exact key (rowI s d) (row_nodup w d) (fun _ h => h)

/-- the least number of nodes `k` levels below the children of the root -/
def fillRow (m : Fill) : Nat → Nat
  | 0 => 2
  | k + 1 => (m.lo + m.d) * fillRow m k - m.d

theorem fillRow_pos (m : Fill) (hm : 1 ≤ m.lo) : ∀ k, 1 ≤ fillRow m k
  | 0 => (by decide : 1 ≤ 2)
  | k + 1 => by
    have ih := fillRow_pos m hm k
    have h1 := Nat.mul_le_mul_left (m.lo + m.d) ih
    rw [fillRow]; omega

theorem fillRow_mono (m : Fill) (hm : 1 ≤ m.lo) {j k : Nat} (hjk : j ≤ k) : fillRow m j ≤ fillRow m k := by
  induction hjk with
  | refl => exact Nat.le_refl _
  | @step k _ ih =>
    refine Nat.le_trans ih ?_
    rw [fillRow]
    have h1 := Nat.mul_le_mul_right (fillRow m k) hm
    have h2 := Nat.mul_le_mul_left m.d (fillRow_pos m hm k)
    rw [Nat.add_mul]
    omega

theorem height_bound_fill {m : Fill} (w : WF s lvl h) (sz : Sz m s h) (h2 : 2 ≤ h) : fillRow m (h - 1) ≤ (entries s).length := by
  have key : ∀ d, d + 1 ≤ h → fillRow m d ≤ (rowI s (d + 1)).length := by
    intro d
    induction d with
    | zero =>
      intro _
      obtain ⟨i, hi⟩ := w.root'
      have := (sz s.root (by rw [hi]; simp) (fun h => h)).2.2 rfl h2
      simpa [rowI, kidsI, kids_chs, fillRow] using this
    | succ d ih =>
      intro hd
      have h1 := Nat.mul_le_mul_left (m.lo + m.d) (ih (by omega))
      have h3 := rows_grow_fill w sz (d := d + 1) (by omega) (by omega)
      rw [fillRow]
      omega
  have := key (h - 1) (by omega)
  rw [show h - 1 + 1 = h by omega, row_order w, List.length_map, ← entries_length w] at this
  exact this

/-- a tree with fewer leaves than a tree of `k + 1` levels must have is not higher than `k` levels -/
theorem Inv.height {B : Trait E C D} {A : Law B} {m : Fill} (hi : Inv A m s) (hm : 1 ≤ m.lo) {k : Nat} (hk : 1 ≤ k) (hn : (abs s).es.length < fillRow m k) :
    ∃ h, h ≤ k ∧ InvH A m h s := by
  obtain ⟨h, ⟨lvl, g⟩, sz⟩ := hi
  refine ⟨h, ?_, ⟨lvl, g⟩, sz⟩
  apply Decidable.byContradiction
  intro hh
  have h1 := height_bound_fill g.wf sz (by omega)
  have h2 := fillRow_mono m hm (show k ≤ h - 1 by omega)
  have hn : (entries s).length < fillRow m k := hn
  omega

end
end GB
