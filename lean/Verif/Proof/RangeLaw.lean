import Verif.Model.RangeMap
import Verif.Proof.Content
import Verif.Proof.Query
import Verif.Proof.Dirty

/-!
# The range map obeys the contract
-/

namespace GB
open Tree

/-- the range map obeys the contract on elements of positive length -/
def rangeLaw : Law rangeTrait where
  total := List.sum
  okC := fun _ => True
  okE := fun e => 0 < e.len
  IsDiff := fun c d c' => (c' : Int) = c + d
  emptyOk := fun c => c = 0
  calc_ok := by
    intro c0 cs _ _
    exact ⟨_, rfl, fun _ => by omega⟩
  calc_empty := fun c0 => ⟨0, _, rfl, rfl⟩
  dflt_empty := rfl
  total_ok := fun _ _ _ => trivial
  total_flat := by
    intro l m r _
    simp only [List.sum_append, List.sum_cons]
    omega
  total_single := by intro c _; simp
  elem_ok := fun _ _ => trivial
  diff_apply := by
    intro _ c d c' h
    simp only [rangeTrait, ← h, Int.toNat_natCast]
  diff_ctx := by
    intro _ l r c d c' h
    simp only [List.sum_append, List.sum_cons]
    omega
  diff_ins := by
    intro _ l r c _
    simp only [List.sum_append, List.sum_cons, rangeTrait]
    omega
  diff_empty := by
    intro _ c0 c h
    subst h
    simp [rangeTrait]
  merge_right := by
    intro a b ha hb _
    exact ⟨_, rfl, by simp only; omega, by simp [rangeTrait]⟩
  merge_left := by
    intro a b ha hb _
    exact ⟨_, rfl, by simp only; omega, by simp [rangeTrait, Nat.add_comm]⟩
  split := by
    intro e i he h0 h1
    have h1 : i < e.len := h1
    exact ⟨_, _, rfl, h0, by simp only; omega, by simp only [rangeTrait, List.sum_cons, List.sum_nil]; omega⟩
  tryInsert := fun _ _ _ _ _ _ => Or.inr rfl

theorem rangeLawE : LawE rangeLaw where
  ok_nil := trivial
  empty_nil := rfl
  calc_nil := fun c0 => ⟨_, rfl, fun _ => by simp only [rangeLaw]; omega⟩
  total_nil := by
    intro l r
    simp only [rangeLaw, List.sum_append, List.sum_cons, List.sum_nil]
    omega

theorem rangeLenLaw : LenLaw rangeLaw id where
  total := by intro cs _ _; simp [rangeLaw]
  elem := fun _ _ => rfl

theorem rangeDiffs : DiffLaw rangeLaw (fun c d c' => (c' : Int) = c + d) where
  apply := rangeLaw.diff_apply rfl
  ctx := rangeLaw.diff_ctx rfl
  merge := by
    intro a d b e c h1 h2
    show (c : Int) = a + (d + e)
    omega

/-- the positions of an element: all have its value -/
def RElem.cells (e : RElem) : List (Option Int) := List.replicate e.len e.value

theorem rangeContent : ContentLaw rangeTrait rangeLaw.okE RElem.cells where
  len := by intro e _; simp [RElem.cells, rangeTrait]
  merge_right := by
    intro a b e ha hb hm h
    cases h
    have hb : 0 < b.len := hb
    simp only [rangeTrait, Bool.or_eq_true, decide_eq_true_eq] at hm
    simp only [RElem.cells]
    rcases hm with h | h
    · rw [h, List.replicate_append_replicate]
    · omega
  merge_left := by
    intro a b e ha hb hm h
    cases h
    have hb : 0 < b.len := hb
    simp only [rangeTrait, Bool.or_eq_true, decide_eq_true_eq] at hm
    simp only [RElem.cells, Nat.add_comm b.len]
    rcases hm with h | h
    · rw [h, List.replicate_append_replicate]
    · omega
  split := by
    intro e i a b he h0 h1 h
    have h1 : i < e.len := h1
    cases h
    simp only [RElem.cells, List.take_replicate, List.drop_replicate]
    exact ⟨by rw [Nat.min_eq_left (by omega)], trivial⟩
  tryInsert := by intro e i d e' _ _ _ h; cases h

end GB
