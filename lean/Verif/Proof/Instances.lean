import Verif.Proof.Check
import Verif.Proof.GapBuffer
import Verif.Model.Ord
import Verif.Model.Rope

/-!
# The callbacks of the crate obey the contract
-/

namespace GB
open Tree

/-! ## Ordered map -/

section
variable {K V : Type}

/-- smallest and largest key of two adjacent blocks -/
def ordComb : OrdCache K → OrdCache K → OrdCache K
  | some a, some b => some (a.1, b.2)
  | _, _ => none

/-- smallest and largest key of adjacent blocks -/
def ordTotal : List (OrdCache K) → OrdCache K
  | [] => none
  | c :: cs => cs.foldl ordComb c

theorem ordComb_assoc (a b c : OrdCache K) : ordComb (ordComb a b) c = ordComb a (ordComb b c) := by
  cases a <;> cases b <;> cases c <;> rfl

theorem ordFold_assoc : ∀ (cs : List (OrdCache K)) (a b : OrdCache K), cs.foldl ordComb (ordComb a b) = ordComb a (cs.foldl ordComb b) := by
  intro cs
  induction cs with
  | nil => intro a b; rfl
  | cons c cs ih => intro a b; simp only [List.foldl_cons]; rw [ordComb_assoc, ih]

theorem ordTotal_flat (l m r : List (OrdCache K)) (hm : m ≠ []) : ordTotal (l ++ ordTotal m :: r) = ordTotal (l ++ m ++ r) := by
  obtain ⟨c, m, rfl⟩ := List.exists_cons_of_ne_nil hm
  cases l with
  | nil => simp [ordTotal, List.foldl_append]
  | cons a l =>
    simp only [ordTotal, List.cons_append, List.foldl_append, List.foldl_cons, ordFold_assoc]

theorem ordTotal_some : ∀ (cs : List (OrdCache K)) (c : OrdCache K), (∀ x ∈ c :: cs, x.isSome) →
    ∃ a b, c = some a ∧ (c :: cs).getLast? = some (some b) ∧ ordTotal (c :: cs) = some (a.1, b.2) := by
  intro cs
  induction cs with
  | nil =>
    intro c hc
    obtain ⟨a, ha⟩ := Option.isSome_iff_exists.mp (hc c (by simp))
    exact ⟨a, a, ha, by simp [ha], by simp [ordTotal, ha]⟩
  | cons d cs ih =>
    intro c hc
    obtain ⟨a, ha⟩ := Option.isSome_iff_exists.mp (hc c (by simp))
    obtain ⟨a', b, h1, h2, h3⟩ := ih d (fun x hx => hc x (by simp [List.mem_cons.mp hx]))
    refine ⟨a, b, ha, by rw [List.getLast?_cons_cons]; exact h2, ?_⟩
    simp only [ordTotal, List.foldl_cons] at h3 ⊢
    rw [ordFold_assoc, h3, ha]
    rfl

/-- the ordered map obeys the contract -/
def ordLaw (K V : Type) : Law (ordTrait K V) where
  total := ordTotal
  okC := fun c => c.isSome
  okE := fun _ => True
  IsDiff := fun _ _ _ => True
  emptyOk := fun _ => True
  calc_ok := by
    intro c0 cs hne hok
    obtain ⟨c, cs, rfl⟩ := List.exists_cons_of_ne_nil hne
    obtain ⟨a, b, h1, h2, h3⟩ := ordTotal_some cs c hok
    subst h1
    refine ⟨(), ?_, fun _ => trivial⟩
    simp only [ordTrait, ordCalc, h2, List.head?_cons, unwrap_some, bind_ok, h3, pure_ok]
  calc_empty := fun c0 => ⟨c0, (), rfl, trivial⟩
  dflt_empty := trivial
  total_ok := by
    intro cs hne hok
    obtain ⟨c, cs, rfl⟩ := List.exists_cons_of_ne_nil hne
    obtain ⟨a, b, h1, h2, h3⟩ := ordTotal_some cs c hok
    rw [h3]; rfl
  total_flat := ordTotal_flat
  total_single := fun _ _ => rfl
  elem_ok := fun _ _ => rfl
  diff_apply := fun h => by cases h
  diff_ctx := fun _ _ _ _ _ _ _ => trivial
  diff_ins := fun _ _ _ _ _ => trivial
  diff_empty := fun _ _ _ _ => trivial
  merge_right := fun _ _ _ _ h => by cases h
  merge_left := fun _ _ _ _ h => by cases h
  split := fun _ i _ h0 h1 => by
    have : i < 1 := h1
    omega
  tryInsert := fun _ _ _ _ _ _ => Or.inr rfl

end

/-! ## Rope -/

theorem int_sum_append (l m : List Int) : (l ++ m).sum = l.sum + m.sum := by
  induction l with
  | nil => simp
  | cons a l ih => simp [ih, Int.add_assoc]

/-- the rope obeys the contract; all buffers have the same capacity -/
def ropeLaw (cap : Nat) : Law ropeTrait where
  total := List.sum
  okC := fun c => 0 ≤ c
  okE := fun g => g.WF ∧ g.capacity = cap
  IsDiff := fun c d c' => c' = c + d
  emptyOk := fun c => c = 0
  calc_ok := by
    intro c0 cs _ _
    exact ⟨_, rfl, fun _ => by omega⟩
  calc_empty := fun c0 => ⟨0, _, rfl, rfl⟩
  dflt_empty := rfl
  total_ok := by
    intro cs _ hok
    induction cs with
    | nil => simp
    | cons c cs ih =>
      have h1 := hok c (by simp)
      have h2 : 0 ≤ cs.sum := by
        by_cases hc : cs = []
        · simp [hc]
        · exact ih hc (fun c hc => hok c (by simp [hc]))
      simp only [List.sum_cons]
      omega
  total_flat := by
    intro l m r _
    simp only [int_sum_append, List.sum_cons]
    omega
  total_single := by intro c _; simp
  elem_ok := by
    intro e _
    simp only [ropeTrait]
    omega
  diff_apply := by
    intro _ c d c' h
    simp [ropeTrait, h]
  diff_ctx := by
    intro _ l r c d c' h
    simp only [int_sum_append, List.sum_cons, h]
    omega
  diff_ins := by
    intro _ l r c _
    simp only [int_sum_append, List.sum_cons, ropeTrait]
    omega
  diff_empty := by
    intro _ c0 c h
    simp [ropeTrait, h]
  merge_right := by
    intro a b ha hb hm
    obtain ⟨g, h1, h2, h3, h4⟩ := GapBuf.mergeRight_spec a b ha.1 hb.1 hm
    refine ⟨g, h1, ⟨h2, by rw [h3]; exact ha.2⟩, ?_⟩
    simp only [ropeTrait, ← GapBuf.toVec_length g h2, ← GapBuf.toVec_length a ha.1, ← GapBuf.toVec_length b hb.1, h4]
    simp
  merge_left := by
    intro a b ha hb hm
    have hm' : b.len + a.len ≤ b.capacity := by
      simp only [ropeTrait, GapBuf.canMerge, decide_eq_true_eq] at hm
      rw [hb.2]; rw [ha.2] at hm; omega
    obtain ⟨g, h1, h2, h3, h4⟩ := GapBuf.mergeLeft_spec b a hb.1 ha.1 hm'
    refine ⟨g, h1, ⟨h2, by rw [h3]; exact hb.2⟩, ?_⟩
    simp only [ropeTrait, ← GapBuf.toVec_length g h2, ← GapBuf.toVec_length a ha.1, ← GapBuf.toVec_length b hb.1, h4]
    simp
  split := by
    intro e i he h0 h1
    obtain ⟨l, r, h2, h3, h4, h5, h6, h7, h8⟩ := GapBuf.split_spec e he.1 i (Nat.le_of_lt h1)
    refine ⟨l, r, h2, ⟨h3, by rw [h5]; exact he.2⟩, ⟨h4, by rw [h6]; exact he.2⟩, ?_⟩
    have hl := GapBuf.toVec_length e he.1
    simp only [ropeTrait, ← GapBuf.toVec_length l h3, ← GapBuf.toVec_length r h4, ← GapBuf.toVec_length e he.1, h7, h8]
    have : i < e.len := h1
    simp only [List.length_take, List.length_drop, List.sum_cons, List.sum_nil]
    omega
  tryInsert := by
    intro e i d he hd hi
    by_cases hb : e.len + d.len ≤ e.capacity
    · left
      obtain ⟨g, h1, h2, h3, h4⟩ := GapBuf.tryInsert_spec e d he.1 hd.1 i hi hb
      refine ⟨g, h1, ⟨h2, by rw [h3]; exact he.2⟩, fun _ => ?_⟩
      have hl := GapBuf.toVec_length e he.1
      simp only [ropeTrait, ← GapBuf.toVec_length g h2, ← GapBuf.toVec_length d hd.1, ← GapBuf.toVec_length e he.1, h4]
      have : i ≤ e.len := hi
      simp only [List.length_append, List.length_take, List.length_drop]
      omega
    · right
      exact GapBuf.tryInsert_full e d i (by omega)

theorem ropeLawE (cap : Nat) : LawE (ropeLaw cap) where
  ok_nil := by simp [ropeLaw]
  empty_nil := rfl
  calc_nil := fun c0 => ⟨_, rfl, fun _ => by simp only [ropeLaw]; omega⟩
  total_nil := by
    intro l r
    simp only [ropeLaw, int_sum_append, List.sum_cons, List.sum_nil]
    omega

theorem ropeLenLaw (cap : Nat) : LenLaw (ropeLaw cap) ropeLen where
  total := by
    intro cs _ hok
    simp only [ropeLaw, ropeLen] at hok ⊢
    have : 0 ≤ cs.sum ∧ (cs.sum).toNat = (cs.map Int.toNat).sum := by
      induction cs with
      | nil => simp
      | cons c cs ih =>
        have h1 := hok c (by simp)
        have h2 : 0 ≤ cs.sum ∧ (cs.sum).toNat = (cs.map Int.toNat).sum := by
          by_cases hc : cs = []
          · simp [hc]
          · exact ih hc (fun c hc => hok c (by simp [hc]))
        simp only [List.sum_cons, List.map_cons]
        omega
    exact this.2
  elem := by
    intro e _
    simp [ropeTrait, ropeLen]

end GB
