import Verif.Proof.OrdHist

/-!
# C34: `OrdTreeMap` histories, `len`, `is_empty`, iteration
-/

namespace GB
variable {K V : Type} [Ord K] [Std.TransOrd K]

/-- Every history of inserts and deletes of present keys from `new()` runs without panic and agrees with the
sorted association list: same results, same bindings, `len`, `is_empty`. -/
theorem C34_ord_history {os : List (OrdOp K V)} (hv : ordValid [] os) :
    ∃ m, ordRun OrdMap.new os = .ok ((ordSpec [] os).1, m) ∧ m.Ok ∧ m.assoc = (ordSpec [] os).2 ∧ KeySorted m.assoc ∧
      m.len = (ordSpec [] os).2.length ∧ (m.isEmpty = true ↔ (ordSpec [] os).2 = []) ∧
      (m.len < 20155392 → m.iter = .ok (ordSpec [] os).2 ∧ m.iterKey = .ok ((ordSpec [] os).2.map Prod.fst)) := by
  obtain ⟨m, h1, h2, h3⟩ := ordRun_spec (OrdMap.new_ok (K := K) (V := V)) (os := os) (by rw [OrdMap.new_assoc]; exact hv)
  rw [OrdMap.new_assoc] at h1 h3
  refine ⟨m, h1, h2, h3, h2.sorted, by rw [h2.len, h3], ?_, ?_⟩
  · rw [OrdMap.isEmpty, decide_eq_true_eq, h2.len, h3, List.length_eq_zero_iff]
  · intro hn
    have := OrdMap.iter_spec h2 hn
    rw [h3] at this
    refine ⟨this, ?_⟩
    rw [OrdMap.iterKey, show GB.iter m.tree = .ok (ordSpec [] os).2 from this]
    rfl

/-- Every history, absent keys included, runs without panic, and keeps keys sorted and `len` exact. -/
theorem C34_ord_any_history (os : List (OrdOp K V)) :
    ∃ rs m, ordRun OrdMap.new os = .ok (rs, m) ∧ m.Ok ∧ KeySorted m.assoc ∧ m.len = m.assoc.length ∧
      (m.len < 20155392 → m.iter = .ok m.assoc) := by
  obtain ⟨rs, m, h1, h2⟩ := ordRun_ok (OrdMap.new_ok (K := K) (V := V)) os
  exact ⟨rs, m, h1, h2, h2.sorted, h2.len, OrdMap.iter_spec h2⟩

/-- The set is the map with unit values: `insert` adds the key, `iter` yields the sorted keys. -/
theorem C34_set {s : OrdSet K} (hm : s.map.Ok) (hn : s.map.len < 20155391) (k : K) :
    ∃ s', s.insert k = .ok s' ∧ s'.map.Ok ∧ s'.iter = .ok ((asInsert k () s.map.assoc).map Prod.fst) ∧
      s.iter = .ok (s.map.assoc.map Prod.fst) ∧ s'.len = (asInsert k () s.map.assoc).length := by
  obtain ⟨m', h1, h2, h3⟩ := OrdMap.insert_spec hm k ()
  have hl : m'.len < 20155392 := by
    rw [h2.len, h3]
    have : ∀ l : List (K × Unit), (asInsert k () l).length ≤ l.length + 1 := by
      intro l
      induction l with
      | nil => exact Nat.le_refl _
      | cons x l ih =>
        simp only [asInsert]
        split
        · exact Nat.le_refl _
        · exact Nat.le_succ _
        · simp only [List.length_cons]; omega
    have h4 := this s.map.assoc
    rw [← hm.len] at h4
    omega
  refine ⟨⟨m'⟩, by simp only [OrdSet.insert, h1, bind_ok, pure_ok], h2, ?_, ?_, ?_⟩
  · have := OrdMap.iter_spec h2 hl
    rw [OrdSet.iter, OrdMap.iterKey, show GB.iter m'.tree = .ok m'.assoc from this, h3]
    rfl
  · have := OrdMap.iter_spec hm (by omega)
    rw [OrdSet.iter, OrdMap.iterKey, show GB.iter s.map.tree = .ok s.map.assoc from this]
    rfl
  · rw [OrdSet.len, h2.len, h3]

example := C34_ord_history (K := Nat) (V := Nat) (os := [.insert 5 1, .insert 3 2, .delete 5, .insert 3 9])
  ⟨trivial, trivial, Or.inr (by decide), trivial, trivial⟩

example := C34_ord_any_history (K := Nat) (V := Nat) [.insert 5 1, .insert 3 2, .delete 4, .delete 9]

/-- two insertions into a set -/
example : ∃ s1 s2 : OrdSet Nat, OrdSet.new.insert 5 = .ok s1 ∧ s1.insert 3 = .ok s2 ∧ s2.map.Ok := by
  obtain ⟨s1, h1, k1, -, -, l1⟩ := C34_set (s := OrdSet.new) (OrdMap.new_ok (K := Nat) (V := Unit)) (by decide) 5
  have hl : s1.map.len < 20155391 := by
    show s1.len < _
    rw [l1]
    show (asInsert 5 () (OrdMap.new : OrdMap Nat Unit).assoc).length < _
    rw [OrdMap.new_assoc]
    decide
  obtain ⟨s2, h2, k2, -⟩ := C34_set k1 hl 3
  exact ⟨s1, s2, h1, h2, k2⟩

end GB
