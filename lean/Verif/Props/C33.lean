import Verif.Proof.OrdHist

/-!
# C33: `OrdTreeMap::delete` of an absent key

The property "`delete(k)` of an absent key returns `None` and changes nothing" is false: `delete` (src/generic_impl/ord.rs:78-87)
ignores `found` and removes the element at which the search ends.
-/

namespace GB
variable {K V : Type} [Ord K] [Std.TransOrd K]

/-- Witness: the map `{1 ↦ 10}`, deleting key 2 returns and removes the binding of 1. -/
theorem C33_false : ∃ (m m' : OrdMap Nat Nat), OrdMap.new.insert 1 10 = .ok m ∧ asFind 2 m.assoc = none ∧
    m.delete 2 = .ok (some (1, 10), m') ∧ m'.len = 0 := by
  refine ⟨_, _, rfl, rfl, rfl, rfl⟩

/-- It is false of every non-empty map and every absent key: some binding next to the gap of `k` is returned and
removed. -/
theorem C33_false_everywhere {m : OrdMap K V} (hm : m.Ok) (hne : m.assoc ≠ []) {k : K} (hk : asFind k m.assoc = none) :
    ∃ a e b m', m.assoc = a ++ e :: b ∧ compare k e.1 ≠ .eq ∧ (∀ x ∈ a, compare k x.1 = .gt) ∧ (∀ x ∈ b, compare k x.1 = .lt) ∧
      m.delete k = .ok (some e, m') ∧ m'.Ok ∧ m'.assoc = a ++ b := by
  rcases OrdMap.delete_spec hm k with ⟨h1, -⟩ | ⟨a, e, b, m', h1, h2, h3, h4, h5, h6, -⟩
  · exact absurd h1 hne
  · refine ⟨a, e, b, m', h1, ?_, h2, h3, h4, h5, h6⟩
    intro he
    rw [h1, asFind_skip fun x hx => by rw [h2 x hx]; decide, asFind, if_pos he] at hk
    cases hk

/-- Exactly: whether the key is there or not, `delete` returns and removes the first binding whose key is not below `k`, and the last
binding if there is none. -/
theorem C33_exact {m : OrdMap K V} (hm : m.Ok) (k : K) :
    ∃ m', m.delete k = .ok ((asEvict k m.assoc).1, m') ∧ m'.Ok ∧ m'.assoc = (asEvict k m.assoc).2 := by
  rcases OrdMap.delete_spec hm k with ⟨h1, h2⟩ | ⟨a, e, b, m', h1, h2, h3, h4, h5, h6, h7⟩
  · exact ⟨m, by rw [h2, h1]; rfl, hm, by rw [h1]; rfl⟩
  · rw [h1, asEvict_at h2 h7]
    exact ⟨m', h4, h5, h6⟩

/-- Exactly, for every history of insertions and deletions, whatever the deleted keys are: results, bindings and length are those of
the list on which a deletion takes its neighbour. -/
theorem C33_any_history (os : List (OrdOp K V)) :
    ∃ m, ordRun OrdMap.new os = .ok ((ordActual [] os).1, m) ∧ m.Ok ∧ m.assoc = (ordActual [] os).2 ∧ m.len = (ordActual [] os).2.length ∧
      (m.len < 20155392 → m.iter = .ok (ordActual [] os).2) := by
  suffices ∀ (os : List (OrdOp K V)) (m : OrdMap K V), m.Ok → ∃ m', ordRun m os = .ok ((ordActual m.assoc os).1, m') ∧ m'.Ok ∧
      m'.assoc = (ordActual m.assoc os).2 by
    obtain ⟨m, h1, h2, h3⟩ := this os OrdMap.new OrdMap.new_ok
    rw [OrdMap.new_assoc] at h1 h3
    exact ⟨m, h1, h2, h3, by rw [← h3]; exact h2.len, fun hn => by rw [← h3]; exact OrdMap.iter_spec h2 hn⟩
  intro os
  induction os with
  | nil => intro m hm; exact ⟨m, rfl, hm, rfl⟩
  | cons o os ih =>
    intro m hm
    cases o with
    | insert k v =>
      obtain ⟨m1, h1, h2, h3⟩ := OrdMap.insert_spec hm k v
      obtain ⟨m2, h4, h5, h6⟩ := ih m1 h2
      rw [h3] at h4 h6
      exact ⟨m2, by simp only [ordRun, OrdOp.run, ordActual, h1, h4, bind_ok, pure_ok], h5, h6⟩
    | delete k =>
      obtain ⟨m1, h1, h2, h3⟩ := C33_exact hm k
      obtain ⟨m2, h4, h5, h6⟩ := ih m1 h2
      rw [h3] at h4 h6
      exact ⟨m2, by simp only [ordRun, OrdOp.run, ordActual, h1, h4, bind_ok, pure_ok], h5, h6⟩

/-- Full statement: for every valid map and absent key, `m.delete k = .ok (none, m)`.  It holds only of the empty
map. -/
theorem C33_ord_delete_absent_partial {m : OrdMap K V} (hm : m.Ok) (hne : m.assoc = []) (k : K) : m.delete k = .ok (none, m) := by
  rcases OrdMap.delete_spec hm k with ⟨-, h⟩ | ⟨a, e, b, m', h1, -⟩
  · exact h
  · rw [hne] at h1; simp at h1

example := C33_false_everywhere ordMapSample_ok.1 (by rw [ordMapSample_ok.2]; simp) (k := 5) (by rw [ordMapSample_ok.2]; decide)
example : (asEvict 5 ((List.range 30).map fun i => (2 * i, i))).1 = some (6, 3) := by decide
example := C33_exact (ordMapSample_ok.1) 5
example : ordActual [] ([.insert 1 10, .insert 5 50, .insert 3 30, .delete 4, .delete 9, .delete 0, .delete 7] : List (OrdOp Nat Nat)) =
    ([none, none, none, some (5, 50), some (3, 30), some (1, 10), none], []) := by decide
example := C33_any_history ([.insert 1 10, .insert 5 50, .insert 3 30, .delete 4, .delete 9, .delete 0, .delete 7] : List (OrdOp Nat Nat))
example := C33_ord_delete_absent_partial (OrdMap.new_ok (K := Nat) (V := Nat)) OrdMap.new_assoc 3

end GB
