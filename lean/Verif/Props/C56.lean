import Verif.Model.Harness
import Verif.Proof.OrdHist

/-!
# C56: the crate's ordered-set fuzzing cannot fail

`ordTarget` (fuzz/fuzz_targets/ord.rs) compares an `OrdTreeSet<u8>` with a `BTreeSet<u8>` under arbitrary insertions and deletions
of the fourth (or first) member.  It passes on every list of actions, of any length.
-/

namespace GB
open Tree

theorem u8_lt {x y : UInt8} : compare x y = .lt ↔ x < y := by
  show compareOfLessAndEq x y = .lt ↔ _
  unfold compareOfLessAndEq
  split
  · simp [*]
  · split <;> simp [*]

theorem u8_eq {x y : UInt8} : compare x y = .eq ↔ x = y := by
  show compareOfLessAndEq x y = .eq ↔ _
  unfold compareOfLessAndEq
  split
  · next h =>
    simp only [reduceCtorEq, false_iff]
    intro e
    subst e
    exact absurd h (by simp [UInt8.lt_iff_toNat_lt])
  · split <;> simp [*]

/-- strictly increasing numbers between two bounds -/
theorem sorted_short : ∀ (l : List Nat) (a b : Nat), l.Pairwise (· < ·) → (∀ x ∈ l, a ≤ x ∧ x < b) → l.length ≤ b - a
  | [], _, _, _, _ => Nat.zero_le _
  | x :: l, a, b, hp, hb => by
    obtain ⟨h1, h2⟩ := List.pairwise_cons.mp hp
    have := sorted_short l (x + 1) b h2 fun y hy => ⟨h1 y hy, (hb y (List.mem_cons_of_mem _ hy)).2⟩
    have := hb x (by simp)
    rw [List.length_cons]
    omega

theorem u8_short {V : Type} {l : List (UInt8 × V)} (h : KeySorted l) : l.length ≤ 256 := by
  have := sorted_short (l.map fun x => x.1.toNat) 0 256 (by
    rw [List.pairwise_map]
    exact List.Pairwise.imp (fun h => UInt8.lt_iff_toNat_lt.mp (u8_lt.mp h)) h) (by
    intro x hx
    obtain ⟨y, -, rfl⟩ := List.mem_map.mp hx
    exact ⟨Nat.zero_le _, y.1.toNat_lt⟩)
  rwa [List.length_map] at this

theorem bsInsert_keys (x : UInt8) : ∀ l : List (UInt8 × Unit), (asInsert x () l).map Prod.fst = bsInsert x (l.map Prod.fst)
  | [] => rfl
  | (a, b) :: l => by
    rw [asInsert, List.map_cons, bsInsert]
    split
    · next h => rw [if_pos (u8_lt.mp h)]; rfl
    · next h =>
      have h := u8_eq.mp h
      subst h
      rw [if_neg (by simp [UInt8.lt_iff_toNat_lt]), if_pos rfl]; rfl
    · next h =>
      rw [if_neg (fun e => by rw [u8_lt.mpr e] at h; cases h), if_neg (fun e => by rw [u8_eq.mpr e] at h; cases h), List.map_cons, bsInsert_keys x l]

theorem bsRemove_keys (x : UInt8) : ∀ l : List (UInt8 × Unit), KeySorted l → (asDelete x l).map Prod.fst = bsRemove x (l.map Prod.fst)
  | [], _ => rfl
  | (a, b) :: l, hs => by
    obtain ⟨h1, h2⟩ := List.pairwise_cons.mp hs
    rw [asDelete, List.map_cons, bsRemove, List.filter_cons]
    by_cases h : x = a
    · subst h
      rw [if_pos (u8_eq.mpr rfl), if_neg (by simp), List.filter_eq_self.mpr]
      intro y hy
      obtain ⟨z, hz, rfl⟩ := List.mem_map.mp hy
      have := UInt8.lt_iff_toNat_lt.mp (u8_lt.mp (h1 z hz))
      simp only [ne_eq, decide_not, Bool.not_eq_eq_eq_not, Bool.not_true, decide_eq_false_iff_not]
      intro e
      rw [e] at this
      exact absurd this (Nat.lt_irrefl _)
    · rw [if_neg (fun e => h (u8_eq.mp e)), if_pos (by simpa using fun e => h e.symm), List.map_cons, bsRemove_keys x l h2]
      rfl

theorem asFind_mem {x : UInt8} : ∀ {l : List (UInt8 × Unit)}, x ∈ l.map Prod.fst → asFind x l ≠ none
  | [], h => by cases h
  | (a, b) :: l, h => by
    rw [asFind]
    split
    · simp
    · next hc =>
      rcases List.mem_cons.mp h with h | h
      · exact absurd (u8_eq.mpr h) hc
      · exact asFind_mem h

/-- The fuzz target passes on every list of actions. -/
theorem ordTarget_ok : ∀ (as : List OrdAction) (t : OrdSet UInt8), t.map.Ok → ordTarget (t.map.assoc.map Prod.fst) t as = .ok ()
  | [], t, ok => by
    have hn : t.map.len < 20155392 := by
      rw [ok.len]
      exact Nat.lt_of_le_of_lt (u8_short ok.sorted) (by decide)
    have h := OrdMap.iter_spec ok hn
    have h : t.iter = .ok (t.map.assoc.map Prod.fst) := by
      rw [OrdMap.iter] at h
      simp only [OrdSet.iter, OrdMap.iterKey, h, bind_ok, pure_ok]
    simp only [ordTarget, h, bind_ok, decide_true, assertM, if_true]
  | .insert x :: as, t, ok => by
    obtain ⟨m', h1, h2, h3⟩ := OrdMap.insert_spec ok x ()
    simp only [ordTarget, OrdSet.insert, h1, bind_ok, pure_ok]
    rw [← bsInsert_keys, ← h3]
    exact ordTarget_ok as ⟨m'⟩ h2
  | .delete :: as, t, ok => by
    have del : ∀ {i : Nat} {x : UInt8}, (t.map.assoc.map Prod.fst)[i]? = some x →
        ∃ r t', t.delete x = .ok (r, t') ∧ t'.map.Ok ∧ bsRemove x (t.map.assoc.map Prod.fst) = t'.map.assoc.map Prod.fst := by
      intro i x hx
      obtain ⟨m', h1, h2, h3⟩ := OrdMap.delete_present ok (asFind_mem (List.mem_of_getElem? hx))
      exact ⟨(asFind x t.map.assoc).isSome, ⟨m'⟩, by simp only [OrdSet.delete, h1, bind_ok, pure_ok], h2, by rw [← bsRemove_keys x _ ok.sorted, ← h3]⟩
    rw [ordTarget]
    split
    · next x hx =>
      obtain ⟨r, t', h1, h2, h3⟩ := del hx
      simp only [h1, bind_ok, h3]
      exact ordTarget_ok as t' h2
    · split
      · next x hx =>
        obtain ⟨r, t', h1, h2, h3⟩ := del hx
        simp only [h1, bind_ok, h3]
        exact ordTarget_ok as t' h2
      · exact ordTarget_ok as t ok

/-- The fuzz target passes on every list of actions. -/
theorem C56_ord_target (as : List OrdAction) : ordTarget [] OrdSet.new as = .ok () := by
  have h := ordTarget_ok as OrdSet.new OrdMap.new_ok
  rwa [show (OrdSet.new : OrdSet UInt8).map.assoc.map Prod.fst = [] by rw [OrdSet.new, OrdMap.new_assoc]; rfl] at h

/-- six actions; the two deletions take the fourth of four members and then the first of three -/
example := C56_ord_target [.insert 9, .insert 5, .insert 200, .insert 7, .delete, .delete]

/-- the assertion is real: a reference set that differs is noticed -/
example : ordTarget [3] OrdSet.new [.insert 5] = .error .panic := rfl

end GB
