import Verif.Proof.OrdHist
import Verif.Props.C31

/-!
# C32: `OrdTreeMap::delete` of a present key
-/

namespace GB
variable {K V : Type} [Ord K] [Std.TransOrd K]

/-- On every valid map, deleting a present key does not panic, returns its binding and removes exactly it. -/
theorem C32_ord_delete_present {m : OrdMap K V} (hm : m.Ok) {k : K} {b : K × V} (hk : asFind k m.assoc = some b) :
    ∃ m', m.delete k = .ok (some b, m') ∧ m'.Ok ∧ m'.assoc = asDelete k m.assoc ∧
      asFind k m'.assoc = none ∧ (∀ k', compare k' k ≠ .eq → asFind k' m'.assoc = asFind k' m.assoc) ∧
      m'.len + 1 = m.len := by
  obtain ⟨m', h1, h2, h3⟩ := OrdMap.delete_present hm (k := k) (by rw [hk]; simp)
  refine ⟨m', by rw [h1, hk], h2, h3, ?_, ?_, ?_⟩
  · rw [h3]; exact asFind_delete hm.sorted
  · intro k' hk'; rw [h3]; exact asFind_delete_other hk' _
  · rw [h2.len, h3, hm.len]
    have : ∀ l : List (K × V), asFind k l = some b → (asDelete k l).length + 1 = l.length := by
      intro l
      induction l with
      | nil => intro h; cases h
      | cons x l ih =>
        intro h
        simp only [asFind] at h
        simp only [asDelete]
        split
        · rfl
        · next hc =>
          rw [if_neg hc] at h
          rw [List.length_cons, List.length_cons, ih h]
    exact this _ hk

/-- `OrdTreeSet::delete` of a present key answers `true`. -/
theorem C32_set_delete_present {s : OrdSet K} (hm : s.map.Ok) {k : K} (hk : asFind k s.map.assoc ≠ none) :
    ∃ s', s.delete k = .ok (true, s') ∧ s'.map.Ok ∧ s'.map.assoc = asDelete k s.map.assoc := by
  cases hf : asFind k s.map.assoc with
  | none => exact absurd hf hk
  | some b =>
    obtain ⟨m', h1, h2, h3, -⟩ := C32_ord_delete_present hm hf
    exact ⟨⟨m'⟩, by simp only [OrdSet.delete, h1, bind_ok, pure_ok, Option.isSome_some], h2, h3⟩

example := C32_ord_delete_present ordMapSample_ok.1 (k := 6) (b := (6, 3)) (by rw [ordMapSample_ok.2]; decide)

/-- a set of two keys -/
example : ∃ s s' : OrdSet Nat, s.delete 5 = .ok (true, s') ∧ s'.map.assoc = [(3, ())] := by
  obtain ⟨m1, -, k1, a1, -⟩ := C31_ord_insert (OrdMap.new_ok (K := Nat) (V := Unit)) 5 ()
  obtain ⟨m2, -, k2, a2, -⟩ := C31_ord_insert k1 3 ()
  have ha : m2.assoc = [(3, ()), (5, ())] := by rw [a2, a1, OrdMap.new_assoc]; decide
  obtain ⟨s', h1, -, h2⟩ := C32_set_delete_present (s := ⟨m2⟩) k2 (k := 5) (by show asFind 5 m2.assoc ≠ none; rw [ha]; decide)
  refine ⟨_, s', h1, h2.trans ?_⟩
  show asDelete 5 m2.assoc = _
  rw [ha]
  decide

end GB
