import Verif.Proof.OrdHist

/-!
# C31: `OrdTreeMap::insert`
-/

namespace GB
variable {K V : Type} [Ord K] [Std.TransOrd K]

/-- On every valid map `insert(k, v)` does not panic; the bindings become those of the association list insert;
`k` is bound to `v`, all other lookups are unchanged, the keys stay strictly sorted. -/
theorem C31_ord_insert {m : OrdMap K V} (hm : m.Ok) (k : K) (v : V) :
    ∃ m', m.insert k v = .ok m' ∧ m'.Ok ∧ m'.assoc = asInsert k v m.assoc ∧
      (asFind k m'.assoc).map Prod.snd = some v ∧
      (∀ k', compare k' k ≠ .eq → asFind k' m'.assoc = asFind k' m.assoc) ∧
      KeySorted m'.assoc ∧
      m'.len = if asFind k m.assoc = none then m.len + 1 else m.len := by
  obtain ⟨m', h1, h2, h3⟩ := OrdMap.insert_spec hm k v
  refine ⟨m', h1, h2, h3, ?_, ?_, h2.sorted, ?_⟩
  · rw [h3]; exact asFind_insert k v _
  · intro k' hk; rw [h3]; exact asFind_insert_other k v hk _
  · rw [h2.len, h3, hm.len]
    have : ∀ l : List (K × V), KeySorted l → (asInsert k v l).length = if asFind k l = none then l.length + 1 else l.length := by
      intro l
      induction l with
      | nil => intro _; rfl
      | cons x l ih =>
        intro hs
        obtain ⟨s1, s2⟩ := List.pairwise_cons.mp hs
        simp only [asInsert, asFind]
        split
        · next hc =>
          have : asFind k l = none := by
            apply asFind_none
            intro y hy he
            rw [Std.TransCmp.lt_trans hc (s1 y hy)] at he
            cases he
          simp [hc, this]
        · next hc => simp [hc]
        · next hc =>
          simp only [hc, List.length_cons, ih s2, reduceCtorEq, if_false]
          split <;> rfl
    exact this _ hm.sorted

/-- The same seen through `iter()` (below the size at which paths overflow). -/
theorem C31_ord_insert_iter {m : OrdMap K V} (hm : m.Ok) (hn : m.len < 20155391) (k : K) (v : V) :
    ∃ m' l, m.insert k v = .ok m' ∧ m.iter = .ok l ∧ m'.iter = .ok (asInsert k v l) ∧ KeySorted (asInsert k v l) := by
  obtain ⟨m', h1, h2, h3, -, -, h4, h5⟩ := C31_ord_insert hm k v
  refine ⟨m', _, h1, OrdMap.iter_spec hm (by omega), ?_, by rw [← h3]; exact h4⟩
  rw [OrdMap.iter_spec h2 (by rw [h5]; split <;> omega), h3]

-- a new key and an existing one
example := C31_ord_insert ordMapSample_ok.1 5 7
example : asFind 5 ordMapSample.assoc = none := by rw [ordMapSample_ok.2]; decide
example := C31_ord_insert_iter ordMapSample_ok.1 (by decide) 6 7
example : asFind 6 ordMapSample.assoc = some (6, 3) := by rw [ordMapSample_ok.2]; decide

end GB
