import Verif.Proof.OrdHist

/-!
# C45: position found by the ordered search
-/

namespace GB
variable {K V : Type} [Ord K] [Std.TransOrd K]
open Tree

/-- On every sorted tree that is not empty, the search ends at an element such that everything before it is below
the key and everything after it is above; `found` tells whether the element has the key, and the offset is 1 iff
the key belongs behind the element, which happens only at the last element. -/
theorem C45_ord_lookup {m : Fill} (hm : 1 ≤ m.lo) {s : Tree (K × V) (OrdCache K)} (hi : Inv (ordLaw K V) m s)
    (hs : KeySorted ((abs s).es.map Prod.snd)) (hne : (abs s).es ≠ []) (k : K) :
    ∃ U l e W, (abs s).es = U ++ (l, e) :: W ∧ (∀ x ∈ U, compare k x.2.1 = .gt) ∧ (∀ x ∈ W, compare k x.2.1 = .lt) ∧
      query (ordQuery K V) s k = .ok (some ⟨⟨l, if compare k e.1 = .gt then 1 else 0⟩, decide (compare k e.1 = .eq)⟩) ∧
      (compare k e.1 = .gt → W = []) := by
  obtain ⟨h, hi⟩ := hi
  have ne := hi.ne hm
  have habs := abs_nil hi
  obtain ⟨lvl, g⟩ := hi.ex
  exact ordQuery_spec g ne (fun e => hne (habs.mpr e)) hs k

/-- A present key is found, at its own leaf, with offset 0. -/
theorem C45_ord_lookup_present {m : Fill} (hm : 1 ≤ m.lo) {s : Tree (K × V) (OrdCache K)} (hi : Inv (ordLaw K V) m s)
    (hs : KeySorted ((abs s).es.map Prod.snd)) {l : Nat} {e : K × V} (hl : (l, e) ∈ (abs s).es) {k : K} (hk : compare k e.1 = .eq) :
    query (ordQuery K V) s k = .ok (some ⟨⟨l, 0⟩, true⟩) := by
  obtain ⟨U, l', e', W, h1, h2, h3, h4, -⟩ := C45_ord_lookup hm hi hs (by intro e; rw [e] at hl; cases hl) k
  rw [h1] at hl
  rcases List.mem_append.mp hl with hl | hl
  · have := h2 _ hl
    rw [hk] at this; cases this
  · rcases List.mem_cons.mp hl with hl | hl
    · cases hl
      rw [h4, hk]
      rfl
    · have := h3 _ hl
      rw [hk] at this; cases this

/-- An absent key is not found, and the cursor is at its insertion gap: everything before the gap is below the key,
everything behind it above. -/
theorem C45_ord_lookup_absent {m : Fill} (hm : 1 ≤ m.lo) {s : Tree (K × V) (OrdCache K)} (hi : Inv (ordLaw K V) m s)
    (hs : KeySorted ((abs s).es.map Prod.snd)) (hne : (abs s).es ≠ []) {k : K} (hk : ∀ x ∈ (abs s).es, compare k x.2.1 ≠ .eq) :
    ∃ c U W, query (ordQuery K V) s k = .ok (some ⟨c, false⟩) ∧ (abs s).es = U ++ W ∧
      posOf (ordTrait K V) (abs s) c = some U.length ∧
      (∀ x ∈ U, compare k x.2.1 = .gt) ∧ (∀ x ∈ W, compare k x.2.1 = .lt) := by
  obtain ⟨U, l, e, W, h1, h2, h3, h4, -⟩ := C45_ord_lookup hm hi hs hne k
  obtain ⟨h, hi⟩ := hi
  obtain ⟨lvl, g⟩ := hi.ex
  have hnd : ((abs s).es.map Prod.fst).Nodup := by
    have := order_nodup g.wf
    rw [← entries_fst g.wf] at this
    exact this
  have hne' := hk (l, e) (by rw [h1]; simp)
  have hloc : locate l (abs s).es = some (U, e, W) := by
    exact locate_split hnd h1
  have hul : ∀ es : List (Nat × (K × V)), unitLen (ordTrait K V) es = es.length := by
    intro es
    induction es with
    | nil => rfl
    | cons x es ih =>
      have : unitLen (ordTrait K V) (x :: es) = 1 + unitLen (ordTrait K V) es := by simp [unitLen, ordTrait]
      rw [this, ih, List.length_cons, Nat.add_comm]
  rw [decide_eq_false hne'] at h4
  by_cases hc : compare k e.1 = .gt
  · rw [if_pos hc] at h4
    refine ⟨_, U ++ [(l, e)], W, h4, by rw [h1]; simp, ?_, ?_, h3⟩
    · simp only [posOf, hloc, hul, List.length_append, List.length_singleton]
      rfl
    · intro x hx
      rcases List.mem_append.mp hx with hx | hx
      · exact h2 x hx
      · rw [List.mem_singleton.mp hx]; exact hc
  · rw [if_neg hc] at h4
    refine ⟨_, U, (l, e) :: W, h4, h1, ?_, h2, ?_⟩
    · simp only [posOf, hloc, hul]
      rfl
    · intro x hx
      rcases List.mem_cons.mp hx with hx | hx
      · rw [hx]
        show compare k e.1 = .lt
        cases hcc : compare k e.1 with
        | lt => rfl
        | eq => exact absurd hcc hne'
        | gt => exact absurd hcc hc
      · exact h3 x hx

example := C45_ord_lookup (by decide) ordMapSample_ok.1.tree ordMapSample_ok.1.sorted
  (by show (abs ordSample).es ≠ []; rw [ordSample_spec.2]; simp) 7

example : query (ordQuery Nat Nat) ordSample 22 = .ok (some ⟨⟨11, 0⟩, true⟩) :=
  C45_ord_lookup_present (by decide) ordMapSample_ok.1.tree ordMapSample_ok.1.sorted (l := 11) (e := (22, 11))
    (by show _ ∈ (abs ordSample).es; rw [ordSample_spec.2]; decide) (by decide)

example := C45_ord_lookup_absent (by decide) ordMapSample_ok.1.tree ordMapSample_ok.1.sorted
  (by show (abs ordSample).es ≠ []; rw [ordSample_spec.2]; simp) (k := 7) (by show ∀ x ∈ (abs ordSample).es, _; rw [ordSample_spec.2]; decide)

end GB
