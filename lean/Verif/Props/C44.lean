import Verif.Props.C09

/-!
# C44: range and emptiness
-/

namespace GB
variable {E C D Q F : Type}
open Tree

/-- `is_empty()` is emptiness of the sequence; on an empty tree every `query` and `range` returns `None`. -/
theorem C44_empty {B : Trait E C D} {A : Law B} {m : Fill} {s : Tree E C} (hm : 1 ≤ m.lo) (hi : Inv A m s) :
    isEmpty s = .ok (decide ((abs s).es = [])) ∧
    ((abs s).es = [] → ∀ (q : Query E C Q F) a b, query q s a = .ok none ∧ range q s a b = .ok none) := by
  obtain ⟨h, hi⟩ := hi
  have ne := hi.ne hm
  have habs := abs_nil hi
  obtain ⟨lvl, g⟩ := hi.ex
  have h1 := isEmpty_spec g.wf ne
  have h2 : (order s).isEmpty = decide ((abs s).es = []) := by
    by_cases hn : (abs s).es = []
    · simp [habs.mp hn, hn]
    · have : order s ≠ [] := fun h => hn (habs.mpr h)
      simp [hn, this]
  rw [h2] at h1
  refine ⟨h1, fun hn q a b => ⟨query_empty g.wf ne (habs.mp hn) q a, ?_⟩⟩
  simp only [range, h1, hn, bind_ok, decide_true, if_true, pure_ok]

/-- On a non-empty tree `range(a..b)` is the pair of the two query results. -/
theorem C44_range {B : Trait E C D} {A : Law B} {m : Fill} {s : Tree E C} (hm : 1 ≤ m.lo) (hi : Inv A m s) (hne : (abs s).es ≠ [])
    (q : Query E C Q F) {a b : Q} {ra rb : QueryResult} (ha : query q s a = .ok (some ra)) (hb : query q s b = .ok (some rb)) :
    range q s a b = .ok (some (ra, rb)) := by
  have h1 := (C44_empty (Q := Q) (F := F) hm hi).1
  simp only [range, h1, hne, ha, hb, bind_ok, decide_false, Bool.false_eq_true, if_false, pure_ok, unwrap]

/-- For length queries: `range(i..j)` succeeds on every non-empty tree, with the positions `i` and `j`. -/
theorem C44_range_len {B : Trait E C D} {A : Law B} {getLen : C → Nat} (L : LenLaw A getLen) {m : Fill} {s : Tree E C}
    (hm : 1 ≤ m.lo) (hi : Inv A m s) (hne : (abs s).es ≠ []) (i j : Nat) :
    ∃ ra rb, range (lenQuery B getLen) s i j = .ok (some (ra, rb)) ∧
      posOf B (abs s) ra.cursor = some i ∧ posOf B (abs s) rb.cursor = some j := by
  obtain ⟨U, l, e, V, o, h1, h2, h3, -⟩ := C09_query_len L hm hi hne i
  obtain ⟨U', l', e', V', o', k1, k2, k3, -⟩ := C09_query_len L hm hi hne j
  refine ⟨_, _, C44_range hm hi hne _ h2 k2, ?_, ?_⟩
  · have : locate l (abs s).es = some (U, e, V) := locate_split hi.nodup h1
    simp only [posOf, this, Option.map_some, h3]
  · have : locate l' (abs s).es = some (U', e', V') := locate_split hi.nodup k1
    simp only [posOf, this, Option.map_some, k3]

example := C44_empty (Q := Nat) (F := LenFinder) (by decide) ropeSample_spec.1
example := C44_range_len (ropeLenLaw 4) (by decide) ropeSample_spec.1 (by rw [ropeSample_spec.2]; simp) 7 50

example : ∃ ra rb, range (lenQuery ropeTrait ropeLen) ropeSample 7 50 = .ok (some (ra, rb)) := by
  obtain ⟨_, _, _, _, _, -, h1, -⟩ := C09_query_len (ropeLenLaw 4) (by decide) ropeSample_spec.1 (by rw [ropeSample_spec.2]; simp) 7
  obtain ⟨_, _, _, _, _, -, h2, -⟩ := C09_query_len (ropeLenLaw 4) (by decide) ropeSample_spec.1 (by rw [ropeSample_spec.2]; simp) 50
  exact ⟨_, _, C44_range (by decide) ropeSample_spec.1 (by rw [ropeSample_spec.2]; simp) _ h1 h2⟩

end GB
