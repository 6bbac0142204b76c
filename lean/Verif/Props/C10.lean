import Verif.Props.C03
import Verif.Props.C09

/-!
# C10: insert by query splices at the index
-/

namespace GB
variable {E C D X : Type}
open Tree

/-- On every valid tree whose caches measure length and every index up to the total length,
`insert::<LengthFinder>(i, e)` does not panic, keeps validity and splices the units of `e` at `i`. -/
theorem C10_insert {B : Trait E C D} {A : Law B} {cont : E → List X} (L : ContentLaw B A.okE cont) {getLen : C → Nat}
    (LL : LenLaw A getLen) {m : Fill} {s : Tree E C} (hm : 1 ≤ m.lo ∧ m.lo + m.d ≤ 5) (hi : Inv A m s) {i : Nat} {data : E}
    (hle : i ≤ (content cont (abs s).es).length) (hd : A.okE data) :
    ∃ r s', insert B (lenQuery B getLen) s i data = .ok (r, s') ∧ Inv A m s' ∧
      content cont (abs s').es = splice (content cont (abs s).es) i (cont data) := by
  have hlen := content_length L (es := (abs s).es) hi.okE
  by_cases hne : (abs s).es = []
  · obtain ⟨c, s', U, x, h1, h2, h3, -⟩ := C01_push_content L ⟨hm.1, by omega⟩ hi hd
    refine ⟨(c, []), s', ?_, h2, ?_⟩
    · obtain ⟨h, hi⟩ := hi
      have hq : query (lenQuery B getLen) s i = .ok none := by
        obtain ⟨lvl, g⟩ := hi.ex
        exact query_empty g.wf (hi.ne hm.1) ((abs_nil hi).mp hne) _ _
      simp only [insert, hq, bind_ok, h1, pure_ok]
    · rw [hne] at hle
      have : i = 0 := by simpa using hle
      rw [h3, hne]
      simp [splice, this]
  · obtain ⟨U, l, e, V, o, h1, h2, h3, h4, h5, h6⟩ := C09_query_len LL hm.1 hi hne i
    have ho : o ≤ B.rleLen e := by
      rcases Nat.lt_or_ge i (unitLen B (abs s).es) with h | h
      · exact Nat.le_of_lt (h4 h)
      · exact Nat.le_of_eq (h6 (by omega))
    obtain ⟨c, sp, s', k1, k2, k3⟩ := C03_insert_content L (cur := ⟨l, o⟩) ⟨hm.1, by omega⟩ hi h1 ho (Or.inl hm.2) hd
    refine ⟨(c, sp), s', ?_, k2, by rw [k3, h3]⟩
    simp only [insert, h2, bind_ok, k1]

/-- inserting three bytes at position 50 of the sample rope -/
example := C10_insert (ropeContent 4) (ropeLenLaw 4) (by decide) ropeSample_spec.1 (i := 50) (data := ⟨[7, 8, 9, 0], 3, 1⟩)
  (by rw [ropeSample_spec.2]; decide) ⟨by simp [GapBuf.WF], rfl⟩

end GB
