import Verif.Proof.DrainNone
import Verif.Props.C18

/-!
# C19: `drain` of an empty range

The full statement, "`drain_by_query` on an empty tree, or from a start position at the very end of the tree, is a
no-op", is false: `Drain::none` has `store: None` and `Drop` unwraps it (src/iter.rs:137-142).
-/

namespace GB
variable {E C D Q F X : Type}
open Tree

/-- On every empty tree `drain_by_query` panics when the iterator is dropped, whatever the query. -/
theorem C19_false_empty {B : Trait E C D} {A : Law B} {m : Fill} {s : Tree E C} (hm : 1 ≤ m.lo) (hi : Inv A m s) (he : (abs s).es = [])
    (q : Query E C Q F) (a b : Q) (k : Nat) : drainByQuery B q s a b k = .error .panic := by
  obtain ⟨h, hi⟩ := hi
  have ne := hi.ne hm
  have habs := (abs_nil hi).mp he
  obtain ⟨lvl, g⟩ := hi.ex
  simp only [drainByQuery, query_empty g.wf ne habs, bind_ok, drainNew, drainTake_done (d := drainNone s) rfl, drainDrop_none]
  rfl

/-- On every non-empty valid tree, draining from the end of the last element to the same place panics. -/
theorem C19_false_at_end {B : Trait E C D} {A : Law B} {m : Fill} {s : Tree E C} (hm1 : 1 ≤ m.lo) (hm6 : m.lo + m.d ≤ 6) (hi : Inv A m s)
    {U : List (Nat × E)} {l : Nat} {e : E} (he : (abs s).es = U ++ [(l, e)]) (hlen : B.rleLen e ≠ 0) (f f' : Bool) (k : Nat) :
    drain B s ⟨⟨l, B.rleLen e⟩, f⟩ ⟨⟨l, B.rleLen e⟩, f'⟩ k = .error .panic := by
  obtain ⟨h, hi⟩ := hi
  obtain ⟨⟨lvl, g⟩, sz⟩ := id hi
  obtain ⟨u, v, p1, -, p3, hle⟩ := entries_split g.wf he
  obtain ⟨info, s', lvl', h', e1, -, -, -, -, rel⟩ :=
    splitLeafIfNeeded_spec hm1 hm6 g sz (pos := ⟨l, B.rleLen e⟩) hle (Nat.le_refl _) (Or.inr (Or.inr rfl))
  have hinfo : s' = s ∧ info.newPos = none := by
    cases rel with
    | start i h0 => exact absurd h0 hlen
    | stop i e' u' v' h0 h1 h2 h3 h4 h5 h6 h7 h8 =>
      refine ⟨h3, ?_⟩
      have nd := order_nodup g.wf
      rw [p1] at h7 nd
      obtain ⟨-, rfl⟩ := nodup_append_cons_inj h7 nd
      have : v = [] := by
        have := entriesOf_fst g.wf (ls := v) (fun x hx => (mem_order g.wf).mp (by rw [p1]; simp [hx]))
        rw [← p3] at this
        simpa using this.symm
      rw [h8, this]
      rfl
    | cut i e' a b u' v' h0 h1 h2 =>
      rw [show elm s l = some e from hle] at h1
      cases h1
      exact absurd h2 (Nat.lt_irrefl _)
  obtain ⟨rfl, hn⟩ := hinfo
  simp only [drain, drainNew, e1, bind_ok, hn, pure_ok, drainTake_done (d := drainNone s') rfl, drainDrop_none]
  rfl

/-- Missing from the full statement: the empty tree and the end of the tree, where the claim is false.  Everywhere else an
empty range is a no-op: nothing is yielded or thrown away and the contents stay as they are. -/
theorem C19_empty_range_partial {B : Trait E C D} {A : Law B} {cont : E → List X} (K : ContentLaw B A.okE cont) {getLen : C → Nat} (L : LenLaw A getLen)
    {m : Fill} {h : Nat} {s : Tree E C} (hm : 1 ≤ m.lo ∧ m.lo + m.d ≤ 5) (hi : InvH A m h s) (hpos : ∀ x ∈ (abs s).es, 0 < B.rleLen x.2) {i : Nat}
    (hend : i < unitLen B (abs s).es) (k : Nat)
    (hh : h ≤ 8 ∨ drainByQuery B (lenQuery B getLen) s i i k ≠ .error .panic) :
    ∃ s' h', drainByQuery B (lenQuery B getLen) s i i k = .ok ([], [], s') ∧ InvH A m.drained h' s' ∧ h' ≤ h + 1 ∧
      content cont (abs s').es = content cont (abs s).es := by
  obtain ⟨Y, s', h', d1, d2, d3, d4, d5, -, d7⟩ := C18_drain_by_query K L hm hi hpos (Nat.le_refl i) (Nat.le_of_lt hend) hend k hh
  have hY : Y = [] := by
    cases Y with
    | nil => rfl
    | cons x Y =>
      have := congrArg List.length d4
      rw [content_cons, List.length_append] at this
      have h1 := d7 x (by simp)
      have h2 := (d7 x (by simp)).2
      have h3 := K.len x.2 h1.1
      simp at this
      rw [this.1] at h3
      simp at h3
      omega
  subst hY
  exact ⟨s', h', by simpa using d1, d2, d3, by rw [d5, List.take_append_drop]⟩

example : ∃ (s' : Tree GapBuf Int) (h' : Nat), drainByQuery ropeTrait ropeQuery ropeSample 10 10 0 = .ok ([], [], s') ∧ InvH (ropeLaw 4) ⟨1, 4⟩ h' s' := by
  obtain ⟨h, h7, hi⟩ := C18_height ropeSample_spec.1 (by decide) (by rw [ropeSample_spec.2]; decide)
  obtain ⟨s', h', d1, d2, -⟩ := C19_empty_range_partial (ropeContent 4) (ropeLenLaw 4) (by decide) hi (by rw [ropeSample_spec.2]; decide)
    (i := 10) (by rw [ropeSample_spec.2]; decide) 0 (.inl h7)
  exact ⟨s', h', d1, d2⟩

example := C19_false_empty (B := ropeTrait) (by decide) ⟨1, new_inv (ropeLaw 4) 5⟩ (by rw [new_entries]) ropeQuery 0 0 1
example := C19_false_at_end (B := ropeTrait) (by decide) (by decide) ropeSample_spec.1
  (U := (List.range 29).map fun i => (i, ⟨[UInt8.ofNat i, 1, 2, 0], 3, 1⟩)) (l := 29) (e := ⟨[29, 1, 2, 0], 3, 1⟩)
  (by rw [ropeSample_spec.2]; rfl) (by decide) true true 0

end GB
