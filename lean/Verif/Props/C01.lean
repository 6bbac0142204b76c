import Verif.Proof.Content

/-!
# C01: `push` appends at the end

`Inv A m s` is validity of a tree (`m` is the minimum number of children of a non-root node, any value from
1 to 6), `abs s` its abstract value: the list of its elements in order, each with its leaf index.
`specPush` (Verif.Spec.Seq) is the list operation.
-/

namespace GB
variable {E C D X : Type}
open Tree

/-- On every valid tree and for every well-formed element `push` does not panic, the result is valid, and the
returned cursor and the new sequence are exactly those of the list operation `specPush`. -/
theorem C01_push {B : Trait E C D} {A : Law B} {m : Fill} {s : Tree E C} {e : E} (hm : 1 ≤ m.lo ∧ m.lo + m.d ≤ 6)
    (hi : Inv A m s) (he : A.okE e) :
    ∃ c s', push B s e = .ok (c, s') ∧ Inv A m s' ∧ specPush B (abs s) e = .ok (c, abs s') := by
  obtain ⟨h, ⟨lvl, g⟩, sz⟩ := hi
  obtain ⟨c, s', lvl', h', h1, g', sz', -, r⟩ := push_spec hm.1 hm.2 g sz he
  exact ⟨c, s', h1, ⟨h', ⟨lvl', g'⟩, sz'⟩, r.spec⟩

/-- Consequence for elements that are themselves sequences of units: the content is appended, and the cursor
denotes the old end. -/
theorem C01_push_content {B : Trait E C D} {A : Law B} {cont : E → List X} (L : ContentLaw B A.okE cont) {m : Fill}
    {s : Tree E C} {e : E} (hm : 1 ≤ m.lo ∧ m.lo + m.d ≤ 6) (hi : Inv A m s) (he : A.okE e) :
    ∃ c s' U x, push B s e = .ok (c, s') ∧ Inv A m s' ∧
      content cont (abs s').es = content cont (abs s).es ++ cont e ∧
      (abs s').es = U ++ [(c.leaf, x)] ∧ unitLen B U + c.offset = (content cont (abs s).es).length := by
  obtain ⟨c, s', h1, h2, h3⟩ := C01_push hm hi he
  have hlen := content_length L hi.okE
  have h4 := specPush_content L hi.okE he h3
  have key : ∃ U x, (abs s').es = U ++ [(c.leaf, x)] ∧ unitLen B U + c.offset = unitLen B (abs s).es := by
    unfold specPush at h3
    split at h3
    · next l x hl =>
      obtain ⟨es, hes⟩ := getLast_split hl
      split at h3
      · cases hr : B.mergeRight x e with
        | error y => rw [hr] at h3; cases h3
        | ok x' =>
          rw [hr, bind_ok] at h3
          simp only [pure_ok, Except.ok.injEq, Prod.mk.injEq] at h3
          obtain ⟨rfl, h3⟩ := h3
          rw [← h3]
          exact ⟨_, _, rfl, by simp [hes]⟩
      · simp only [Except.ok.injEq, Prod.mk.injEq] at h3
        obtain ⟨rfl, h3⟩ := h3
        rw [← h3]
        exact ⟨_, _, rfl, rfl⟩
    · next hl =>
      simp only [Except.ok.injEq, Prod.mk.injEq] at h3
      obtain ⟨rfl, h3⟩ := h3
      rw [← h3]
      exact ⟨[], _, rfl, by rw [List.getLast?_eq_none_iff.mp hl]; rfl⟩
  obtain ⟨U, x, k1, k2⟩ := key
  exact ⟨c, s', U, x, h1, h2, h4, k1, by rw [k2]; exact hlen.symm⟩

/-- the hypotheses hold for a two-level ordered map -/
example : ∃ c s', push (ordTrait Nat Nat) ordSample (60, 30) = .ok (c, s') ∧ Inv (ordLaw Nat Nat) 6 s' ∧
    specPush (ordTrait Nat Nat) (abs ordSample) (60, 30) = .ok (c, abs s') :=
  C01_push (by decide) ordSample_spec.1 trivial

/-- … and for a two-level rope, with a chunk that merges with the last one -/
example := C01_push_content (ropeContent 4) (by decide) ropeSample_spec.1
  (e := ⟨[7, 0, 0, 0], 1, 3⟩) ⟨by simp [GapBuf.WF], rfl⟩

end GB
