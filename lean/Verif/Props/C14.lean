import Verif.Proof.Content

/-!
# C14: `compare_pos` is the sequence order
-/

namespace GB
variable {E C D : Type}
open Tree

/-- `compare_pos(a, b)` compares the positions of the two leaves in the sequence, then the offsets. -/
theorem C14_compare_pos {B : Trait E C D} {A : Law B} {m : Fill} {s : Tree E C} {a b : Cursor} {ea eb : E} {U V U' V' : List (Nat × E)}
    (hi : Inv A m s) (ha : (abs s).es = U ++ (a.leaf, ea) :: V) (hb : (abs s).es = U' ++ (b.leaf, eb) :: V') :
    comparePos s a b = .ok ((compare U.length U'.length).then (compare a.offset b.offset)) := by
  have hnd := hi.nodup
  obtain ⟨h, hi'⟩ := id hi
  obtain ⟨lvl, g⟩ := hi'.ex
  by_cases hl : a.leaf = b.leaf
  · have h1 := locate_split hnd ha
    rw [hl] at h1
    rw [locate_split hnd hb] at h1
    cases h1
    rw [comparePos, if_pos hl]
    simp [Nat.compare_eq_eq.mpr rfl]
  · have hdisj : ∀ {a b : Cursor} {ea eb : E} {U V U' V' : List (Nat × E)}, a.leaf ≠ b.leaf → (abs s).es = U ++ (a.leaf, ea) :: V →
        (abs s).es = U' ++ (b.leaf, eb) :: V' → U.length < U'.length → ∃ M, (abs s).es = U ++ (a.leaf, ea) :: (M ++ (b.leaf, eb) :: V') := by
      intro a b ea eb U V U' V' _ ha hb hlt
      have hp : U <+: U' := by
        apply List.prefix_of_prefix_length_le (l₃ := (abs s).es) ⟨_, ha.symm⟩ ⟨_, hb.symm⟩ (by omega)
      obtain ⟨W, hW⟩ := hp
      cases W with
      | nil => rw [← hW] at hlt; simp at hlt
      | cons w W =>
        rw [ha, ← hW, List.append_assoc, List.append_cancel_left_eq, List.cons_append, List.cons.injEq] at hb
        refine ⟨W, ?_⟩
        rw [ha, hb.2]
    rcases Nat.lt_trichotomy U.length U'.length with hlt | heq | hgt
    · obtain ⟨M, hM⟩ := hdisj hl ha hb hlt
      rw [(comparePos_spec g.wf hM).1, Nat.compare_eq_lt.mpr hlt]
      rfl
    · exfalso
      have hp : U <+: U' := by
        apply List.prefix_of_prefix_length_le (l₃ := (abs s).es) ⟨_, ha.symm⟩ ⟨_, hb.symm⟩ (by omega)
      have := hp.eq_of_length heq
      rw [ha, this, List.append_cancel_left_eq, List.cons.injEq] at hb
      exact hl (congrArg Prod.fst hb.1)
    · obtain ⟨M, hM⟩ := hdisj (Ne.symm hl) hb ha hgt
      rw [(comparePos_spec g.wf hM).2, Nat.compare_eq_gt.mpr hgt]
      rfl

example := C14_compare_pos (s := ordSample) (a := ⟨3, 0⟩) (b := ⟨28, 1⟩) (ea := (6, 3)) (eb := (56, 28)) ordSample_spec.1
  (U := (List.range 3).map fun i => (i, (2 * i, i))) (V := (List.range 26).map fun i => (i + 4, (2 * (i + 4), i + 4)))
  (U' := (List.range 28).map fun i => (i, (2 * i, i))) (V' := [(29, (58, 29))])
  (by rw [ordSample_spec.2]; rfl) (by rw [ordSample_spec.2]; rfl)

end GB
