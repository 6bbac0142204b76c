import Verif.Proof.Sample
import Verif.Proof.SpineHeight

/-!
# The height of the sample trees

Both samples have two levels of nodes above the leaves.
-/

namespace GB
variable {E C D : Type}
open Tree

theorem rows_max {m : Fill} {s : Tree E C} {lvl : Nat → Nat} {h : Nat} (w : WF s lvl h) (sz : Sz m s h) : ∀ d, d ≤ h → (rowI s d).length ≤ 11 ^ d
  | 0, _ => Nat.le_refl 1
  | d + 1, hd => by
    have ih := rows_max w sz d (by omega)
    have key : ∀ u : List Idx, (∀ a ∈ u, a ∈ rowI s d) → (u.flatMap (kidsI s)).length ≤ 11 * u.length := by
      intro u
      induction u with
      | nil => intro _; exact Nat.le_refl 0
      | cons a u ih =>
        intro hu
        obtain ⟨x, rfl, hx, -⟩ := rowI_internal w d hd a (hu a (by simp))
        have h1 := (sz x hx (fun h => h)).1
        have h2 := ih (fun b hb => hu b (by simp [hb]))
        simp only [List.length_cons, List.flatMap_cons, List.length_append, kidsI, kids_chs, List.length_map, Nat.mul_add]
        omega
    have := key (rowI s d) (fun _ h => h)
    rw [rowI, Nat.pow_succ]
    omega

theorem InvH.two {B : Trait E C D} {A : Law B} {m : Fill} {h : Nat} {s : Tree E C} (hi : InvH A m h s) (h5 : 5 ≤ m.lo) (hn : (abs s).es.length = 30) : h = 2 := by
  obtain ⟨lvl, g⟩ := hi.ex
  have h0 := g.wf.h_pos
  have h1 := rows_max g.wf hi.sz h (Nat.le_refl h)
  rw [row_order g.wf, List.length_map, ← entries_length g.wf] at h1
  have h1 : (abs s).es.length ≤ 11 ^ h := h1
  have h2 : h ≠ 1 := by
    intro h2
    subst h2
    omega
  apply Decidable.byContradiction
  intro h3
  have h4 : 2 * m.lo ^ (h - 1) ≤ (abs s).es.length := height_bound g.wf hi.sz (by omega)
  have h6 : 5 ^ 2 ≤ 5 ^ (h - 1) := Nat.pow_le_pow_right (by decide) (by omega)
  have h7 : 5 ^ (h - 1) ≤ m.lo ^ (h - 1) := Nat.pow_le_pow_left h5 _
  omega

theorem ropeSample_two : InvH (ropeLaw 4) 5 2 ropeSample := by
  obtain ⟨h, hi⟩ := ropeSample_spec.1
  have := hi.two (by decide) (by rw [ropeSample_spec.2]; decide)
  subst this
  exact hi

theorem ordSample_two : InvH (ordLaw Nat Nat) 6 2 ordSample := by
  obtain ⟨h, hi⟩ := ordSample_spec.1
  have := hi.two (by decide) (by rw [ordSample_spec.2]; decide)
  subst this
  exact hi

/-- chunk `i` of the rope sample -/
def chunk (i : Nat) : GapBuf := ⟨[UInt8.ofNat i, 1, 2, 0], 3, 1⟩

/-- `n` entries of the rope sample, from chunk `a` on -/
def chunks (a n : Nat) : List (Nat × GapBuf) := (List.range' a n).map fun i => (i, chunk i)

theorem ropeSample_es : (abs ropeSample).es = chunks 0 30 := by
  rw [ropeSample_spec.2, List.range_eq_range']
  rfl

theorem ropeSample_at {k : Nat} (hk : k < 30) : (abs ropeSample).es = chunks 0 k ++ (k, chunk k) :: chunks (k + 1) (29 - k) := by
  rw [ropeSample_es, chunks, chunks, chunks]
  have h1 : List.range' 0 30 = List.range' 0 k ++ k :: List.range' (k + 1) (29 - k) := by
    have h2 : k :: List.range' (k + 1) (29 - k) = List.range' k (29 - k + 1) := rfl
    have h3 := @List.range'_append 0 k (29 - k + 1) 1
    rw [h2]
    rw [Nat.one_mul, Nat.zero_add] at h3
    rw [h3, show k + (29 - k + 1) = 30 by omega]
  rw [h1, List.map_append, List.map_cons]

theorem chunk_ok (i : Nat) : (ropeLaw 4).okE (chunk i) := ⟨by simp [GapBuf.WF, chunk], rfl⟩

/-- `n` entries of the `OrdTreeMap` sample, from number `a` on -/
def keyed (a n : Nat) : List (Nat × (Nat × Nat)) := (List.range' a n).map fun i => (i, (2 * i, i))

theorem ordSample_at {k : Nat} (hk : k < 30) : (abs ordSample).es = keyed 0 k ++ (k, (2 * k, k)) :: keyed (k + 1) (29 - k) := by
  rw [ordSample_spec.2, List.range_eq_range', keyed, keyed]
  have h1 : List.range' 0 30 = List.range' 0 k ++ k :: List.range' (k + 1) (29 - k) := by
    have h2 : k :: List.range' (k + 1) (29 - k) = List.range' k (29 - k + 1) := rfl
    have h3 := @List.range'_append 0 k (29 - k + 1) 1
    rw [h2]
    rw [Nat.one_mul, Nat.zero_add] at h3
    rw [h3, show k + (29 - k + 1) = 30 by omega]
  rw [h1, List.map_append, List.map_cons]

end GB
