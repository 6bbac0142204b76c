import Verif.Model.Debug
import Verif.Spec.Tally
import Verif.Proof.CountChildren

/-!
# The tables of `diagnose_balance`
-/

namespace GB
variable {E C D V : Type}
open Tree

theorem bump_keys (k : Nat) : ∀ m : List (Nat × Nat), ∀ x, x ∈ (bump k m).map Prod.fst ↔ x = k ∨ x ∈ m.map Prod.fst := by
  intro m
  induction m with
  | nil => intro x; simp [bump]
  | cons a m ih =>
    intro x
    obtain ⟨k', n⟩ := a
    rw [bump]
    split
    · rename_i h; subst h; simp
    · simp only [List.map_cons, List.mem_cons, ih x]
      constructor
      · rintro (h | h | h) <;> simp [h]
      · rintro (h | h | h) <;> simp [h]

theorem bump_nodup (k : Nat) : ∀ m : List (Nat × Nat), (m.map Prod.fst).Nodup → ((bump k m).map Prod.fst).Nodup := by
  intro m
  induction m with
  | nil => intro _; simp [bump]
  | cons a m ih =>
    intro h
    obtain ⟨k', n⟩ := a
    rw [List.map_cons, List.nodup_cons] at h
    rw [bump]
    split
    · exact List.nodup_cons.mpr h
    · rename_i hk
      refine List.nodup_cons.mpr ⟨?_, ih h.2⟩
      rw [bump_keys]
      rintro (h1 | h1)
      · exact hk h1
      · exact h.1 h1

theorem bump_other {k j : Nat} (hj : j ≠ k) : ∀ (m : List (Nat × Nat)) (n : Nat), (j, n) ∈ bump k m ↔ (j, n) ∈ m := by
  intro m
  induction m with
  | nil => intro n; simp [bump, hj]
  | cons a m ih =>
    intro n
    obtain ⟨k', n'⟩ := a
    rw [bump]
    split
    · rename_i h; subst h; simp [hj]
    · simp only [List.mem_cons, ih n]

theorem bump_same {k : Nat} : ∀ (m : List (Nat × Nat)), (m.map Prod.fst).Nodup → ∀ n, (k, n) ∈ bump k m ↔ (∃ n', (k, n') ∈ m ∧ n = n' + 1) ∨ (k ∉ m.map Prod.fst ∧ n = 1) := by
  intro m
  induction m with
  | nil => intro _ n; simp [bump]
  | cons a m ih =>
    intro nd n
    obtain ⟨k', n'⟩ := a
    rw [List.map_cons, List.nodup_cons] at nd
    rw [bump]
    split
    · rename_i h
      subst h
      have h0 : ∀ n, (k', n) ∉ m := fun n hn => nd.1 (List.mem_map.mpr ⟨_, hn, rfl⟩)
      simp [h0]
    · rename_i h
      have h' : k ≠ k' := fun e => h e.symm
      simp only [List.mem_cons, Prod.mk.injEq, ih nd.2 n, h', false_and, false_or, List.map_cons]

theorem Tally.bump {l : List Nat} {m : List (Nat × Nat)} (h : Tally l m) (k : Nat) : Tally (l ++ [k]) (bump k m) := by
  refine ⟨bump_nodup k m h.keys, fun j n => ?_⟩
  rw [List.count_append]
  by_cases hj : j = k
  · subst hj
    rw [bump_same m h.keys, List.count_singleton_self]
    have hk : j ∉ m.map Prod.fst ↔ l.count j = 0 := by
      constructor
      · intro hn
        apply Decidable.byContradiction
        intro h0
        exact hn (List.mem_map.mpr ⟨(j, l.count j), (h.rows j _).mpr ⟨by omega, rfl⟩, rfl⟩)
      · intro h0 hm
        obtain ⟨⟨j', n'⟩, h1, rfl⟩ := List.mem_map.mp hm
        obtain ⟨h2, h3⟩ := (h.rows _ _).mp h1
        have h4 : n' = 0 := h3.trans h0
        omega
    rw [hk]
    constructor
    · rintro (⟨n', h1, rfl⟩ | ⟨h1, rfl⟩)
      · have := ((h.rows _ _).mp h1).2
        omega
      · omega
    · rintro ⟨h1, rfl⟩
      by_cases h0 : l.count j = 0
      · exact .inr ⟨h0, by omega⟩
      · exact .inl ⟨l.count j, (h.rows _ _).mpr ⟨by omega, rfl⟩, rfl⟩
  · rw [bump_other hj, h.rows, List.count_singleton]
    have : (k == j) = false := by simpa using fun e => hj e.symm
    simp [this]

theorem foldl_bump (f : V → Nat) : ∀ (vs : List V) (l : List Nat) (m : List (Nat × Nat)), Tally l m →
    Tally (l ++ vs.map f) (vs.foldl (fun m v => bump (f v) m) m) := by
  intro vs
  induction vs with
  | nil => intro l m h; simpa using h
  | cons v vs ih =>
    intro l m h
    have := ih _ _ (h.bump (f v))
    rw [List.append_assoc] at this
    exact this

theorem tally_foldl (f : V → Nat) (vs : List V) : Tally (vs.map f) (vs.foldl (fun m v => bump (f v) m) []) :=
  foldl_bump f vs [] [] ⟨List.nodup_nil, fun k n => by simp; omega⟩

theorem Tally.congr {l l' : List Nat} {m : List (Nat × Nat)} (h : Tally l m) (hc : ∀ k, l'.count k = l.count k) : Tally l' m :=
  ⟨h.keys, fun k n => by rw [hc, h.rows]⟩

/-- the sum of all numbers, by the table -/
theorem Tally.sum {l : List Nat} {m : List (Nat × Nat)} (h : Tally l m) : (m.map fun x => x.1 * x.2).sum = l.sum ∧ (m.map Prod.snd).sum = l.length := by
  induction m generalizing l with
  | nil =>
    have : l = [] := by
      apply List.eq_nil_iff_forall_not_mem.mpr
      intro k hk
      have := (h.rows k (l.count k)).mpr ⟨List.count_pos_iff.mpr hk, rfl⟩
      simp at this
    subst this
    exact ⟨rfl, rfl⟩
  | cons a m ih =>
    obtain ⟨k, n⟩ := a
    have nd := h.keys
    rw [List.map_cons, List.nodup_cons] at nd
    obtain ⟨h1, h2⟩ := (h.rows k n).mp (by simp)
    have ht : Tally (l.filter (· ≠ k)) m := by
      refine ⟨nd.2, fun j c => ?_⟩
      by_cases hj : j = k
      · subst hj
        have h0 : (l.filter (· ≠ j)).count j = 0 := List.count_eq_zero.mpr (by simp)
        rw [h0]
        constructor
        · intro hm; exact absurd (List.mem_map.mpr ⟨_, hm, rfl⟩) nd.1
        · rintro ⟨a, b⟩; omega
      · rw [List.count_filter (by simpa using hj), ← h.rows j c]
        simp [hj]
    obtain ⟨k1, k2⟩ := ih ht
    have e : ∀ l : List Nat, k * l.count k + (l.filter (· ≠ k)).sum = l.sum ∧ l.count k + (l.filter (· ≠ k)).length = l.length := by
      intro l
      induction l with
      | nil => simp
      | cons b l ihl =>
        obtain ⟨i1, i2⟩ := ihl
        by_cases hb : b = k
        · subst hb
          rw [List.count_cons_self, List.filter_cons_of_neg (by simp), List.sum_cons, List.length_cons, Nat.mul_add]
          omega
        · rw [List.count_cons_of_ne hb, List.filter_cons_of_pos (by simpa using hb), List.sum_cons, List.sum_cons, List.length_cons, List.length_cons]
          omega
    obtain ⟨e1, e2⟩ := e l
    rw [List.map_cons, List.sum_cons, List.map_cons, List.sum_cons, k1, k2, h2]
    exact ⟨e1, e2⟩

/-- counting over the entries of an arena -/
theorem arena_count {a : Arena V} {L : List Nat} (f : V → Nat) (hnd : L.Nodup) (hm : ∀ i, i ∈ L ↔ a.get i ≠ none) (k : Nat) :
    ((a.items.filterMap id).map f).count k = (L.filterMap fun i => (a.get i).map f).count k := by
  have h1 : ∀ vs : List V, (vs.map f).count k = (vs.map fun v => if f v = k then 1 else 0).sum := by
    intro vs
    induction vs with
    | nil => rfl
    | cons v vs ih =>
      rw [List.map_cons, List.map_cons, List.sum_cons, List.count_cons, ih]
      simp only [beq_iff_eq]
      omega
  rw [h1, arena_sum _ hnd hm]
  clear hnd hm
  induction L with
  | nil => rfl
  | cons i L ih =>
    rw [List.map_cons, List.sum_cons, ih, List.filterMap_cons]
    cases a.get i with
    | none => simp
    | some v =>
      simp only [Option.map_some, Option.getD_some, List.count_cons, beq_iff_eq]
      omega

end GB
