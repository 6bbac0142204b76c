import Verif.Props.C02
import Verif.Props.C03
import Verif.Props.C04
import Verif.Spec.History

/-!
# Histories
-/

namespace GB
variable {E C D : Type}
open Tree

/-- one valid operation -/
theorem step_spec {B : Trait E C D} {A : Law B} {m : Fill} {s : Tree E C} {o : Op E} (hm : 1 ≤ m.lo ∧ m.lo + m.d ≤ 5) (hE : 2 ≤ m.lo ∨ LawE A)
    (hi : Inv A m s) (hv : o.valid B A.okE (abs s)) :
    ∃ s', o.run B s = .ok s' ∧ Inv A m s' ∧ o.spec B (abs s) = .ok (abs s') := by
  have hm6 : 1 ≤ m.lo ∧ m.lo + m.d ≤ 6 := ⟨hm.1, by omega⟩
  cases o with
  | push e =>
    obtain ⟨c, s', h1, h2, h3⟩ := C01_push hm6 hi hv
    exact ⟨s', by simp only [Op.run, h1, bind_ok, pure_ok], h2, by simp only [Op.spec, h3, bind_ok, pure_ok]⟩
  | prepend e =>
    obtain ⟨c, s', h1, h2, h3⟩ := C02_prepend_partial hm6 hi hv.2 hv.1
    exact ⟨s', by simp only [Op.run, h1, bind_ok, pure_ok], h2, by simp only [Op.spec, h3, bind_ok, pure_ok]⟩
  | insertAt cur e =>
    obtain ⟨hd, x, hx, ho⟩ := hv
    obtain ⟨c, sp, s', h1, h2, h3⟩ := C03_insert_by_path hm6 hi hx ho (Or.inl hm.2) hd
    exact ⟨s', by simp only [Op.run, h1, bind_ok, pure_ok], h2, by simp only [Op.spec, h3, bind_ok, pure_ok]⟩
  | remove cur =>
    obtain ⟨r, s', h1, h2, h3⟩ := C04_remove_any cur hm6 hE hi
    exact ⟨s', by simp only [Op.run, h1, bind_ok, pure_ok], h2, by simp only [Op.spec, h3]⟩
  | clear =>
    exact ⟨newTree B, rfl, ⟨1, new_inv A m⟩, by rw [new_entries]; rfl⟩

/-- a valid history -/
theorem run_spec {B : Trait E C D} {A : Law B} {m : Fill} (hm : 1 ≤ m.lo ∧ m.lo + m.d ≤ 5) (hE : 2 ≤ m.lo ∨ LawE A) :
    ∀ (os : List (Op E)) (s : Tree E C), Inv A m s → validAll B A.okE (abs s) os →
    ∃ s', runAll B s os = .ok s' ∧ Inv A m s' ∧ specAll B (abs s) os = .ok (abs s') := by
  intro os
  induction os with
  | nil => intro s hi _; exact ⟨s, rfl, hi, rfl⟩
  | cons o os ih =>
    intro s hi ⟨hv, hr⟩
    obtain ⟨s1, h1, i1, p1⟩ := step_spec hm hE hi hv
    obtain ⟨s2, h2, i2, p2⟩ := ih s1 i1 (hr _ p1)
    exact ⟨s2, by simp only [runAll, h1, bind_ok, h2], i2, by simp only [specAll, p1, bind_ok, p2]⟩

/-- new leaf indices are fresh -/
structure Fresh (t t' : Seq E) : Prop where
  mono : t.next ≤ t'.next
  old : ∀ l, l < t.next → (∃ e, (l, e) ∈ t'.es) → ∃ e, (l, e) ∈ t.es

theorem Fresh.refl (t : Seq E) : Fresh t t := ⟨Nat.le_refl _, fun _ _ h => h⟩

theorem Fresh.trans {a b c : Seq E} (h1 : Fresh a b) (h2 : Fresh b c) : Fresh a c :=
  ⟨Nat.le_trans h1.mono h2.mono, fun l hl h => h1.old l hl (h2.old l (Nat.lt_of_lt_of_le hl h1.mono) h)⟩

theorem specPush_fresh {B : Trait E C D} {t t' : Seq E} {e : E} {c : Cursor} (h : specPush B t e = .ok (c, t')) : Fresh t t' := by
  unfold specPush at h
  split at h
  · next l x hl =>
    obtain ⟨es, hes⟩ := getLast_split hl
    split at h
    · cases hr : B.mergeRight x e with
      | error y => rw [hr] at h; cases h
      | ok x' =>
        rw [hr, bind_ok] at h
        simp only [pure_ok, Except.ok.injEq, Prod.mk.injEq] at h
        obtain ⟨-, rfl⟩ := h
        refine ⟨Nat.le_refl _, ?_⟩
        rintro k - ⟨y, hy⟩
        simp only [hes, List.dropLast_concat, List.mem_append, List.mem_singleton, Prod.mk.injEq] at hy ⊢
        rcases hy with hy | ⟨rfl, -⟩
        · exact ⟨y, Or.inl hy⟩
        · exact ⟨x, Or.inr ⟨rfl, rfl⟩⟩
    · simp only [Except.ok.injEq, Prod.mk.injEq] at h
      obtain ⟨-, rfl⟩ := h
      refine ⟨Nat.le_succ _, ?_⟩
      rintro k hk ⟨y, hy⟩
      simp only [List.mem_append, List.mem_singleton, Prod.mk.injEq] at hy
      rcases hy with hy | ⟨rfl, -⟩
      · exact ⟨y, hy⟩
      · exact absurd hk (Nat.lt_irrefl _)
  · simp only [Except.ok.injEq, Prod.mk.injEq] at h
    obtain ⟨-, rfl⟩ := h
    refine ⟨Nat.le_succ _, ?_⟩
    rintro k hk ⟨y, hy⟩
    simp only [List.mem_singleton, Prod.mk.injEq] at hy
    exact absurd (hy.1 ▸ hk) (Nat.lt_irrefl _)

theorem specPrepend_fresh {B : Trait E C D} {t t' : Seq E} {e : E} {c : Cursor} (h : specPrepend B t e = .ok (c, t')) : Fresh t t' := by
  unfold specPrepend at h
  split at h
  · next l x es hl =>
    split at h
    · cases hr : B.mergeLeft x e with
      | error y => rw [hr] at h; cases h
      | ok x' =>
        rw [hr, bind_ok] at h
        simp only [pure_ok, Except.ok.injEq, Prod.mk.injEq] at h
        obtain ⟨-, rfl⟩ := h
        refine ⟨Nat.le_refl _, ?_⟩
        rintro k - ⟨y, hy⟩
        simp only [List.mem_cons, Prod.mk.injEq] at hy
        rw [hl]
        rcases hy with ⟨rfl, -⟩ | hy
        · exact ⟨x, by simp⟩
        · exact ⟨y, by simp [hy]⟩
    · simp only [Except.ok.injEq, Prod.mk.injEq] at h
      obtain ⟨-, rfl⟩ := h
      refine ⟨Nat.le_succ _, ?_⟩
      rintro k hk ⟨y, hy⟩
      simp only [List.mem_cons (a := (k, y)), Prod.mk.injEq] at hy
      rcases hy with ⟨rfl, -⟩ | hy
      · exact absurd hk (Nat.lt_irrefl _)
      · exact ⟨y, hy⟩
  · simp only [Except.ok.injEq, Prod.mk.injEq] at h
    obtain ⟨-, rfl⟩ := h
    refine ⟨Nat.le_succ _, ?_⟩
    rintro k hk ⟨y, hy⟩
    simp only [List.mem_singleton, Prod.mk.injEq] at hy
    exact absurd (hy.1 ▸ hk) (Nat.lt_irrefl _)

theorem specInsert_fresh {B : Trait E C D} {t t' : Seq E} {cur : Cursor} {e : E} {r} (h : specInsert B t cur e = .ok (r, t')) : Fresh t t' := by
  cases hl : locate cur.leaf t.es with
  | none => rw [specInsert, hl] at h; cases h
  | some x =>
    obtain ⟨U, x, V⟩ := x
    obtain ⟨M, h1, -, -, h4⟩ := specInsert_local hl h
    refine ⟨specInsert_next hl h, ?_⟩
    rintro k hk ⟨y, hy⟩
    rw [locate_some hl]
    rw [h1] at hy
    simp only [List.mem_append] at hy
    rcases hy with (hy | hy) | hy
    · exact ⟨y, by simp [hy]⟩
    · rcases h4 _ hy with h | h
      · exact ⟨x, by simp [← h]⟩
      · exact absurd hk (Nat.not_lt.mpr h)
    · exact ⟨y, by simp [hy]⟩

theorem specRemove_fresh {t : Seq E} {l : Nat} : Fresh t (specRemove t l).2 := by
  unfold specRemove
  split
  · exact Fresh.refl t
  · next U e V hl =>
    refine ⟨Nat.le_refl _, ?_⟩
    rintro k - ⟨y, hy⟩
    rw [locate_some hl]
    simp only [List.mem_append] at hy
    rcases hy with hy | hy
    · exact ⟨y, by simp [hy]⟩
    · exact ⟨y, by simp [hy]⟩

/-- every operation but `clear` only ever hands out fresh leaf indices -/
theorem Op.fresh {B : Trait E C D} {t t' : Seq E} {o : Op E} (hc : o ≠ .clear) (h : o.spec B t = .ok t') : Fresh t t' := by
  cases o with
  | push e =>
    cases h1 : specPush B t e with
    | error x => rw [Op.spec, h1] at h; cases h
    | ok y =>
      rw [Op.spec, h1] at h
      cases h
      exact specPush_fresh h1
  | prepend e =>
    cases h1 : specPrepend B t e with
    | error x => rw [Op.spec, h1] at h; cases h
    | ok y =>
      rw [Op.spec, h1] at h
      cases h
      exact specPrepend_fresh h1
  | insertAt cur e =>
    cases h1 : specInsert B t cur e with
    | error x => rw [Op.spec, h1] at h; cases h
    | ok y =>
      rw [Op.spec, h1] at h
      cases h
      exact specInsert_fresh h1
  | remove cur => cases h; exact specRemove_fresh
  | clear => exact absurd rfl hc

theorem specAll_fresh {B : Trait E C D} : ∀ {os : List (Op E)} {t t' : Seq E}, (∀ o ∈ os, o ≠ .clear) → specAll B t os = .ok t' → Fresh t t' := by
  intro os
  induction os with
  | nil => intro t t' _ h; cases h; exact Fresh.refl _
  | cons o os ih =>
    intro t t' hc h
    cases h1 : o.spec B t with
    | error x => rw [specAll, h1] at h; cases h
    | ok t1 =>
      rw [specAll, h1] at h
      exact (Op.fresh (hc o (by simp)) h1).trans (ih (fun o ho => hc o (by simp [ho])) h)

end GB
