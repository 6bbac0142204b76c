import Verif.Proof.Instances
import Verif.Proof.Insert
import Verif.Proof.Remove
import Verif.Spec.Seq

/-!
# From the relational specifications to the list-level functions
-/

namespace GB
variable {E C D X : Type}
open Tree

/-- the abstract value of a tree -/
def abs (s : Tree E C) : Seq E := ⟨s.lf.items.length, entries s⟩

theorem locate_split : ∀ {es U V : List (Nat × E)} {l : Nat} {e : E}, (es.map Prod.fst).Nodup → es = U ++ (l, e) :: V →
    locate l es = some (U, e, V) := by
  intro es U
  induction U generalizing es with
  | nil => intro V l e _ he; subst he; simp [locate]
  | cons x U ih =>
    intro V l e nd he
    subst he
    obtain ⟨k, x⟩ := x
    simp only [List.cons_append, List.map_cons, List.nodup_cons] at nd
    have hk : k ≠ l := by
      intro h; subst h; apply nd.1; simp
    simp only [List.cons_append, locate, if_neg hk, ih nd.2 rfl, Option.map_some]

theorem locate_some : ∀ {es U V : List (Nat × E)} {l : Nat} {e : E}, locate l es = some (U, e, V) → es = U ++ (l, e) :: V := by
  intro es
  induction es with
  | nil => intro U V l e h; simp [locate] at h
  | cons x es ih =>
    intro U V l e h
    obtain ⟨k, x⟩ := x
    simp only [locate] at h
    split at h
    · next hk => cases h; subst hk; rfl
    · cases hl : locate l es with
      | none => rw [hl] at h; cases h
      | some r =>
        obtain ⟨u, y, v⟩ := r
        rw [hl] at h
        cases h
        rw [ih hl]; rfl

theorem locate_none : ∀ {es : List (Nat × E)} {l : Nat}, locate l es = none ↔ l ∉ es.map Prod.fst := by
  intro es l
  induction es with
  | nil => simp [locate]
  | cons x es ih =>
    obtain ⟨k, x⟩ := x
    simp only [locate]
    split
    · next hk => simp [hk]
    · next hk =>
      simp only [Option.map_eq_none_iff, ih, List.map_cons, List.mem_cons, not_or]
      exact ⟨fun h => ⟨fun e => hk e.symm, h⟩, fun h => h.2⟩

section
variable {s s' : Tree E C} {lvl : Nat → Nat} {h : Nat} {B : Trait E C D} {A : Law B}

theorem locate_entries (w : WF s lvl h) {l : Nat} {e : E} {U V : List (Nat × E)} :
    locate l (entries s) = some (U, e, V) ↔ entries s = U ++ (l, e) :: V :=
  ⟨locate_some, locate_split (entries_nodup w)⟩

theorem locate_dead (w : WF s lvl h) {l : Nat} : locate l (entries s) = none ↔ elm s l = none := by
  rw [locate_none, entries_fst w, mem_order w, elm_none]
  simp

/-- leaf numbers in use are smaller than the next one -/
theorem entries_lt {l : Nat} {e : E} (hm : (l, e) ∈ entries s) : l < s.lf.items.length := by
  have := (mem_entries_elm hm).2
  unfold elm at this
  cases hL : s.lf.get l with
  | none => rw [hL] at this; cases this
  | some L => exact Arena.get_lt hL

theorem PushRel.spec {e : E} {c : Cursor} (r : PushRel B s e c s') : specPush B (abs s) e = .ok (c, abs s') := by
  cases r with
  | new h1 h2 h3 h4 =>
    subst h2
    simp only [specPush, abs]
    cases hl : (entries s).getLast? with
    | none =>
      have : entries s = [] := List.getLast?_eq_none_iff.mp hl
      simp only [h3, h4, this, List.nil_append]
    | some x =>
      obtain ⟨l, x⟩ := x
      simp only [h1 l x hl, Bool.false_eq_true, if_false, h3, h4]
  | merged u l x x' h1 h2 h3 h4 h5 h6 =>
    simp only [specPush, abs, h1, List.getLast?_concat, h2, if_true, h3, bind_ok, List.dropLast_concat, h4, h5, h6, pure_ok]

theorem PrependRel.spec {e : E} {c : Cursor} (r : PrependRel B s e c s') : specPrepend B (abs s) e = .ok (c, abs s') := by
  cases r with
  | new h1 h2 h3 h4 =>
    subst h2
    simp only [specPrepend, abs]
    cases hl : entries s with
    | nil => simp only [h3, h4, hl]
    | cons x es =>
      obtain ⟨l, x⟩ := x
      simp only [h1 l x (by rw [hl]; rfl), Bool.false_eq_true, if_false, h3, h4, hl]
  | merged v l x x' h1 h2 h3 h4 h5 h6 =>
    simp only [specPrepend, abs, h1, h2, if_true, h3, bind_ok, h4, h5, h6, pure_ok]

theorem InsRel.spec (w : WF s lvl h) {U V : List (Nat × E)} {l o : Nat} {e data : E} {c : Cursor} {sp : List Nat}
    (hent : entries s = U ++ (l, e) :: V) (hoff : o ≤ B.rleLen e)
    (r : InsRel B s U V l o e data c sp s') : specInsert B (abs s) ⟨l, o⟩ data = .ok ((c, sp), abs s') := by
  have hl := (locate_entries w).mpr hent
  have ho : ¬ B.rleLen e < o := by omega
  cases r with
  | inplace e' h1 h2 h3 h4 h5 =>
    simp only [specInsert, abs, hl, if_neg ho, h1, bind_ok, pure_ok, h2, h3, h4, h5]
  | left e' h1 h2 h3 h4 h5 h6 h7 h8 =>
    simp only [specInsert, abs, hl, if_neg ho, h1, bind_ok, pure_ok, if_pos (And.intro h2 h3), h4, h5, h6, h7, h8]
  | right e' h1 h2 h3 h4 h5 h6 h7 h8 h9 =>
    simp only [specInsert, abs, hl, if_neg ho, h1, bind_ok, pure_ok, if_neg h2, if_pos (And.intro h3 h4), h5, h6, h7, h8, h9]
  | before h1 h2 h3 h4 h5 h6 h7 h8 =>
    subst h5
    simp only [specInsert, abs, hl, if_neg ho, h1, bind_ok, pure_ok, if_neg h2, if_neg h3, if_pos h4, h6, h7, h8]
  | after h1 h2 h3 h4 h5 h6 h7 h8 =>
    subst h5
    simp only [specInsert, abs, hl, if_neg ho, h1, bind_ok, pure_ok, if_neg (fun h : o = 0 ∧ _ => h3 h.1), if_neg h2, if_neg h3, if_pos h4, h6, h7, h8]
  | cut a b h1 h2 h3 h4 h5 h6 h7 h8 =>
    subst h5
    have n0 : ¬ o = 0 := by omega
    have n1 : ¬ o = B.rleLen e := by omega
    simp only [specInsert, abs, hl, if_neg ho, h1, bind_ok, pure_ok, if_neg (fun h : o = 0 ∧ _ => n0 h.1),
      if_neg (fun h : o = B.rleLen e ∧ _ => n1 h.1), if_neg n0, if_neg n1, h4, h6, h7, h8]

/-! ## Height -/

theorem rows_grow {m : Fill} (w : WF s lvl h) (sz : Sz m s h) : ∀ d, 1 ≤ d → d < h →
    m.lo * (rowI s d).length ≤ (rowI s (d + 1)).length := by
  intro d hd1 hd
  have key : ∀ u : List Idx, (∀ a ∈ u, a ∈ rowI s d) → m.lo * u.length ≤ (u.flatMap (kidsI s)).length := by
    intro u
    induction u with
    | nil => intro _; simp
    | cons a u ih =>
      intro hu
      have ha := hu a (by simp)
      obtain ⟨x, rfl, hx, hlx⟩ := rowI_internal w d hd a ha
      have hxr : x ≠ s.root := by
        intro e; subst e; rw [w.root_lvl] at hlx; omega
      have := ((sz x hx (fun h => h)).2.1 hxr).1
      have h2 := ih (fun b hb => hu b (by simp [hb]))
      simp only [List.length_cons, List.flatMap_cons, List.length_append, kidsI, kids_chs, List.length_map, Nat.mul_add]
      omega
  exact key (rowI s d) (fun _ h => h)

/-- a tree with more than one level has many leaves -/
theorem height_bound {m : Fill} (w : WF s lvl h) (sz : Sz m s h) (h2 : 2 ≤ h) : 2 * m.lo ^ (h - 1) ≤ (entries s).length := by
  have hr1 : 2 ≤ (rowI s 1).length := by
    obtain ⟨i, hi⟩ := w.root'
    have := (sz s.root (by rw [hi]; simp) (fun h => h)).2.2 rfl h2
    simpa [rowI, kidsI, kids_chs] using this
  have key : ∀ d, d + 1 ≤ h → 2 * m.lo ^ d ≤ (rowI s (d + 1)).length := by
    intro d
    induction d with
    | zero => intro _; simpa using hr1
    | succ d ih =>
      intro hd
      have h1 := ih (by omega)
      have h3 := rows_grow w sz (d + 1) (by omega) (by omega)
      have h4 := Nat.mul_le_mul_left m.lo h1
      rw [Nat.pow_succ]
      have e : 2 * (m.lo ^ d * m.lo) = m.lo * (2 * m.lo ^ d) := by rw [Nat.mul_comm (m.lo ^ d) m.lo, Nat.mul_left_comm]
      rw [e]
      exact Nat.le_trans h4 h3
  have := key (h - 1) (by omega)
  rw [show h - 1 + 1 = h by omega, row_order w, List.length_map, ← entries_length w] at this
  exact this

/-- with at least five children per node, a tree of depth ten has millions of leaves -/
theorem height_le9 (w : WF s lvl h) (sz : Sz 5 s h) (hn : (entries s).length < 3906250) : h ≤ 9 := by
  apply Decidable.byContradiction
  intro hh
  have h1 : 2 * 5 ^ (h - 1) ≤ _ := height_bound w sz (by omega)
  have h2 : 5 ^ 9 ≤ 5 ^ (h - 1) := Nat.pow_le_pow_right (by omega) (by omega)
  have : 5 ^ 9 = 1953125 := by decide
  omega

theorem Sz.mono {m m' : Fill} (sz : Sz m s h) (hm : m'.lo ≤ m.lo) (hd : m'.lo + m'.d ≤ m.lo + m.d) : Sz m' s h := by
  intro y hy hX
  obtain ⟨h1, h2, h3⟩ := sz y hy hX
  exact ⟨h1, fun hr => ⟨Nat.le_trans hm (h2 hr).1, fun hn => Nat.le_trans hd ((h2 hr).2 hn)⟩, h3⟩

end
end GB
