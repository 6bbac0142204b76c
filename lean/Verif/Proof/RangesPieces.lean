import Verif.Proof.UpdateRange
import Verif.Spec.Ranges

/-!
# `update_leaves_with_arg_in_ranges`: the pieces of one leaf
-/

namespace GB
variable {E C D σ Arg : Type} {B : Trait E C D} {A : Law B}
open Tree

theorem setInsert_mem {l : List Nat} {x y : Nat} : y ∈ setInsert l x ↔ y = x ∨ y ∈ l := by
  induction l with
  | nil => simp [setInsert]
  | cons a l ih =>
    simp only [setInsert]
    split
    · simp
    · split
      · next h1 h2 => subst h2; simp
      · simp only [List.mem_cons, ih]
        constructor
        · rintro (h | h | h)
          · exact .inr (.inl h)
          · exact .inl h
          · exact .inr (.inr h)
        · rintro (h | h | h)
          · exact .inr (.inl h)
          · exact .inl h
          · exact .inr (.inr h)

theorem setInsert_sorted {l : List Nat} (h : l.Pairwise (· < ·)) (x : Nat) : (setInsert l x).Pairwise (· < ·) := by
  induction l with
  | nil => simp [setInsert]
  | cons a l ih =>
    rw [List.pairwise_cons] at h
    simp only [setInsert]
    split
    · next h1 =>
      rw [List.pairwise_cons, List.pairwise_cons]
      refine ⟨?_, h.1, h.2⟩
      intro b hb
      rcases List.mem_cons.mp hb with rfl | hb
      · exact h1
      · exact Nat.lt_trans h1 (h.1 b hb)
    · split
      · rw [List.pairwise_cons]; exact h
      · next h1 h2 =>
        rw [List.pairwise_cons]
        refine ⟨?_, ih h.2⟩
        intro b hb
        rcases setInsert_mem.mp hb with rfl | hb
        · omega
        · exact h.1 b hb

theorem foldl_setInsert (l : List Nat) : ∀ acc : List Nat, acc.Pairwise (· < ·) →
    (l.foldl setInsert acc).Pairwise (· < ·) ∧ ∀ y, y ∈ l.foldl setInsert acc ↔ y ∈ l ∨ y ∈ acc := by
  induction l with
  | nil => intro acc h; exact ⟨h, by simp⟩
  | cons a l ih =>
    intro acc h
    obtain ⟨h1, h2⟩ := ih _ (setInsert_sorted h a)
    refine ⟨h1, fun y => ?_⟩
    rw [List.foldl_cons, h2, setInsert_mem, List.mem_cons]
    constructor
    · rintro (h | h | h)
      · exact .inl (.inr h)
      · exact .inl (.inl h)
      · exact .inr h
    · rintro ((h | h) | h)
      · exact .inr (.inl h)
      · exact .inl h
      · exact .inr (.inr h)

theorem sorted_ext : ∀ {l l' : List Nat}, l.Pairwise (· < ·) → l'.Pairwise (· < ·) → (∀ x, x ∈ l ↔ x ∈ l') → l = l' := by
  intro l
  induction l with
  | nil =>
    intro l' _ _ h
    cases l' with
    | nil => rfl
    | cons a l' => exact absurd ((h a).mpr (by simp)) (by simp)
  | cons a l ih =>
    intro l' h1 h2 h
    cases l' with
    | nil => exact absurd ((h a).mp (by simp)) (by simp)
    | cons b l' =>
      rw [List.pairwise_cons] at h1 h2
      have hab : a = b := by
        rcases List.mem_cons.mp ((h a).mp (by simp)) with e | e
        · exact e
        · rcases List.mem_cons.mp ((h b).mpr (by simp)) with e' | e'
          · exact e'.symm
          · have := h1.1 b e'
            have := h2.1 a e
            omega
      subst hab
      congr 1
      refine ih h1.2 h2.2 (fun x => ?_)
      constructor
      · intro hx
        rcases List.mem_cons.mp ((h x).mp (by simp [hx])) with e | e
        · have := h1.1 x hx; omega
        · exact e
      · intro hx
        rcases List.mem_cons.mp ((h x).mpr (by simp [hx])) with e | e
        · have := h2.1 x hx; omega
        · exact e

/-- the ranges of one leaf are inside the element, and not empty at its edges (`Fits`) -/
def GroupOK (len : Nat) (group : List (Nat × Nat × Arg)) : Prop := ∀ g ∈ group, g.2.1 ≤ len ∧ (g.1 < g.2.1 ∨ g.1 = 0 ∧ g.2.1 = len ∨ 0 < g.1 ∧ g.1 < len ∧ g.2.1 < len)

theorem cutPoints_sorted (len : Nat) (group : List (Nat × Nat × Arg)) : (cutPoints len group).Pairwise (· < ·) :=
  List.pairwise_lt_range.filter _

theorem mem_cutPoints {len : Nat} {group : List (Nat × Nat × Arg)} {x : Nat} :
    x ∈ cutPoints len group ↔ 0 < x ∧ x < len ∧ ∃ g ∈ group, x = g.1 ∨ x = g.2.1 := by
  unfold cutPoints
  rw [List.mem_filter, List.mem_range]
  simp only [Bool.and_eq_true, decide_eq_true_eq, List.any_eq_true, Bool.or_eq_true]
  constructor
  · rintro ⟨h1, h2, h3⟩; exact ⟨h2, h1, h3⟩
  · rintro ⟨h1, h2, h3⟩; exact ⟨h2, h1, h3⟩

theorem splitPoints_eq {len : Nat} {group : List (Nat × Nat × Arg)} (hg : ∀ g ∈ group, g.1 ≤ len ∧ g.2.1 ≤ len) : splitPoints len group = cutPoints len group := by
  obtain ⟨h1, h2⟩ := foldl_setInsert (group.flatMap fun g => [g.1, g.2.1]) [] .nil
  refine sorted_ext (h1.filter _) (cutPoints_sorted len group) (fun x => ?_)
  rw [splitPoints, List.mem_filter, h2, mem_cutPoints, List.mem_flatMap]
  simp only [List.mem_cons, List.not_mem_nil, or_false, decide_eq_true_eq, ne_eq]
  constructor
  · rintro ⟨⟨g, hg1, hg2⟩, hx0, hxl⟩
    have := hg g hg1
    exact ⟨by omega, by omega, g, hg1, hg2⟩
  · rintro ⟨h0, hl, g, hg1, hg2⟩
    exact ⟨⟨g, hg1, hg2⟩, by omega, by omega⟩

theorem GroupOK.le {len : Nat} {group : List (Nat × Nat × Arg)} (hg : GroupOK len group) : ∀ g ∈ group, g.1 ≤ len ∧ g.2.1 ≤ len := by
  intro g h
  have := hg g h
  omega

theorem applyGroup_eq {f : σ → E → Arg → M (σ × E)} {test : Nat → Nat → Bool} {lo hi : Nat} : ∀ {group : List (Nat × Nat × Arg)} (st : σ) (e : E),
    (∀ g ∈ group, test g.1 g.2.1 = true ↔ (g.1 ≤ lo ∧ hi ≤ g.2.1)) → applyGroup f test group st e = onPiece f lo hi group st e := by
  intro group
  induction group with
  | nil => intro st e _; rfl
  | cons g gs ih =>
    intro st e h
    obtain ⟨a, b, arg⟩ := g
    have h1 := h (a, b, arg) (by simp)
    have h2 : ∀ g ∈ gs, test g.1 g.2.1 = true ↔ (g.1 ≤ lo ∧ hi ≤ g.2.1) := fun g hg => h g (by simp [hg])
    simp only [applyGroup, onPiece]
    by_cases hc : a ≤ lo ∧ hi ≤ b
    · rw [if_pos (h1.mpr hc), if_pos hc]
      congr
      funext x
      exact ih _ _ h2
    · rw [if_neg (fun e => hc (h1.mp e)), if_neg hc]
      exact ih _ _ h2

theorem middle_eq {f : σ → E → Arg → M (σ × E)} {group : List (Nat × Nat × Arg)} {len : Nat} (hg : GroupOK len group) : ∀ (xs : List Nat) (st : σ) (lo : Nat) (e : E),
    (∀ g ∈ group, g.1 ≤ (lo :: xs).getLast (by simp)) →
    specPieces B f group len xs st lo e = (do
      let (st, es, fin) ← middlePieces B f group xs st lo e
      let (st, fin) ← applyGroup f (fun _ b => b = len) group st fin
      pure (st, es ++ [fin])) := by
  intro xs
  induction xs with
  | nil =>
    intro st lo e hl
    have : applyGroup f (fun _ b => b = len) group st e = onPiece f lo len group st e := applyGroup_eq st e (fun g h => by
      have h1 := hl g h
      have h2 := (hg g h).1
      simp only [List.getLast_singleton] at h1
      simp only [decide_eq_true_eq]
      constructor
      · intro h; exact ⟨h1, by omega⟩
      · intro h; omega)
    simp only [specPieces, middlePieces, bind_ok, this, List.nil_append]
  | cons x xs ih =>
    intro st lo e hl
    have hl' : ∀ g ∈ group, g.1 ≤ (x :: xs).getLast (by simp) := by simpa using hl
    have hap : ∀ st e, applyGroup f (fun a b => decide (a ≤ lo ∧ x ≤ b)) group st e = onPiece f lo x group st e := fun st e => applyGroup_eq st e (fun g h => by simp)
    simp only [specPieces, middlePieces, bind_assoc, hap, pure_bind]
    congr
    funext p
    congr
    funext q
    rw [ih _ _ _ hl']
    simp only [bind_assoc, pure_bind, List.cons_append]

/-- one leaf -/
theorem updOneLeaf_eq {f : σ → E → Arg → M (σ × E)} {group : List (Nat × Nat × Arg)} {e : E} {st st' : σ} {P : List E} (hg : GroupOK (B.rleLen e) group)
    (h : specPieces B f group (B.rleLen e) (cutPoints (B.rleLen e) group) st 0 e = .ok (st', P)) :
    ∃ p ps, P = p :: ps ∧ updOneLeaf B f group st e = .ok (st', p, if ps.isEmpty then none else some ps) := by
  simp only [updOneLeaf, splitPoints_eq hg.le]
  cases hc : cutPoints (B.rleLen e) group with
  | nil =>
    have hall : ∀ g ∈ group, g.1 = 0 ∧ g.2.1 = B.rleLen e := by
      intro g h
      have h1 := hg g h
      have h2 : g.1 ∉ cutPoints (B.rleLen e) group := by rw [hc]; simp
      have h3 : g.2.1 ∉ cutPoints (B.rleLen e) group := by rw [hc]; simp
      rw [mem_cutPoints] at h2 h3
      have h4 : g.1 = 0 := by
        apply Decidable.byContradiction
        intro hn
        exact h2 ⟨by omega, by omega, g, h, .inl rfl⟩
      constructor
      · exact h4
      · apply Decidable.byContradiction
        intro hn
        exact h3 ⟨by omega, by omega, g, h, .inr rfl⟩
    rw [hc] at h
    have hap : applyGroup f (fun _ _ => true) group st e = onPiece f 0 (B.rleLen e) group st e := applyGroup_eq st e (fun g h => by
      have := hall g h
      simp only [true_iff]
      omega)
    simp only [specPieces] at h
    obtain ⟨⟨st1, e1⟩, h1, h2⟩ := bind_inv h
    cases h2
    have ha : assertM (group.all fun g => decide (g.1 = 0 ∧ g.2.1 = B.rleLen e)) = .ok () := by
      have : (group.all fun g => decide (g.1 = 0 ∧ g.2.1 = B.rleLen e)) = true := by
        rw [List.all_eq_true]
        intro g h
        exact decide_eq_true (hall g h)
      rw [this]; rfl
    refine ⟨e1, [], rfl, ?_⟩
    rw [ha]
    simp only [bind_ok, hap, h1]
    rfl
  | cons first rest =>
    rw [hc] at h
    have hs := cutPoints_sorted (B.rleLen e) group
    rw [hc, List.pairwise_cons] at hs
    have hlast : ∀ g ∈ group, g.1 ≤ (first :: rest).getLast (by simp) := by
      intro g h
      by_cases h0 : g.1 = 0
      · omega
      · have h1 := hg g h
        have hm : g.1 ∈ first :: rest := by
          rw [← hc, mem_cutPoints]
          exact ⟨by omega, by omega, g, h, .inl rfl⟩
        have hs' := cutPoints_sorted (B.rleLen e) group
        rw [hc] at hs'
        obtain ⟨u, hu⟩ : ∃ u, first :: rest = u ++ [(first :: rest).getLast (by simp)] := ⟨_, (List.dropLast_concat_getLast (by simp)).symm⟩
        rw [hu, List.mem_append] at hm
        rw [hu, List.pairwise_append] at hs'
        rcases hm with hm | hm
        · exact Nat.le_of_lt (hs'.2.2 g.1 hm _ (by simp))
        · simp at hm; omega
    have hfirst : ∀ st e', applyGroup f (fun a _ => a = 0) group st e' = onPiece f 0 first group st e' := fun st e' => applyGroup_eq st e' (fun g h => by
      have h1 := hg g h
      simp only [decide_eq_true_eq]
      constructor
      · intro h0
        refine ⟨by omega, ?_⟩
        by_cases hb : g.2.1 = B.rleLen e
        · have : first ∈ cutPoints (B.rleLen e) group := by rw [hc]; simp
          have := (mem_cutPoints.mp this).2.1
          omega
        · have hm : g.2.1 ∈ first :: rest := by
            rw [← hc, mem_cutPoints]
            exact ⟨by omega, by omega, g, h, .inr rfl⟩
          rcases List.mem_cons.mp hm with hm | hm
          · omega
          · exact Nat.le_of_lt (hs.1 _ hm)
      · intro h0; omega)
    simp only [specPieces] at h
    rw [Nat.sub_zero] at h
    obtain ⟨⟨x, y⟩, h1, h2⟩ := bind_inv h
    obtain ⟨⟨st1, x1⟩, h3, h4⟩ := bind_inv h2
    obtain ⟨⟨st2, es⟩, h5, h6⟩ := bind_inv h4
    cases h6
    have h5 : specPieces B f group (B.rleLen e) rest st1 first y = .ok (st2, es) := h5
    have h3 : onPiece f 0 first group st x = .ok (st1, x1) := h3
    rw [middle_eq hg rest st1 first y hlast] at h5
    obtain ⟨⟨st3, mids, fin⟩, h7, h8⟩ := bind_inv h5
    obtain ⟨⟨st4, fin'⟩, h9, h10⟩ := bind_inv h8
    cases h10
    have h9 : applyGroup f (fun _ b => b = B.rleLen e) group st3 fin = .ok (st2, fin') := h9
    refine ⟨x1, mids ++ [fin'], rfl, ?_⟩
    simp only [h1, bind_ok, hfirst, h3, h7, h9, pure_ok]
    simp

/-- the closure does not panic and keeps elements valid -/
def ArgOK (A : Law B) (f : σ → E → Arg → M (σ × E)) : Prop := ∀ st e a, A.okE e → ∃ st' e', f st e a = .ok (st', e') ∧ A.okE e'

theorem onPiece_ok {f : σ → E → Arg → M (σ × E)} (hf : ArgOK A f) {lo hi : Nat} : ∀ (group : List (Nat × Nat × Arg)) (st : σ) (e : E), A.okE e →
    ∃ st' e', onPiece f lo hi group st e = .ok (st', e') ∧ A.okE e' := by
  intro group
  induction group with
  | nil => intro st e h; exact ⟨st, e, rfl, h⟩
  | cons g gs ih =>
    intro st e h
    obtain ⟨a, b, arg⟩ := g
    simp only [onPiece]
    split
    · obtain ⟨st1, e1, h1, h2⟩ := hf st e arg h
      obtain ⟨st2, e2, h3, h4⟩ := ih st1 e1 h2
      exact ⟨st2, e2, by rw [h1, bind_ok]; exact h3, h4⟩
    · exact ih st e h

theorem specPieces_ok {f : σ → E → Arg → M (σ × E)} (hf : ArgOK A f) (hsl : SplitLen B A.okE) {group : List (Nat × Nat × Arg)} {len : Nat} :
    ∀ (xs : List Nat) (st : σ) (lo : Nat) (e : E), A.okE e → lo + B.rleLen e = len → (lo :: xs).Pairwise (· < ·) → (∀ x ∈ xs, x < len) →
    ∃ st' P, specPieces B f group len xs st lo e = .ok (st', P) ∧ P ≠ [] ∧ ∀ p ∈ P, A.okE p := by
  intro xs
  induction xs with
  | nil =>
    intro st lo e h _ _ _
    obtain ⟨st1, e1, h1, h2⟩ := onPiece_ok hf (lo := lo) (hi := len) group st e h
    refine ⟨st1, [e1], by simp only [specPieces, h1, bind_ok, pure_ok], by simp, ?_⟩
    intro p hp
    simp at hp
    rw [hp]; exact h2
  | cons x xs ih =>
    intro st lo e h hlen hs hx
    rw [List.pairwise_cons] at hs
    have hlo := hs.1 x (by simp)
    have hxl := hx x (by simp)
    obtain ⟨a, b, q1, q2, q3, -⟩ := A.split e (x - lo) h (by omega) (by omega)
    obtain ⟨l1, l2⟩ := hsl e (x - lo) a b h (by omega) (by omega) q1
    obtain ⟨st1, e1, h1, h2⟩ := onPiece_ok hf (lo := lo) (hi := x) group st a q2
    obtain ⟨st2, P, h3, h4, h5⟩ := ih st1 x b q3 (by omega) hs.2 (fun y hy => hx y (by simp [hy]))
    refine ⟨st2, e1 :: P, by simp only [specPieces, q1, h1, bind_ok, h3, pure_ok], by simp, ?_⟩
    intro p hp
    rcases List.mem_cons.mp hp with rfl | hp
    · exact h2
    · exact h5 p hp

end GB
