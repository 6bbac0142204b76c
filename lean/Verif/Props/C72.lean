import Verif.Proof.Calls
import Verif.Proof.Sample

/-!
# C72: to a program, the tree is a sequence

A program that owns a tree and calls its methods (`Prog`, in `Spec/Calls.lean`: 35 methods, each call may depend on all that earlier calls returned) can be understood
on the sequence of elements alone.  `Prog.wp` (`Spec/CallLaws.lean`) follows the program with the pre- and postconditions of the calls, which do not mention the nodes
of the tree.  If that succeeds, the program runs on the tree, without a panic, and its result is one that was allowed.

Preconditions the code does not document and that are needed: `prepend` is not called on an empty tree (C02), `drain` is only used with traits whose empty
cache is neutral (C49) and not up to an element of length zero (C69), elements that `update_leaf` drops have a neutral cache (C20), ranges that may be empty
are as in C23, `check` and `depth` are not called on an empty tree (C06, C54), `shift_path_by_one_offset` not at the end of an element (C13), and calls that
store paths are made on fewer than 390626 elements (C62).
-/

namespace GB
variable {E C D X R R' : Type} {B : Trait E C D}
open Tree

/-- programs on traits whose empty cache is neutral (`RopeTrait`, the length trait of the range map), all methods -/
theorem C72_programs {A : Law B} (hE : LawE A) {Rd : C → D → C → Prop} {cont : E → List X} (K : ContentLaw B A.okE cont)
    (L : DiffLaw A Rd) {ho : HashOrd E} (hho : ∀ l, (ho.idx l).Perm l) (hcur : ∀ l, (ho.cur l).Perm l) (hgrp : ∀ l, (ho.grp l).Perm l)
    {Q : R → Seq E → Prop} (p : Prog E C D R) {s : Tree E C} (hi : Inv A ⟨1, 4⟩ s) (hw : p.wp A Rd cont True Q (abs s)) :
    ∃ r s', p.run B ho s = .ok (r, s') ∧ Inv A ⟨1, 4⟩ s' ∧ Q r (abs s') :=
  prog_run K (by decide) (.inr hE) L hho hcur hgrp (fun _ => rfl) p hi hw

/-- programs on any trait, all methods but `drain` -/
theorem C72_programs_no_drain {A : Law B} {Rd : C → D → C → Prop} {cont : E → List X} (K : ContentLaw B A.okE cont)
    (L : DiffLaw A Rd) {ho : HashOrd E} (hho : ∀ l, (ho.idx l).Perm l) (hcur : ∀ l, (ho.cur l).Perm l) (hgrp : ∀ l, (ho.grp l).Perm l)
    {Q : R → Seq E → Prop} (p : Prog E C D R) {s : Tree E C} (hi : Inv A 5 s) (hw : p.wp A Rd cont False Q (abs s)) :
    ∃ r s', p.run B ho s = .ok (r, s') ∧ Inv A 5 s' ∧ Q r (abs s') :=
  prog_run K (by decide) (.inl (by decide)) L hho hcur hgrp False.elim p hi hw

/-- programs that start with a new tree -/
theorem C72_new {A : Law B} (hE : LawE A) {Rd : C → D → C → Prop} {cont : E → List X} (K : ContentLaw B A.okE cont)
    (L : DiffLaw A Rd) {ho : HashOrd E} (hho : ∀ l, (ho.idx l).Perm l) (hcur : ∀ l, (ho.cur l).Perm l) (hgrp : ∀ l, (ho.grp l).Perm l)
    {Q : R → Prop} (p : Prog E C D R) (hw : p.wp A Rd cont True (fun r _ => Q r) ⟨0, []⟩) :
    ∃ r s', p.run B ho (newTree B) = .ok (r, s') ∧ Q r := by
  obtain ⟨r, s', h1, -, h2⟩ := C72_programs hE K L hho hcur hgrp p (s := newTree B) (C27_clear A _ (newTree B)).2.2.2.2 hw
  exact ⟨r, s', h1, h2⟩

/-- A program may be followed by another one: the sequence is all that is passed on, besides the result. -/
theorem C72_bind {A : Law B} {Rd : C → D → C → Prop} {cont : E → List X} {dr : Prop} {Q : R' → Seq E → Prop} (f : R → Prog E C D R') (p : Prog E C D R) :
    ∀ {t : Seq E}, (p.bind f).wp A Rd cont dr Q t ↔ p.wp A Rd cont dr (fun r t' => (f r).wp A Rd cont dr Q t') t := by
  induction p with
  | ret r => intro t; exact Iff.rfl
  | call c k ih =>
    intro t
    exact and_congr Iff.rfl (forall_congr' fun x => forall_congr' fun t' => imp_congr Iff.rfl (imp_congr Iff.rfl (ih x)))

theorem C72_mono {A : Law B} {Rd : C → D → C → Prop} {cont : E → List X} {dr : Prop} {Q Q' : R → Seq E → Prop} (h : ∀ r t, Q r t → Q' r t) (p : Prog E C D R) :
    ∀ {t : Seq E}, p.wp A Rd cont dr Q t → p.wp A Rd cont dr Q' t := by
  induction p with
  | ret r => intro t; exact h r t
  | call c k ih => exact fun hw => ⟨hw.1, fun x t' hx ht => ih x (hw.2 x t' hx ht)⟩

/-- walk through the tree with `next_elem`, reading the element of every leaf -/
def walkFrom : Nat → Option Cursor → List E → Prog E C D (List E)
  | n + 1, some c, acc => .call (.get c.leaf) fun x => .call (.next c) fun c' => walkFrom n c' (acc ++ x.toList)
  | _, _, acc => .ret acc

def walk (n : Nat) : Prog E C D (List E) := .call .startCursor fun c => walkFrom n c []

theorem walkFrom_wp {A : Law B} {Rd : C → D → C → Prop} {cont : E → List X} {dr : Prop} {t : Seq E} (ht : (t.es.map Prod.fst).Nodup) : ∀ (n : Nat) (U V : List (Nat × E)),
    t.es = U ++ V → V.length ≤ n → (walkFrom n (V.head?.map fun y => ⟨y.1, 0⟩) (U.map Prod.snd)).wp A Rd cont dr (fun r t' => r = t.es.map Prod.snd ∧ t' = t) t := by
  intro n
  induction n with
  | zero =>
    intro U V hes hV
    cases V with
    | nil => rw [List.append_nil] at hes; simp [walkFrom, Prog.wp, hes]
    | cons v V => simp at hV
  | succ n ih =>
    intro U V hes hV
    cases V with
    | nil => rw [List.append_nil] at hes; simp [walkFrom, Prog.wp, hes]
    | cons v V =>
      obtain ⟨l, e⟩ := v
      have hloc := locate_split ht hes
      refine ⟨trivial, fun x t' hx _ => ⟨?_, fun c' t'' hc _ => ?_⟩⟩
      · rw [hx.2]
        exact ⟨e, by rw [hes]; simp⟩
      · obtain ⟨hx1, rfl⟩ := hx
        obtain ⟨rfl, hc⟩ := hc
        have hx1 : x = some e := by
          rw [hx1]
          show (locate l t''.es).map _ = _
          rw [hloc]; rfl
        have hc : c' = V.head?.map fun y => ⟨y.1, 0⟩ := by
          rw [hc]
          show (locate l t''.es).bind _ = _
          rw [hloc]; rfl
        rw [hx1, hc]
        have := ih (U ++ [(l, e)]) V (by rw [hes]; simp) (by simpa using hV)
        rwa [List.map_append] at this

/-- A walk with `next_elem` from `start_cursor` meets the elements of the tree in order, in any tree. -/
theorem C72_walk {A : Law B} {Rd : C → D → C → Prop} {cont : E → List X} (K : ContentLaw B A.okE cont)
    (L : DiffLaw A Rd) {ho : HashOrd E} (hho : ∀ l, (ho.idx l).Perm l) (hcur : ∀ l, (ho.cur l).Perm l) (hgrp : ∀ l, (ho.grp l).Perm l)
    {s : Tree E C} (hi : Inv A 5 s) {n : Nat} (hn : (abs s).es.length ≤ n) :
    ∃ s', (walk n).run B ho s = .ok ((abs s).es.map Prod.snd, s') ∧ abs s' = abs s := by
  obtain ⟨r, s', h1, -, rfl, h3⟩ := C72_programs_no_drain K L hho hcur hgrp (Q := fun r t' => r = (abs s).es.map Prod.snd ∧ t' = abs s) (walk n) hi
    ⟨trivial, fun x t' hx _ => by
      obtain ⟨rfl, rfl⟩ := hx
      exact walkFrom_wp hi.fine.nodup n [] _ rfl hn⟩
  exact ⟨s', h1, h3⟩

/-- insert at the position found by a query, or at the end of an empty tree: what `insert` does (src/lib.rs:499) -/
def insertAtPos (getLen : C → Nat) (i : Nat) (e : E) : Prog E C D Unit :=
  .call (.find getLen i) fun
    | none => .call (.push e) fun _ => .ret ()
    | some r => .call (.insertAt r.cursor e) fun _ => .ret ()

/-- `FoundAt` fixes where an insertion goes. -/
theorem C72_insert_at {A : Law B} {Rd : C → D → C → Prop} {cont : E → List X} (K : ContentLaw B A.okE cont) {dr : Prop} {getLen : C → Nat} (LL : LenLaw A getLen)
    {i : Nat} {e : E} (he : A.okE e) {t : Seq E} (ht : SeqFine A t) (hi : i ≤ unitLen B t.es) :
    (insertAtPos getLen i e).wp A Rd cont dr (fun _ t' => content cont t'.es = splice (content cont t.es) i (cont e) ∧ t'.es.length ≤ t.es.length + 2) t := by
  refine ⟨LL, fun x t' hx _ => ?_⟩
  obtain ⟨rfl, h1, h2⟩ := hx
  by_cases hes : t'.es = []
  · rw [h1 hes]
    refine ⟨he, fun c t2 hc _ => ?_⟩
    have hc : specPush B t' e = .ok (c, t2) := hc
    rw [specPush, hes] at hc
    cases hc
    rw [hes] at hi
    simp [Prog.wp, content, splice, hes]
  · obtain ⟨U, c, y, V, fa, rfl⟩ := h2 hes
    have hoff : c.offset ≤ B.rleLen y := by
      rcases Nat.lt_or_ge i (unitLen B t'.es) with h | h
      · exact Nat.le_of_lt (fa.inside h)
      · exact Nat.le_of_eq (fa.last (Nat.le_antisymm hi h))
    refine ⟨⟨he, y, by rw [fa.es]; simp, hoff⟩, fun r t2 hr _ => ?_⟩
    have := specInsert_content' K (locate_split ht.nodup fa.es) ht.ok he A rfl hr
    rw [fa.pos] at this
    obtain ⟨M, hM, -, hM3, -⟩ := specInsert_local (locate_split ht.nodup fa.es) hr
    refine ⟨this, ?_⟩
    rw [hM, fa.es]
    simp only [List.length_append, List.length_cons]
    omega

/-- take the first leaf out until nothing is left, at most `n` times; returns what was taken out -/
def popAll : Nat → List E → Prog E C D (List E × Bool)
  | 0, acc => .call .isEmpty fun b => .ret (acc, b)
  | n + 1, acc => .call .firstLeaf fun
    | none => .call .isEmpty fun b => .ret (acc, b)
    | some l => .call (.remove ⟨l, 0⟩) fun x => popAll n (acc ++ x.toList)

theorem popAll_wp {A : Law B} {Rd : C → D → C → Prop} {cont : E → List X} {dr : Prop} : ∀ (n : Nat) (acc : List E) (t : Seq E), t.es.length ≤ n →
    (popAll n acc).wp A Rd cont dr (fun r t' => r = (acc ++ t.es.map Prod.snd, true) ∧ t'.es = []) t := by
  intro n
  induction n with
  | zero =>
    intro acc t ht
    have ht : t.es = [] := List.length_eq_zero_iff.mp (Nat.le_zero.mp ht)
    refine ⟨trivial, fun x t' hx _ => ?_⟩
    obtain ⟨rfl, rfl⟩ := hx
    simp [Prog.wp, ht]
  | succ n ih =>
    intro acc t ht
    refine ⟨trivial, fun x t' hx _ => ?_⟩
    obtain ⟨rfl, rfl⟩ := hx
    cases hes : t'.es with
    | nil =>
      refine ⟨trivial, fun x t' hx _ => ?_⟩
      obtain ⟨rfl, rfl⟩ := hx
      simp [Prog.wp, hes]
    | cons v V =>
      obtain ⟨l, e⟩ := v
      refine ⟨trivial, fun x t2 hx _ => ?_⟩
      have hx : specRemove t' l = (x, t2) := hx
      rw [specRemove, hes] at hx
      simp only [locate, if_true, List.nil_append] at hx
      cases hx
      have := ih (acc ++ [e]) ⟨t'.next, V⟩ (by rw [hes] at ht; simpa using ht)
      simpa using this

/-- Popping the first leaf until the tree is empty returns the elements in order; the tree says that it is empty then.  Any tree, also one that `drain` has thinned out. -/
theorem C72_pop_all {A : Law B} (hE : LawE A) {Rd : C → D → C → Prop} {cont : E → List X} (K : ContentLaw B A.okE cont)
    (L : DiffLaw A Rd) {ho : HashOrd E} (hho : ∀ l, (ho.idx l).Perm l) (hcur : ∀ l, (ho.cur l).Perm l) (hgrp : ∀ l, (ho.grp l).Perm l)
    {s : Tree E C} (hi : Inv A ⟨1, 4⟩ s) {n : Nat} (hn : (abs s).es.length ≤ n) :
    ∃ s', (popAll n []).run B ho s = .ok (((abs s).es.map Prod.snd, true), s') ∧ (abs s').es = [] := by
  obtain ⟨r, s', h1, -, rfl, h3⟩ := C72_programs hE K L hho hcur hgrp (popAll n []) hi (popAll_wp n [] (abs s) hn)
  exact ⟨s', h1, h3⟩

/-- go through the tree in steps of one unit, at most `n`; returns the number of units met -/
def stepFrom : Nat → Cursor → Nat → Prog E C D Nat
  | 0, _, k => .ret k
  | n + 1, c, k => .call (.shift c) fun
    | none => .ret k
    | some c' => stepFrom n c' (k + 1)

def countUnits (n : Nat) : Prog E C D Nat := .call .startCursor fun
  | none => .ret 0
  | some c => stepFrom n c 1

theorem stepFrom_wp {A : Law B} {Rd : C → D → C → Prop} {cont : E → List X} {dr : Prop} {t : Seq E} : ∀ (n i : Nat) (c : Cursor),
    posOf B t c = some i → (∃ e, (c.leaf, e) ∈ t.es ∧ c.offset < B.rleLen e) → i < unitLen B t.es → unitLen B t.es ≤ i + 1 + n →
    (stepFrom n c (i + 1)).wp A Rd cont dr (fun r t' => r = unitLen B t.es ∧ t' = t) t := by
  intro n
  induction n with
  | zero => intro i c _ _ h1 h2; exact ⟨by omega, rfl⟩
  | succ n ih =>
    intro i c hp he h1 h2
    refine ⟨he, fun x t' hx _ => ?_⟩
    obtain ⟨rfl, j, hj, k1, k2⟩ := hx
    rw [hp] at hj
    cases hj
    cases x with
    | none => exact ⟨k1.mp rfl, rfl⟩
    | some c' =>
      obtain ⟨k3, k4⟩ := k2 c' rfl
      have k5 : i + 1 ≠ unitLen B t'.es := fun h => by cases k1.mpr h
      exact ih (i + 1) c' k3 k4 (by omega) (by omega)

/-- Stepping with `shift_path_by_one_offset` from `start_cursor` meets every unit once, in any tree whose first element is not of length zero. -/
theorem C72_steps {A : Law B} {Rd : C → D → C → Prop} {cont : E → List X} (K : ContentLaw B A.okE cont)
    (L : DiffLaw A Rd) {ho : HashOrd E} (hho : ∀ l, (ho.idx l).Perm l) (hcur : ∀ l, (ho.cur l).Perm l) (hgrp : ∀ l, (ho.grp l).Perm l)
    {s : Tree E C} (hi : Inv A 5 s) (hpos : ∀ l e V, (abs s).es = (l, e) :: V → 0 < B.rleLen e) {n : Nat} (hn : unitLen B (abs s).es ≤ n) :
    ∃ s', (countUnits n).run B ho s = .ok (unitLen B (abs s).es, s') ∧ abs s' = abs s := by
  obtain ⟨r, s', h1, -, rfl, h3⟩ := C72_programs_no_drain K L hho hcur hgrp (Q := fun r t' => r = unitLen B (abs s).es ∧ t' = abs s) (countUnits n) hi
    ⟨trivial, fun x t' hx _ => by
      obtain ⟨rfl, rfl⟩ := hx
      cases hes : (abs s).es with
      | nil => exact ⟨rfl, rfl⟩
      | cons v V =>
        obtain ⟨l, e⟩ := v
        have h0 := hpos l e V hes
        rw [← hes, show (abs s).es.head? = some (l, e) by rw [hes]; rfl]
        have hp := posOf_split (B := B) (c := ⟨l, 0⟩) (U := []) hi hes
        refine stepFrom_wp n 0 ⟨l, 0⟩ hp ⟨e, by rw [hes]; simp, h0⟩ ?_ (by omega)
        rw [hes, unitLen, List.map_cons, List.sum_cons]
        exact Nat.lt_of_lt_of_le h0 (Nat.le_add_right _ _)⟩
  exact ⟨s', h1, h3⟩

/-! ## Cases -/

private abbrev ho1 : HashOrd GapBuf := ⟨List.reverse, List.reverse, List.reverse⟩

/-- three levels, walked through -/
example : ∃ s', (walk 30).run (D := Int) ropeTrait ho1 ropeSample = .ok ((List.range 30).map (fun i => ⟨[UInt8.ofNat i, 1, 2, 0], 3, 1⟩), s') := by
  obtain ⟨s', h1, -⟩ := C72_walk (ho := ho1) (ropeContent 4) (C21_rope_diffs 4) List.reverse_perm List.reverse_perm List.reverse_perm ropeSample_spec.1 (n := 30)
    (by rw [ropeSample_spec.2]; decide)
  refine ⟨s', h1.trans ?_⟩
  rw [ropeSample_spec.2, List.map_map]
  rfl

/-- stepped through -/
example : ∃ s', (countUnits 90).run (D := Int) ropeTrait ho1 ropeSample = .ok (90, s') := by
  obtain ⟨s', h1, -⟩ := C72_steps (ho := ho1) (ropeContent 4) (C21_rope_diffs 4) List.reverse_perm List.reverse_perm List.reverse_perm ropeSample_spec.1
    (fun l e V h => by
      rw [ropeSample_spec.2] at h
      cases h
      decide) (n := 90) (by rw [ropeSample_spec.2]; decide)
  rw [show unitLen ropeTrait (abs ropeSample).es = 90 by rw [ropeSample_spec.2]; decide] at h1
  exact ⟨s', h1⟩

private def chunk72 (i : Nat) : GapBuf := ⟨[UInt8.ofNat i, 1, 2, 0], 3, 1⟩

/-- a search for the chunk where 20 units are reached (with a finder that is not in the crate), `depth`, `check`, `node_len`, and two items of a filter with a state -/
example : ∃ (d n : Nat) (xs : List (Option (Unit × GapBuf)) × Nat) (s' : Tree GapBuf Int),
    (Prog.call (.search (scanQuery ropeTrait (ropeLaw 4).total) (fun c => decide ((20 : Int) ≤ c))) fun r =>
      .call .depth fun d => .call (.check inferInstance) fun _ => .call .nodeLen fun n =>
      .call (.filterSt () (fun _ _ => ()) (fun k c => (k + 1, decide (c < 4), ())) 0 2) fun xs => .ret (r.1, d, n, xs)).run ropeTrait ho1 ropeSample =
        .ok ((some ⟨⟨6, 0⟩, true⟩, d, n, xs), s') ∧ 2 ≤ d ∧ d ≤ 3 ∧ 31 ≤ n ∧ n ≤ 40 ∧ xs.1.length = 2 := by
  have hi := ropeSample_spec.1
  have h30 : (abs ropeSample).es.length = 30 := by rw [ropeSample_spec.2]; decide
  have hne : (abs ropeSample).es ≠ [] := by rw [ropeSample_spec.2]; simp
  have hfl := fun es => scan_law (ropeLaw 4) (fun c => decide ((20 : Int) ≤ c)) es ropeTwenty
  obtain ⟨r, s', h1, -, h2⟩ := C72_programs_no_drain (ho := ho1) (ropeContent 4) (C21_rope_diffs 4) List.reverse_perm List.reverse_perm List.reverse_perm
    (Q := fun r _ => r.1 = some ⟨⟨6, 0⟩, true⟩ ∧ 2 ≤ r.2.1 ∧ r.2.1 ≤ 3 ∧ 31 ≤ r.2.2.1 ∧ r.2.2.1 ≤ 40 ∧ r.2.2.2.1.length = 2)
    (Prog.call (.search (scanQuery ropeTrait (ropeLaw 4).total) (fun c => decide ((20 : Int) ≤ c))) fun r =>
      .call .depth fun d => .call (.check inferInstance) fun _ => .call .nodeLen fun n =>
      .call (.filterSt () (fun _ _ => ()) (fun k c => (k + 1, decide (c < 4), ())) 0 2) fun xs => .ret (r.1, d, n, xs)) hi (by
    refine ⟨fun _ => ⟨_, _, _, hfl _, fun U e W fd _ _ _ => ⟨_, rfl⟩⟩, fun x t' hx _ => ?_⟩
    obtain ⟨rfl, -, hx⟩ := hx
    obtain ⟨U, l, e, W, fd, found, r, k1, k2, k3, k4, k5, rfl⟩ := hx _ _ _ hne (hfl _)
    have k0 : ((abs ropeSample).es.map Prod.snd) = (List.range 6).map chunk72 ++ chunk72 6 :: (List.range' 7 23).map chunk72 := by rw [ropeSample_spec.2]; decide
    have hu := (C75_unique ropeTwenty k2 (U' := (List.range 6).map chunk72) (e' := chunk72 6) (W' := (List.range' 7 23).map chunk72)
      ⟨fun _ => by decide, fun _ => by decide⟩ (by rw [← k0, k1]; simp)).1
    have hl : U.length = 6 := by simpa using congrArg List.length hu
    have hl : (abs ropeSample).es[6]? = some (l, e) := by rw [k1, ← hl]; simp
    rw [ropeSample_spec.2] at hl
    cases hl
    have hall : found = true := (k4 trivial).trans (by rw [k0]; decide)
    subst hall
    cases k5
    have hc : (ropeLaw 4).total (fd ++ [ropeTrait.elemCache (chunk72 6)]) = 21 := by rw [k3.2, hu]; decide
    refine ⟨hne, fun d t' hd _ => ?_⟩
    obtain ⟨rfl, hd⟩ := hd
    refine ⟨⟨by rw [Small, h30]; decide, hne⟩, fun _ t' ht _ => ?_⟩
    cases ht
    refine ⟨trivial, fun n t' hn _ => ?_⟩
    obtain ⟨rfl, hn1, d', hd', hn2⟩ := hn
    refine ⟨trivial, fun xs t' hx _ => ?_⟩
    obtain ⟨rfl, hx, -⟩ := hx
    have lv : ∀ d, Levels d 30 → 2 ≤ d ∧ d ≤ 3 := by
      intro d ⟨l1, l2, l3⟩
      rcases Nat.lt_or_ge d 2 with h | h
      · have : d = 1 := by omega
        subst this
        omega
      · refine ⟨h, Decidable.byContradiction fun h4 => ?_⟩
        have h5 := l3 h
        have h6 : 5 ^ 3 ≤ 5 ^ (d - 1) := Nat.pow_le_pow_right (by decide) (by omega)
        omega
    rw [h30] at hd hd' hn1 hn2
    have h3 := lv d hd
    have h4 := lv d' hd'
    refine ⟨?_, h3.1, h3.2, hn1, by show n ≤ 40; omega, hx⟩
    show some (QueryResult.mk ⟨6, 0⟩ (true && decide ((20 : Int) ≤ (ropeLaw 4).total (fd ++ [ropeTrait.elemCache (chunk72 6)])))) = _
    rw [hc]
    rfl)
  obtain ⟨a, d, n, xs⟩ := r
  obtain ⟨rfl, h2⟩ := h2
  exact ⟨d, n, xs, s', h1, h2⟩

/-- insert in the middle, then take everything out leaf by leaf -/
example : ∃ (es : List GapBuf) (s' : Tree GapBuf Int), ((insertAtPos (D := Int) ropeLen 7 (⟨[9, 9, 0, 0], 2, 2⟩ : GapBuf)).bind fun _ => popAll 40 []).run ropeTrait ho1 ropeSample = .ok ((es, true), s') ∧
    es.flatMap GapBuf.toVec = splice ((List.range 30).flatMap fun i => [UInt8.ofNat i, 1, 2]) 7 [9, 9] := by
  have hi := ropeSample_spec.1
  have hi' : Inv (ropeLaw 4) ⟨1, 4⟩ ropeSample := by
    obtain ⟨h, hi⟩ := hi
    exact ⟨h, hi.ex, hi.sz.mono (by decide) (by decide)⟩
  have hc : content GapBuf.toVec (abs ropeSample).es = (List.range 30).flatMap fun i => [UInt8.ofNat i, 1, 2] := by rw [ropeSample_spec.2]; decide
  obtain ⟨r, s', h1, -, h2⟩ := C72_programs (ho := ho1) (ropeLawE 4) (ropeContent 4) (C21_rope_diffs 4) List.reverse_perm List.reverse_perm List.reverse_perm
    (Q := fun r _ => r.2 = true ∧ r.1.flatMap GapBuf.toVec = splice ((List.range 30).flatMap fun i => [UInt8.ofNat i, 1, 2]) 7 [9, 9])
    ((insertAtPos (D := Int) ropeLen 7 (⟨[9, 9, 0, 0], 2, 2⟩ : GapBuf)).bind fun _ => popAll 40 []) hi' (by
      rw [C72_bind]
      refine C72_mono (fun _ t ht => ?_) _ (C72_insert_at (ropeContent 4) (ropeLenLaw 4) (by exact ⟨by simp [GapBuf.WF], rfl⟩) hi.fine (by rw [ropeSample_spec.2]; decide))
      refine C72_mono (fun r t' hr => ?_) _ (popAll_wp 40 [] t (by have := ht.2; rw [ropeSample_spec.2] at this; simp at this; omega))
      rw [hr.1, List.nil_append, ← hc]
      refine ⟨rfl, ?_⟩
      rw [List.flatMap_map]
      exact ht.1)
  obtain ⟨es, b⟩ := r
  obtain ⟨rfl, h2⟩ := h2
  exact ⟨es, s', h1, h2⟩

/-- cursors returned by calls are used in later ones: two chunks are pushed, the range between the middle of the first and the middle of the second is drained,
and what is left is read -/
example : ∃ s', (Prog.call (.push (⟨[1, 2, 3, 0], 3, 1⟩ : GapBuf)) fun a => .call (.push ⟨[4, 5, 6, 0], 3, 1⟩) fun b =>
      .call (.drain ⟨a.leaf, 1⟩ ⟨b.leaf, 2⟩ 1) fun d => .call .iter fun es => .call .rootCache fun n => .ret (d.1.map GapBuf.toVec, d.2.map GapBuf.toVec, es.map GapBuf.toVec, n)).run ropeTrait ho1 (newTree ropeTrait) =
    .ok (([[2, 3]], [[4, 5]], [[1], [6]], (2 : Int)), s') := by
  obtain ⟨r, s', h1, h2⟩ := C72_new (ho := ho1) (ropeLawE 4) (ropeContent 4) (C21_rope_diffs 4) List.reverse_perm List.reverse_perm List.reverse_perm
    (Q := fun r => r = ([[2, 3]], [[4, 5]], [[1], [6]], (2 : Int)))
    (Prog.call (.push (⟨[1, 2, 3, 0], 3, 1⟩ : GapBuf)) fun a => .call (.push ⟨[4, 5, 6, 0], 3, 1⟩) fun b =>
      .call (.drain ⟨a.leaf, 1⟩ ⟨b.leaf, 2⟩ 1) fun d => .call .iter fun es => .call .rootCache fun n => .ret (d.1.map GapBuf.toVec, d.2.map GapBuf.toVec, es.map GapBuf.toVec, n)) (by
    refine ⟨c49_ok 1 2 3 0, fun a t1 ha _ => ?_⟩
    cases ha
    refine ⟨c49_ok 4 5 6 0, fun b t2 hb _ => ?_⟩
    cases hb
    refine ⟨⟨trivial, by show 2 < 390626; decide, ⟨[], ⟨[1, 2, 3, 0], 3, 1⟩, [(1, ⟨[4, 5, 6, 0], 3, 1⟩)], [(0, ⟨[1, 2, 3, 0], 3, 1⟩)], ⟨[4, 5, 6, 0], 3, 1⟩, [], rfl, by decide,
      rfl, by decide, .inl ⟨[], rfl⟩, .inr (.inl (by decide))⟩, ?_⟩, fun d t3 hd _ => ?_⟩
    · intro L x R n h
      cases h
      decide
    obtain ⟨Y, hd, rfl⟩ := hd
    cases hd
    refine ⟨by show 2 < 390626; decide, fun es t4 hes _ => ?_⟩
    obtain ⟨rfl, rfl⟩ := hes
    refine ⟨List.cons_ne_nil _ _, fun n t5 hn _ => ?_⟩
    obtain ⟨rfl, rfl⟩ := hn
    rfl)
  rw [← h2]
  exact ⟨s', h1⟩

example := C72_pop_all (ropeLawE 4) (ropeContent 4) (C21_rope_diffs 4) (ho := ⟨List.reverse, List.reverse, List.reverse⟩) List.reverse_perm List.reverse_perm List.reverse_perm
  (s := ropeSample) (let ⟨h, hi⟩ := ropeSample_spec.1; ⟨h, hi.ex, Sz.mono hi.sz (by decide) (by decide)⟩) (n := 30) (by rw [ropeSample_spec.2]; decide)

end GB
