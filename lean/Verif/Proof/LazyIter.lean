import Verif.Model.LazyIter
import Verif.Proof.Util
import Verif.Proof.Push

/-!
# The lists that the iterators yield
-/

namespace GB
variable {E C D X S : Type}
open Tree

/-- If `next` follows the relation `R` between the states and what is left to yield, its answers are those of the list. -/
theorem calls_spec {next : S → M (Option X × S)} {R : S → List X → Prop}
    (hcons : ∀ it x xs, R it (x :: xs) → ∃ it', next it = .ok (some x, it') ∧ R it' xs)
    (hnil : ∀ it, R it [] → ∃ it', next it = .ok (none, it') ∧ R it' []) :
    ∀ (k : Nat) (it : S) (xs : List X), R it xs → ∃ it', calls next k it = .ok ((List.range k).map (fun i => xs[i]?), it') ∧ R it' (xs.drop k) := by
  intro k
  induction k with
  | zero => intro it xs h; exact ⟨it, rfl, h⟩
  | succ k ih =>
    intro it xs h
    have hr : ∀ l : List X, (List.range (k + 1)).map (fun i => l[i]?) = l[0]? :: (List.range k).map (fun i => l[i + 1]?) := by
      intro l
      rw [List.range_succ_eq_map, List.map_cons, List.map_map]
      rfl
    cases xs with
    | nil =>
      obtain ⟨it1, h1, h2⟩ := hnil it h
      obtain ⟨it2, h3, h4⟩ := ih it1 [] h2
      refine ⟨it2, ?_, by simpa using h4⟩
      rw [calls, h1, bind_ok]
      simp only [h3, bind_ok, pure_ok]
      rw [hr]
      simp
    | cons x xs =>
      obtain ⟨it1, h1, h2⟩ := hcons it x xs h
      obtain ⟨it2, h3, h4⟩ := ih it1 xs h2
      refine ⟨it2, ?_, by simpa using h4⟩
      rw [calls, h1, bind_ok]
      simp only [h3, bind_ok, pure_ok]
      rw [hr]
      simp

theorem nextSibling_ne_nil (s : Tree E C) (p : List PIdx) : nextSibling s p ≠ .ok (some []) := by
  intro h
  match p, h with
  | [], h => cases h
  | [_], h => cases h
  | this :: parent :: rest, h =>
    simp only [nextSibling] at h
    obtain ⟨par, -, h⟩ := bind_inv h
    split at h
    · cases h
    · obtain ⟨r, -, h⟩ := bind_inv h
      split at h
      · cases h
      · cases h
      · obtain ⟨par', -, h⟩ := bind_inv h
        obtain ⟨c, -, h⟩ := bind_inv h
        cases h

/-! ## `iter` -/

/-- the iterator `it` has the elements `xs` before it -/
def ElemLeft (s : Tree E C) (n : Nat) (it : ElemIter C) (xs : List E) : Prop :=
  it.path = [] ∧ xs = [] ∨
  it.path ≠ [] ∧ ∃ es1 es2, leafElems s it.rest = .ok es1 ∧ xs = es1 ++ es2 ∧
    ((nextSibling s it.path = .ok none ∧ es2 = []) ∨ ∃ p, nextSibling s it.path = .ok (some p) ∧ iterF n s p = .ok es2)

/-- what a successful run of the loop says about the next node -/
theorem iterF_left {s : Tree E C} {n : Nat} {p : List PIdx} {es : List E} (h : iterF n s p = .ok es) :
    p = [] ∧ es = [] ∨ ∃ i path N, p = i :: path ∧ s.getInIdx i.arena = .ok N ∧ ElemLeft s (n - 1) ⟨p, N.children⟩ es := by
  cases n with
  | zero => cases h
  | succ n =>
    cases p with
    | nil => cases h; exact .inl ⟨rfl, rfl⟩
    | cons i path =>
      simp only [iterF] at h
      obtain ⟨N, h1, h⟩ := bind_inv h
      obtain ⟨es1, h2, h⟩ := bind_inv h
      obtain ⟨r, h3, h⟩ := bind_inv h
      refine .inr ⟨i, path, N, rfl, h1, .inr ⟨List.cons_ne_nil _ _, ?_⟩⟩
      cases r with
      | none => cases h; exact ⟨_, [], h2, by simp, .inl ⟨h3, rfl⟩⟩
      | some p' =>
        obtain ⟨es2, h4, h⟩ := bind_inv h
        cases h
        exact ⟨es1, es2, h2, rfl, .inr ⟨p', h3, h4⟩⟩

theorem elemLeft_mono {s : Tree E C} {it : ElemIter C} {xs : List E} {n n' : Nat} (hmono : ∀ p es, iterF n s p = .ok es → iterF n' s p = .ok es)
    (h : ElemLeft s n it xs) : ElemLeft s n' it xs := by
  rcases h with h | ⟨h0, es1, es2, h1, h2, h3 | ⟨p, h3, h4⟩⟩
  · exact .inl h
  · exact .inr ⟨h0, es1, es2, h1, h2, .inl h3⟩
  · exact .inr ⟨h0, es1, es2, h1, h2, .inr ⟨p, h3, hmono p es2 h4⟩⟩

theorem iterF_succ {s : Tree E C} : ∀ (n : Nat) (p : List PIdx) (es : List E), iterF n s p = .ok es → iterF (n + 1) s p = .ok es
  | 0, _, _, h => by cases h
  | n + 1, [], _, h => h
  | n + 1, i :: path, es, h => by
    rw [iterF] at h
    obtain ⟨N, h1, h⟩ := bind_inv h
    obtain ⟨es1, h2, h⟩ := bind_inv h
    obtain ⟨r, h3, h⟩ := bind_inv h
    rw [iterF, h1, bind_ok, h2, bind_ok, h3, bind_ok]
    cases r with
    | none => exact h
    | some p' =>
      obtain ⟨es2, h4, h⟩ := bind_inv h
      simp only [iterF_succ n p' es2 h4, bind_ok]
      exact h

theorem iterF_le {s : Tree E C} {n n' : Nat} (hn : n ≤ n') {p : List PIdx} {es : List E} (h : iterF n s p = .ok es) : iterF n' s p = .ok es := by
  induction hn with
  | refl => exact h
  | step _ ih => exact iterF_succ _ p es ih

theorem elemNextF_spec {s : Tree E C} : ∀ (n f : Nat) (it : ElemIter C) (xs : List E), n < f → ElemLeft s n it xs →
    (∀ x ys, xs = x :: ys → ∃ it', elemNextF s f it = .ok (some x, it') ∧ ElemLeft s n it' ys) ∧
    (xs = [] → ∃ it', elemNextF s f it = .ok (none, it') ∧ ElemLeft s n it' []) := by
  intro n
  induction n with
  | zero =>
    intro f it xs hf h
    obtain ⟨f, rfl⟩ : ∃ g, f = g + 1 := ⟨f - 1, by omega⟩
    rcases h with ⟨h0, rfl⟩ | ⟨h0, es1, es2, h1, rfl, h3⟩
    · refine ⟨fun _ _ h => (nomatch h), fun _ => ⟨it, ?_, .inl ⟨h0, rfl⟩⟩⟩
      rw [elemNextF, if_pos h0]
    · rcases h3 with ⟨h3, rfl⟩ | ⟨p, -, h4⟩
      · rw [List.append_nil]
        rw [elemNextF, if_neg h0]
        cases hr : it.rest with
        | nil =>
          rw [hr] at h1
          cases h1
          refine ⟨fun _ _ h => (nomatch h), fun _ => ⟨it, ?_, .inr ⟨h0, [], [], by rw [hr]; rfl, rfl, .inl ⟨h3, rfl⟩⟩⟩⟩
          simp only [h3, bind_ok, pure_ok]
        | cons c cs =>
          rw [hr, leafElems] at h1
          obtain ⟨l, k1, h1⟩ := bind_inv h1
          obtain ⟨L, k2, h1⟩ := bind_inv h1
          obtain ⟨es, k3, h1⟩ := bind_inv h1
          cases h1
          refine ⟨fun x ys h => ?_, fun h => (nomatch h)⟩
          cases h
          refine ⟨⟨it.path, cs⟩, by simp only [k1, k2, bind_ok, pure_ok], .inr ⟨h0, _, [], k3, by simp, .inl ⟨h3, rfl⟩⟩⟩
      · cases h4
  | succ n ih =>
    intro f it xs hf h
    obtain ⟨f, rfl⟩ : ∃ g, f = g + 1 := ⟨f - 1, by omega⟩
    rcases h with ⟨h0, rfl⟩ | ⟨h0, es1, es2, h1, rfl, h3⟩
    · refine ⟨fun _ _ h => (nomatch h), fun _ => ⟨it, ?_, .inl ⟨h0, rfl⟩⟩⟩
      rw [elemNextF, if_pos h0]
    · rw [elemNextF, if_neg h0]
      cases hr : it.rest with
      | cons c cs =>
        rw [hr, leafElems] at h1
        obtain ⟨l, k1, h1⟩ := bind_inv h1
        obtain ⟨L, k2, h1⟩ := bind_inv h1
        obtain ⟨es, k3, h1⟩ := bind_inv h1
        cases h1
        refine ⟨fun x ys h => ?_, fun h => (nomatch h)⟩
        cases h
        exact ⟨⟨it.path, cs⟩, by simp only [k1, k2, bind_ok, pure_ok], .inr ⟨h0, es, es2, k3, rfl, h3⟩⟩
      | nil =>
        rw [hr] at h1
        cases h1
        rw [List.nil_append]
        rcases h3 with ⟨h3, rfl⟩ | ⟨p, h3, h4⟩
        · refine ⟨fun _ _ h => (nomatch h), fun _ => ⟨it, ?_, .inr ⟨h0, [], [], by rw [hr]; rfl, rfl, .inl ⟨h3, rfl⟩⟩⟩⟩
          simp only [h3, bind_ok, pure_ok]
        · simp only [h3, bind_ok]
          rcases iterF_left h4 with ⟨rfl, rfl⟩ | ⟨i, path, N, rfl, k1, k2⟩
          · exact absurd h3 (nextSibling_ne_nil s it.path)
          · simp only [List.head?_cons, unwrap, bind_ok, k1]
            obtain ⟨q1, q2⟩ := ih f ⟨i :: path, N.children⟩ es2 (by omega) k2
            refine ⟨fun x ys h => ?_, fun h => ?_⟩
            · obtain ⟨it', r1, r2⟩ := q1 x ys h
              exact ⟨it', r1, elemLeft_mono (fun p es h => iterF_succ n p es h) r2⟩
            · obtain ⟨it', r1, r2⟩ := q2 h
              exact ⟨it', r1, elemLeft_mono (fun p es h => iterF_succ n p es h) r2⟩

/-- Whenever running `iter` to its end gives `es`, the lazy iterator gives their answers one by one. -/
theorem elemIter_spec {s : Tree E C} {es : List E} (hr : ∃ N, s.getIn s.root = .ok N) (h : iter s = .ok es) :
    ∃ it, elemIter s = .ok it ∧ ∀ k, ∃ it', calls (elemNext s) k it = .ok ((List.range k).map (fun i => es[i]?), it') := by
  rw [iter] at h
  obtain ⟨p, h1, h⟩ := bind_inv h
  have hstep : ∀ it : ElemIter C, ElemLeft s s.fuel it es → ∀ k, ∃ it', calls (elemNext s) k it = .ok ((List.range k).map (fun i => es[i]?), it') := by
    intro it hit k
    obtain ⟨it', h2, -⟩ := calls_spec (next := elemNext s) (R := ElemLeft s s.fuel)
      (fun it x xs h => (elemNextF_spec s.fuel (s.fuel + 1) it (x :: xs) (by omega) h).1 x xs rfl)
      (fun it h => (elemNextF_spec s.fuel (s.fuel + 1) it [] (by omega) h).2 rfl) k it es hit
    exact ⟨it', h2⟩
  rcases iterF_left h with ⟨hp, rfl⟩ | ⟨i, path, N, hp, k1, k2⟩
  · obtain ⟨N, hN⟩ := hr
    refine ⟨⟨[], N.children⟩, ?_, hstep _ (.inl ⟨rfl, rfl⟩)⟩
    simp only [elemIter, h1, bind_ok, hp]
    simp only [List.head?_nil, Option.getD_none, getInIdx, Idx.unwrapInternal, bind_ok, hN, pure_ok]
  · refine ⟨⟨i :: path, N.children⟩, ?_, hstep _ ?_⟩
    · simp only [elemIter, h1, bind_ok, hp]
      simp only [List.head?_cons, Option.getD_some, k1, bind_ok, pure_ok]
    · rw [hp] at k2
      exact elemLeft_mono (fun p es h => iterF_le (by omega) h) k2

/-! ## `iter_range` -/

/-- the iterator `it` has the leaves `xs` before it -/
def NodesLeft (s : Tree E C) (n : Nat) (it : NodeIter) (xs : List (List PIdx × LeafNode E)) : Prop :=
  it.done = true ∧ xs = [] ∨ it.done = false ∧ iterNodesF n s it.endLast it.path = .ok xs

theorem nodeNext_spec {s : Tree E C} {n : Nat} {it : NodeIter} {xs : List (List PIdx × LeafNode E)} (h : NodesLeft s n it xs) :
    (∀ x ys, xs = x :: ys → ∃ it', nodeNext s it = .ok (some x, it') ∧ NodesLeft s (n - 1) it' ys) ∧
    (xs = [] → nodeNext s it = .ok (none, it)) := by
  rcases h with ⟨h0, rfl⟩ | ⟨h0, h1⟩
  · exact ⟨fun _ _ h => (nomatch h), fun _ => by rw [nodeNext, if_pos h0]⟩
  · rw [nodeNext, if_neg (by rw [h0]; decide)]
    cases n with
    | zero => cases h1
    | succ n =>
      rw [iterNodesF] at h1
      obtain ⟨last, k1, h1⟩ := bind_inv h1
      obtain ⟨r, k2, h1⟩ := bind_inv h1
      obtain ⟨l, k3, h1⟩ := bind_inv h1
      obtain ⟨L, k4, h1⟩ := bind_inv h1
      simp only [k1, bind_ok, k2]
      cases r with
      | none =>
        have h1 : xs = [(it.path, L)] := by
          cases hd : decide (it.endLast = it.path.head?) <;> rw [hd] at h1 <;> cases h1 <;> rfl
        subst h1
        refine ⟨fun x ys h => ?_, fun h => (nomatch h)⟩
        cases h
        exact ⟨⟨it.endLast, it.path, true⟩, by simp only [pure_ok, bind_ok, k3, k4], .inl ⟨rfl, rfl⟩⟩
      | some p =>
        cases hd : decide (it.endLast = it.path.head?) with
        | true =>
          rw [hd] at h1
          cases h1
          refine ⟨fun x ys h => ?_, fun h => (nomatch h)⟩
          cases h
          exact ⟨⟨it.endLast, p, true⟩, by simp only [pure_ok, bind_ok, k3, k4], .inl ⟨rfl, rfl⟩⟩
        | false =>
          rw [hd] at h1
          obtain ⟨rest, k5, h1⟩ := bind_inv h1
          cases h1
          refine ⟨fun x ys h => ?_, fun h => (nomatch h)⟩
          cases h
          exact ⟨⟨it.endLast, p, false⟩, by simp only [pure_ok, bind_ok, k3, k4], .inr ⟨rfl, k5⟩⟩

theorem iterNodesF_length {s : Tree E C} : ∀ (n : Nat) (q : Option PIdx) (p : List PIdx) (xs : List (List PIdx × LeafNode E)),
    iterNodesF n s q p = .ok xs → xs.length ≤ n
  | 0, _, _, _, h => by cases h
  | n + 1, q, p, xs, h => by
    rw [iterNodesF] at h
    obtain ⟨last, -, h⟩ := bind_inv h
    obtain ⟨r, -, h⟩ := bind_inv h
    obtain ⟨l, -, h⟩ := bind_inv h
    obtain ⟨L, -, h⟩ := bind_inv h
    split at h
    · obtain ⟨rest, k, h⟩ := bind_inv h
      cases h
      have := iterNodesF_length n _ _ rest k
      simp only [List.length_cons]
      omega
    · cases h
      simp

theorem nodesLeft_length {s : Tree E C} {n : Nat} {it : NodeIter} {xs : List (List PIdx × LeafNode E)} (h : NodesLeft s n it xs) : xs.length ≤ n := by
  rcases h with ⟨-, rfl⟩ | ⟨-, h⟩
  · exact Nat.zero_le _
  · exact iterNodesF_length n _ _ _ h

theorem rangeSlices_cons {start stop : Cursor} {incl : Bool} {p : List PIdx} {L : LeafNode E} {rest : List (List PIdx × LeafNode E)}
    {ys : List (ElemSlice E)} (h : rangeSlices start stop incl ((p, L) :: rest) = .ok ys) :
    ∃ r tl, rangeItem start stop incl p L = .ok r ∧ rangeSlices start stop incl rest = .ok tl ∧ ys = r.toList ++ tl := by
  rw [rangeSlices] at h
  obtain ⟨last, k1, h⟩ := bind_inv h
  obtain ⟨l, k2, h⟩ := bind_inv h
  obtain ⟨tl, k3, h⟩ := bind_inv h
  simp only [rangeItem, k1, bind_ok, k2]
  split at h
  · rename_i hc
    cases h
    exact ⟨none, _, by rw [if_pos hc]; rfl, k3, rfl⟩
  · rename_i hc
    cases h
    exact ⟨some _, tl, by rw [if_neg hc]; rfl, k3, rfl⟩

/-- the iterator has the slices `ys` before it -/
def SlicesLeft (s : Tree E C) (start stop : Cursor) (incl : Bool) (b : Nat) (it : NodeIter) (ys : List (ElemSlice E)) : Prop :=
  ∃ n xs, NodesLeft s n it xs ∧ n ≤ b ∧ rangeSlices start stop incl xs = .ok ys

theorem rangeNextF_spec {s : Tree E C} {start stop : Cursor} {incl : Bool} : ∀ (f b : Nat) (it : NodeIter) (n : Nat) (xs : List (List PIdx × LeafNode E))
    (ys : List (ElemSlice E)), NodesLeft s n it xs → n ≤ b → xs.length < f → rangeSlices start stop incl xs = .ok ys →
    ∃ it', rangeNextF s start stop incl f it = .ok (ys.head?, it') ∧ SlicesLeft s start stop incl b it' ys.tail := by
  intro f
  induction f with
  | zero => intro _ _ _ _ _ _ _ hf; omega
  | succ f ih =>
    intro b it n xs ys h1 hn hf h2
    rw [rangeNextF]
    cases xs with
    | nil =>
      cases h2
      rw [(nodeNext_spec h1).2 rfl, bind_ok]
      exact ⟨it, rfl, n, [], h1, hn, rfl⟩
    | cons x xs =>
      obtain ⟨p, L⟩ := x
      obtain ⟨it1, k1, k2⟩ := (nodeNext_spec h1).1 _ _ rfl
      obtain ⟨r, tl, k3, k4, rfl⟩ := rangeSlices_cons h2
      rw [k1, bind_ok]
      simp only [k3, bind_ok]
      cases r with
      | some y => exact ⟨it1, rfl, n - 1, xs, k2, by omega, k4⟩
      | none =>
        exact ih b it1 (n - 1) xs tl k2 (by omega) (by simp only [List.length_cons] at hf; omega) k4

/-- Whenever running `_iter_range` to its end gives `ys`, the lazy iterator gives the same slices one by one. -/
theorem rangeIter_spec {s : Tree E C} {start stop : Cursor} {incl : Bool} {ys : List (ElemSlice E)} (h : iterRangeCore s start stop incl = .ok ys) :
    ∃ it, rangeIter s start stop = .ok it ∧
      ∀ k, ∃ it', calls (rangeNext s start stop incl) k it = .ok ((List.range k).map (fun i => ys[i]?), it') := by
  rw [iterRangeCore] at h
  obtain ⟨sp, h1, h⟩ := bind_inv h
  obtain ⟨ep, h2, h⟩ := bind_inv h
  obtain ⟨ns, h3, h⟩ := bind_inv h
  refine ⟨⟨ep.head?, sp, false⟩, by simp only [rangeIter, h1, h2, bind_ok, pure_ok], fun k => ?_⟩
  have key : ∀ it (zs : List (ElemSlice E)), SlicesLeft s start stop incl (leafFuel s) it zs →
      ∃ it', rangeNext s start stop incl it = .ok (zs.head?, it') ∧ SlicesLeft s start stop incl (leafFuel s) it' zs.tail := by
    rintro it zs ⟨n, xs, k1, k2, k3⟩
    have := nodesLeft_length k1
    exact rangeNextF_spec _ _ it n xs zs k1 k2 (by omega) k3
  obtain ⟨it', h4, -⟩ := calls_spec (next := rangeNext s start stop incl) (R := SlicesLeft s start stop incl (leafFuel s))
    (fun it x xs h => key it (x :: xs) h) (fun it h => key it [] h) k ⟨ep.head?, sp, false⟩ ys ⟨leafFuel s, ns, .inr ⟨rfl, h3⟩, Nat.le_refl _, h⟩
  exact ⟨it', h4⟩

end GB
