import Verif.Proof.AnyFinder
import Verif.Proof.Sample
import Verif.Proof.RopeInv

/-!
# C75: a search with any finder finds the first element where its predicate holds
-/

namespace GB
variable {E C D Q F : Type}
open Tree

/-- Let a finder follow a predicate that stays true once it is true, in the sense that among the children of one node it chooses the
one where the predicate becomes true.  Then on every valid non-empty tree the search ends at the one element where the predicate becomes
true in the whole sequence (or at the last, if it never does), with the finder having taken in exactly the elements before it.  The
element decides the offset, and `found` is that of the whole sequence and of the element. -/
theorem C75_finder {B : Trait E C D} {A : Law B} {m : Fill} (hm : 1 ≤ m.lo) {s : Tree E C} (hi : Inv A m s) (hne : (abs s).es ≠ [])
    {q : Query E C Q F} {arg : Q} {hit : List E → Bool} {Rep : List E → F → Prop} {exact : Prop}
    (L : FinderLaw A q arg ((abs s).es.map Prod.snd) hit Rep exact) :
    ∃ U l e W fd found, (abs s).es = U ++ (l, e) :: W ∧ HitsAt hit (U.map Prod.snd) [e] (W.map Prod.snd) ∧ Rep (U.map Prod.snd) fd ∧
      (exact → found = hit ((abs s).es.map Prod.snd)) ∧
      queryWithFinder q s arg = (do
        let ((offset, lfound), fd) ← q.confirm fd arg e
        pure (some ⟨⟨l, offset⟩, found && lfound⟩, fd) : M _) ∧
      query q s arg = (do
        let ((offset, lfound), _) ← q.confirm fd arg e
        pure (some ⟨⟨l, offset⟩, found && lfound⟩) : M _) := by
  obtain ⟨h, hi⟩ := hi
  have ho : order s ≠ [] := fun h => hne ((abs_nil hi).mpr h)
  have ne := hi.ne hm
  obtain ⟨⟨lvl, g⟩, -⟩ := id hi
  obtain ⟨U, l, e, W, fd, found, h1, h2, h3, h4, h5⟩ := anyQuery_spec g ne ho L
  refine ⟨U, l, e, W, fd, found, h1, h2, h3, h4, h5, ?_⟩
  rw [query, h5]
  cases q.confirm fd arg e with
  | error x => rfl
  | ok x => obtain ⟨⟨o, lf⟩, fd'⟩ := x; rfl

/-- There is only one such element. -/
theorem C75_unique {hit : List E → Bool} (hs : StaysTrue hit) {U U' W W' : List E} {e e' : E} (h1 : HitsAt hit U [e] W)
    (h2 : HitsAt hit U' [e'] W') (he : U ++ e :: W = U' ++ e' :: W') : U = U' ∧ e = e' ∧ W = W' := h1.unique hs h2 he

/-- On an empty tree no finder finds anything, and it is not asked. -/
theorem C75_empty {B : Trait E C D} {A : Law B} {m : Fill} (hm : 1 ≤ m.lo) {s : Tree E C} (hi : Inv A m s) (hes : (abs s).es = [])
    (q : Query E C Q F) (arg : Q) : queryWithFinder q s arg = .ok (none, q.init arg) := by
  obtain ⟨h, hi⟩ := hi
  have ho : order s = [] := (abs_nil hi).mp hes
  have ne := hi.ne hm
  obtain ⟨⟨lvl, g⟩, -⟩ := hi
  rw [queryWithFinder, isEmpty_spec g.wf ne, ho]
  rfl

/-- The finder that adds up caches until a predicate of the sum holds: on every valid non-empty tree, for every predicate that stays
true once it is true, the search returns the first element at which it holds, and `found` says whether there is one. -/
theorem C75_scan {B : Trait E C D} {A : Law B} {m : Fill} (hm : 1 ≤ m.lo) {s : Tree E C} (hi : Inv A m s) (hne : (abs s).es ≠ [])
    (pred : C → Bool) (hs : StaysTrue fun P => pred (A.total (P.map B.elemCache))) :
    ∃ U l e W, (abs s).es = U ++ (l, e) :: W ∧
      HitsAt (fun P => pred (A.total (P.map B.elemCache))) (U.map Prod.snd) [e] (W.map Prod.snd) ∧
      query (scanQuery B A.total) s pred = .ok (some ⟨⟨l, 0⟩, pred (A.total ((abs s).es.map fun x => B.elemCache x.2))⟩) := by
  obtain ⟨U, l, e, W, fd, found, h1, h2, h3, h4, -, h6⟩ := C75_finder hm hi hne (scan_law A pred _ hs)
  refine ⟨U, l, e, W, h1, h2, ?_⟩
  rw [h6, h4 trivial]
  simp only [scanQuery, bind_ok, pure_ok]
  rw [h3.2 [B.elemCache e]]
  congr 3
  have hall : (abs s).es.map (fun x => B.elemCache x.2) = ((abs s).es.map Prod.snd).map B.elemCache := by simp
  rw [hall]
  by_cases hW : W = []
  · subst hW
    rw [h1]
    simp
  · have h7 := h2.2 (by simpa using hW)
    have e1 : (abs s).es.map Prod.snd = U.map Prod.snd ++ [e] ++ W.map Prod.snd := by rw [h1]; simp
    simp only [List.map_append, List.map_cons, List.map_nil] at h7
    rw [h7, e1, Bool.and_true]

/-- `LengthFinder` is such a finder: its predicate is "longer than the target", and what it has taken in and what it has left make up
the target. -/
theorem C75_len {B : Trait E C D} {A : Law B} {getLen : C → Nat} (L : LenLaw A getLen) {m : Fill} {s : Tree E C} (hi : Inv A m s) (i : Nat) :
    FinderLaw A (lenQuery B getLen) i ((abs s).es.map Prod.snd) (fun P => decide (i < (P.map B.rleLen).sum))
      (fun U fd => (U.map B.rleLen).sum + fd.left = i) True := by
  obtain ⟨h, ⟨lvl, g⟩, -⟩ := hi
  apply len_law L
  intro e he
  obtain ⟨x, hx, rfl⟩ := List.mem_map.mp he
  exact g.okE x.1 x.2 (mem_entries_elm hx).2

/-- at least twenty units -/
theorem ropeTwenty : StaysTrue fun P : List GapBuf => decide ((20 : Int) ≤ (ropeLaw 4).total (P.map ropeTrait.elemCache)) := by
  intro P R _ h
  have h : (20 : Int) ≤ (P.map ropeTrait.elemCache).sum := of_decide_eq_true h
  apply decide_eq_true
  show (20 : Int) ≤ ((P ++ R).map ropeTrait.elemCache).sum
  rw [List.map_append, List.sum_append]
  have : 0 ≤ (R.map ropeTrait.elemCache).sum := by
    induction R with
    | nil => simp
    | cons x R ih =>
      simp only [List.map_cons, List.sum_cons]
      have : (0 : Int) ≤ ropeTrait.elemCache x := Int.natCast_nonneg _
      omega
  omega

example := C75_scan (by decide) ropeSample_spec.1 (by rw [ropeSample_spec.2]; simp) (fun c => decide ((20 : Int) ≤ c)) ropeTwenty

example := C75_finder (by decide) ropeSample_spec.1 (by rw [ropeSample_spec.2]; simp) (C75_len (ropeLenLaw 4) ropeSample_spec.1 50)

/-- the fourth of five numbers is where their sum reaches 20 -/
example : HitsAt (fun l : List Nat => decide (20 ≤ l.sum)) [7, 7, 5] [3] [9] ∧
    ∀ U e W, HitsAt (fun l : List Nat => decide (20 ≤ l.sum)) U [e] W → U ++ e :: W = [7, 7, 5, 3, 9] → e = 3 :=
  ⟨⟨fun _ => rfl, fun _ => rfl⟩, fun U e W h he => (C75_unique (hit := fun l : List Nat => decide (20 ≤ l.sum))
    (fun P R _ h => by simp only [decide_eq_true_eq, List.sum_append] at h ⊢; omega) h (U' := [7, 7, 5]) (e' := 3) (W' := [9]) ⟨fun _ => rfl, fun _ => rfl⟩ he).2.1⟩

example := C75_empty (A := ropeLaw 4) (m := 5) (by decide) ⟨1, new_inv _ _⟩ (by rw [new_entries]) ropeQuery 3

end GB
