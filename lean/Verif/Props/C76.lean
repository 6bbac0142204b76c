import Verif.Proof.Levels
import Verif.Proof.Sample
import Verif.Proof.Abs
import Verif.Proof.SampleTwo

/-!
# C76: `iter_with_filter` with a closure that has a state

`Shape.levels` (Verif.Spec.Levels) goes through a nested list level by level, each level from left to right.  `noting` is a closure that notes
what it is asked; its answers may depend on everything it has been asked before, so it stands for every deterministic `FnMut`.
-/

namespace GB
variable {E C D R σ : Type}
open Tree

/-- For every closure: `next` never panics, the calls return the items one after another and then `None` for ever; the closure is asked
about all levels in the first call of `next`, and not again. -/
theorem C76_next {B : Trait E C D} {A : Law B} {m : Fill} {h : Nat} {s : Tree E C} (hi : InvH A m h s) (zero : R) (add : R → R → R)
    (f : σ → C → σ × Bool × R) (st : σ) (k : Nat) :
    ∃ t it, shapeOf s h (.internal s.root) = some t ∧ Shape.elems h t = (abs s).es.map Prod.snd ∧
      filterCalls add f s k (filterStart zero s st) = .ok ((List.range k).map fun i => (Shape.levels add f h st [(t, zero)]).2[i]?, it) ∧
      it.st = if k = 0 then st else (Shape.levels add f h st [(t, zero)]).1 := by
  obtain ⟨lvl, g⟩ := hi.ex
  obtain ⟨t, it, h1, h2, h3⟩ := filterCalls_spec g.wf zero add f st k
  exact ⟨t, it, h1, shape_root g.wf h1, h2, h3⟩

/-- For every closure, the items are a subsequence of the elements: in order, each at most once. -/
theorem C76_subsequence {B : Trait E C D} {A : Law B} {m : Fill} {s : Tree E C} (hi : Inv A m s) (zero : R) (add : R → R → R)
    (f : σ → C → σ × Bool × R) (st : σ) :
    ∃ items : List (R × E), (items.map Prod.snd).Sublist ((abs s).es.map Prod.snd) ∧
      ∀ k, ∃ it, filterCalls add f s k (filterStart zero s st) = .ok ((List.range k).map fun i => items[i]?, it) := by
  obtain ⟨h, hi⟩ := hi
  obtain ⟨t, -, h1, h2, -, -⟩ := C76_next hi zero add f st 0
  refine ⟨(Shape.levels add f h st [(t, zero)]).2, ?_, ?_⟩
  · rw [← h2]
    simpa using levels_sublist add f h st [(t, zero)]
  · intro k
    obtain ⟨t', it, k1, -, k3, -⟩ := C76_next hi zero add f st k
    rw [h1] at k1
    cases k1
    exact ⟨it, k3⟩

/-- For every closure, however its answers depend on what it was asked: it is asked at most once about every stored cache, level by level
and from left to right, and all of it before the first item is returned. -/
theorem C76_asked {B : Trait E C D} {A : Law B} {m : Fill} {h : Nat} {s : Tree E C} (hi : InvH A m h s) (zero : R) (add : R → R → R)
    (ans : List C → C → Bool × R) :
    ∃ t log, shapeOf s h (.internal s.root) = some t ∧ log.Sublist (Shape.rows h [t]) ∧
      ∀ k, 0 < k → ∃ xs it, filterCalls add (noting ans) s k (filterStart zero s []) = .ok (xs, it) ∧ it.st = log := by
  obtain ⟨t, -, h1, h2, -, -⟩ := C76_next hi zero add (noting ans) [] 0
  obtain ⟨log, k1, k2⟩ := levels_log add ans h [] [(t, zero)]
  refine ⟨t, log, h1, by simpa using k2, ?_⟩
  intro k hk
  obtain ⟨t', it, m1, -, m3, m4⟩ := C76_next hi zero add (noting ans) [] k
  rw [h1] at m1
  cases m1
  refine ⟨_, it, m3, ?_⟩
  rw [m4, if_neg (by omega), k1]
  rfl

/-- If the answers depend on the cache only, the items are those of C41, namely the elements all of whose caches are accepted; the closure
is asked exactly once about every cache whose ancestors are accepted. -/
theorem C76_pure {B : Trait E C D} {A : Law B} {m : Fill} {h : Nat} {s : Tree E C} (hi : InvH A m h s) (zero : R) (add : R → R → R)
    (p : C → Bool) (v : C → R) :
    ∃ t items, shapeOf s h (.internal s.root) = some t ∧ iterWithFilter zero add (fun c => (p c, v c)) s = .ok items ∧
      items.map Prod.snd = Shape.picked p h t ∧ (Shape.askedRows p h [t]).Perm (Shape.asked p h t) ∧
      ∀ k, 0 < k → ∃ it, filterCalls add (noting fun _ c => (p c, v c)) s k (filterStart zero s []) = .ok ((List.range k).map fun i => items[i]?, it) ∧
        it.st = Shape.askedRows p h [t] := by
  obtain ⟨t, -, h1, h2, -, -⟩ := C76_next hi zero add (noting fun _ c => (p c, v c)) [] 0
  obtain ⟨lvl, g⟩ := hi.ex
  have hl := levels_dfs add (fun c => (p c, v c)) (noting fun _ c => (p c, v c)) (fun _ _ => rfl) h [] [(t, zero)]
  refine ⟨t, (Shape.levels add (noting fun _ c => (p c, v c)) h [] [(t, zero)]).2, h1, ?_, ?_, ?_, ?_⟩
  · rw [iterWithFilter_filt g.wf, filt_dfs add _ h _ t zero h1, hl]
    simp
  · rw [levels_picked add _ (p := p) (fun _ _ => rfl)]
    simp
  · simpa using askedRows_perm p h [t]
  · intro k hk
    obtain ⟨t', it, m1, -, m3, m4⟩ := C76_next hi zero add (noting fun _ c => (p c, v c)) [] k
    rw [h1] at m1
    cases m1
    refine ⟨it, m3, ?_⟩
    rw [m4, if_neg (by omega), levels_asked]
    simp

/-! Cases: thirty chunks of a rope in three levels, a filter that refuses everything from its twentieth question on, and the filter "not
empty". -/

example := C76_subsequence ropeSample_spec.1 (0 : Int) (· + ·) (fun (n : Nat) c => (n + 1, decide (n < 20), c)) 0

example : ∃ (h : Nat) (t : Shape Int GapBuf h) (log : List Int), shapeOf ropeSample h (.internal ropeSample.root) = some t ∧ log.Sublist (Shape.rows h [t]) := by
  obtain ⟨h, hi⟩ := ropeSample_spec.1
  obtain ⟨t, log, h1, h2, -⟩ := C76_asked hi (0 : Int) (· + ·) fun log c => (decide (log.length < 20), c)
  exact ⟨h, t, log, h1, h2⟩

example : ∃ items, iterWithFilter (0 : Int) (· + ·) (fun c => (decide (0 < c), c)) ropeSample = .ok items ∧
    ∃ it, filterCalls (· + ·) (noting fun _ c => (decide (0 < c), c)) ropeSample 5 (filterStart (0 : Int) ropeSample []) = .ok ((List.range 5).map fun i => items[i]?, it) := by
  obtain ⟨h, hi⟩ := ropeSample_spec.1
  obtain ⟨t, items, -, h2, -, -, h3⟩ := C76_pure hi (0 : Int) (· + ·) (fun c => decide (0 < c)) fun c => c
  obtain ⟨it, h4, -⟩ := h3 5 (by decide)
  exact ⟨items, h2, it, h4⟩

example := C76_next ropeSample_two (0 : Int) (· + ·) (fun (n : Nat) c => (n + 1, decide (n < 20), c)) 0 7

end GB
