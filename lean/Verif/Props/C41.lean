import Verif.Proof.Content
import Verif.Proof.FilterSpec
import Verif.Proof.SampleTwo

/-!
# C41: `iter_with_filter`

`filt` (Verif.Proof.Filter) is the depth-first specification for an arbitrary filter; `filtSpec`
(Verif.Proof.FilterSpec) is a plain traversal of the list of elements, for filters that accept every node that
contains an accepted element and whose measure is additive.
-/

namespace GB
variable {E C D R : Type}
open Tree

/-- For every filter: the result is the depth-first traversal that enters exactly the accepted children and
accumulates the measures of all earlier siblings. -/
theorem C41_any_filter {B : Trait E C D} {A : Law B} {m : Fill} {h : Nat} {s : Tree E C} (hi : InvH A m h s) (zero : R) (add : R → R → R)
    (f : C → Bool × R) : iterWithFilter zero add f s = .ok (filt s add f h (.internal s.root, zero)) := by
  obtain ⟨lvl, g⟩ := hi.ex
  exact iterWithFilter_filt g.wf zero add f

/-- For a sound filter with an additive measure: exactly the accepted elements, in sequence order, each with the
measure of everything before it. -/
theorem C41_sound_filter {B : Trait E C D} {A : Law B} {m : Fill} {s : Tree E C} (hm : 1 ≤ m.lo) (hi : Inv A m s) {add : R → R → R}
    {f : C → Bool × R} (L : FilterLaw A add f) (zero : R) :
    iterWithFilter zero add f s = .ok (filtSpec B add f zero ((abs s).es.map Prod.snd)) := by
  obtain ⟨h, hi⟩ := hi
  obtain ⟨lvl, g⟩ := hi.ex
  exact iterWithFilter_spec g (hi.ne hm) L zero

/-- The filter "not empty" on ropes with the byte count as measure is sound and additive. -/
theorem C41_rope_filter (cap : Nat) : FilterLaw (ropeLaw cap) (fun a b : Int => a + b) (fun c : Int => (decide (0 < c), c)) where
  sound := by
    intro cs c hok hc h
    simp only [decide_eq_true_eq] at h ⊢
    show 0 < List.sum cs
    induction cs with
    | nil => cases hc
    | cons x cs ih =>
      have hx : 0 ≤ x := hok x (by simp)
      have hs : ∀ l : List Int, (∀ c ∈ l, 0 ≤ c) → 0 ≤ l.sum := by
        intro l hl
        induction l with
        | nil => simp
        | cons y l ih2 =>
          have := hl y (by simp)
          have := ih2 fun c hc => hl c (by simp [hc])
          simp only [List.sum_cons]; omega
      have hcs := hs cs fun c hc => hok c (by simp [hc])
      simp only [List.sum_cons]
      rcases List.mem_cons.mp hc with rfl | hc
      · omega
      · have := ih (fun c hc => hok c (by simp [hc])) hc
        omega
  measure := by
    intro cs r h1 h2
    show r + List.sum cs = _
    clear h1 h2
    induction cs generalizing r with
    | nil => simp
    | cons x cs ih =>
      simp only [List.sum_cons, List.foldl_cons]
      rw [← ih]
      omega

example := C41_sound_filter (by decide) ropeSample_spec.1 (C41_rope_filter 4) 0

/-- a filter that is not sound: nodes of more than ten bytes -/
example := C41_any_filter ropeSample_two (0 : Int) (· + ·) fun c => (decide (10 < c), c)

end GB
