import Verif.Proof.Content
import Verif.Proof.SampleTwo

/-!
# C08: `iter` yields the sequence in order
-/

namespace GB
variable {E C D : Type}
open Tree

/-- On every valid tree of at most nine levels (a path has ten entries) `iter()` terminates and yields every
element exactly once, in order. -/
theorem C08_iter {B : Trait E C D} {A : Law B} {m : Fill} {h : Nat} {s : Tree E C} (hm : 1 ≤ m.lo) (hi : InvH A m h s) (hh : h ≤ 9) :
    iter s = .ok ((abs s).es.map Prod.snd) := by
  obtain ⟨lvl, g⟩ := hi.ex
  exact iter_spec g.wf (hi.ne hm) hh

/-- nine levels hold at least 3 906 249 elements -/
theorem C08_iter_size {B : Trait E C D} {A : Law B} {m : Fill} {s : Tree E C} (hm : 5 ≤ m.lo) (hi : Inv A m s)
    (hn : (abs s).es.length < 3906250) : iter s = .ok ((abs s).es.map Prod.snd) := by
  obtain ⟨h, h9, hi⟩ := hi.low hm hn
  exact C08_iter (by omega) hi h9

example : iter ordSample = .ok ((abs ordSample).es.map Prod.snd) :=
  C08_iter_size (by decide) ordSample_spec.1 (by rw [ordSample_spec.2]; decide)

example := C08_iter (by decide) ropeSample_two (by decide)

end GB
