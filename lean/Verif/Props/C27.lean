import Verif.Proof.History
import Verif.Proof.SampleTwo

/-!
# C27: `clear` empties the tree
-/

namespace GB
variable {E C D : Type}
open Tree

/-- Whatever the tree was, `clear()` makes it equal to `new()`: no elements, the default cache, one node; and it
is valid. -/
theorem C27_clear {B : Trait E C D} (A : Law B) (m : Fill) (s : Tree E C) :
    clear B s = newTree B ∧ abs (clear B s) = ⟨0, []⟩ ∧ (clear B s).rootCache = B.dflt ∧ nodeLen (clear B s) = 1 ∧
    Inv A m (clear B s) :=
  ⟨rfl, new_entries B, rfl, rfl, ⟨1, new_inv A m⟩⟩

/-- Hence every later history behaves as on a new tree. -/
theorem C27_clear_history {B : Trait E C D} (s : Tree E C) (os : List (Op E)) :
    runAll B (clear B s) os = runAll B (newTree B) os := rfl

example := C27_clear (ropeLaw 4) 5 ropeSample

example := C27_clear_history (B := ropeTrait) ropeSample [.push (chunk 40), .prepend (chunk 41), .remove ⟨0, 0⟩]

end GB
