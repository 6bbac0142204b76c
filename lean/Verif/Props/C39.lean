import Verif.Proof.GapBuffer

/-!
# C39: `GapBuffer::from_str` chunks losslessly
-/

namespace GB
open GapBuf

/-- The chunks concatenate to the input, none is empty, and all but the last are full. -/
theorem C39_from_str (cap : Nat) (hc : 0 < cap) (s : List UInt8) :
    ∃ gs, fromStr cap s = .ok gs ∧ gs.flatMap toVec = s ∧
      (∀ g ∈ gs, g.WF ∧ g.capacity = cap ∧ g.toVec ≠ []) ∧
      (∀ g ∈ gs.dropLast, g.toVec.length = cap) :=
  fromStrF_spec cap hc _ s (Nat.lt_succ_self _)

/-- Non-vacuity: seven bytes in chunks of three. -/
example : (fromStr 3 [1, 2, 3, 4, 5, 6, 7]).map (List.map toVec) = .ok [[1, 2, 3], [4, 5, 6], [7]] :=
  rfl

example := C39_from_str 4 (by decide) [1, 2, 3, 4, 5, 6, 7, 8, 9]

end GB
