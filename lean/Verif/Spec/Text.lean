import Verif.Model.Rope

/-!
# Specification of the rope: edits of a byte string
-/

namespace GB

/-- an edit of a text -/
inductive RopeOp where
  | insert (i : Nat) (bytes : List UInt8)
  | delete (start stop : Nat)

/-- the edit on a byte string -/
def RopeOp.edit (t : List UInt8) : RopeOp → List UInt8
  | .insert i bytes => t.take i ++ bytes ++ t.drop i
  | .delete start stop => if start < stop then t.take start ++ t.drop stop else t

/-- an insert has to be within the text; a delete is clamped -/
def RopeOp.valid (t : List UInt8) : RopeOp → Prop
  | .insert i _ => i ≤ t.length
  | .delete _ _ => True

/-- a history of edits on a list of bytes -/
def editAll : List UInt8 → List RopeOp → List UInt8
  | t, [] => t
  | t, o :: os => editAll (o.edit t) os

/-- each edit of a history is valid for the text it is applied to -/
def validEdits : List UInt8 → List RopeOp → Prop
  | _, [] => True
  | t, o :: os => o.valid t ∧ validEdits (o.edit t) os

/-- the edit on a rope with chunks of capacity `cap` -/
def RopeOp.run (cap : Nat) (r : Rope) : RopeOp → M Rope
  | .insert i bytes => r.insert cap i bytes
  | .delete start stop => r.deleteRange start stop

/-- a history of edits on a rope -/
def ropeRun (cap : Nat) : Rope → List RopeOp → M Rope
  | r, [] => .ok r
  | r, o :: os => do
    let r ← o.run cap r
    ropeRun cap r os

end GB
