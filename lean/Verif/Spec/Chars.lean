import Verif.Spec.Text

/-!
# Edits of a text of characters

An edit names character positions; the rope is given the byte offsets of these positions in the current text.
-/

namespace GB

/-- the UTF-8 encoding -/
def utf8 (cs : List Char) : List UInt8 := cs.flatMap String.utf8EncodeChar

/-- the byte offset of character `k` -/
def byteAt (cs : List Char) (k : Nat) : Nat := (utf8 (cs.take k)).length

/-- insert a string before character `k`; delete the characters from `a` up to `b` -/
inductive CharOp where
  | insert (k : Nat) (s : String)
  | delete (a b : Nat)

/-- the edit on the list of characters -/
def CharOp.edit (cs : List Char) : CharOp → List Char
  | .insert k s => cs.take k ++ s.toList ++ cs.drop k
  | .delete a b => if a < b then cs.take a ++ cs.drop b else cs

/-- the edit on a rope, with byte offsets -/
def CharOp.run (cap : Nat) (r : Rope) (cs : List Char) : CharOp → M Rope
  | .insert k s => r.insertStr cap (byteAt cs k) s
  | .delete a b => r.deleteRange (byteAt cs a) (byteAt cs b)

/-- a history of edits on a list of characters -/
def charsAll : List Char → List CharOp → List Char
  | cs, [] => cs
  | cs, o :: os => charsAll (o.edit cs) os

/-- the same on a rope -/
def charsRun (cap : Nat) : Rope → List Char → List CharOp → M Rope
  | r, _, [] => .ok r
  | r, cs, o :: os => do
    let r ← o.run cap r cs
    charsRun cap r (o.edit cs) os

/-- the text has fewer than `n` bytes before and after every edit -/
def ShortText (n : Nat) : List Char → List CharOp → Prop
  | cs, [] => (utf8 cs).length < n
  | cs, o :: os => (utf8 cs).length < n ∧ ShortText n (o.edit cs) os

end GB
