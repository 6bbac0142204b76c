import Verif.Model.Rle

/-!
# Specification of ranges of positions
-/

namespace GB

/-- `RangeBounds::contains`: position `i` lies between the two bounds -/
def within (lo hi : PBound) (i : Nat) : Bool :=
  (match lo with
    | .included x => decide (x ≤ i)
    | .excluded x => decide (x < i)
    | .unbounded => true) &&
  (match hi with
    | .included x => decide (i ≤ x)
    | .excluded x => decide (i < x)
    | .unbounded => true)

/-- the items at the positions that satisfy `p`, counting from `k` -/
def pickFrom {α : Type} (p : Nat → Bool) : Nat → List α → List α
  | _, [] => []
  | k, a :: l => if p k then a :: pickFrom p (k + 1) l else pickFrom p (k + 1) l

/-- the items at the positions that satisfy `p` -/
def pick {α : Type} (p : Nat → Bool) (l : List α) : List α := pickFrom p 0 l

end GB
