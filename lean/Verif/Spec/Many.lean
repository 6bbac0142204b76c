import Verif.Model.Trait

/-!
# What `insert_many_by_cursor` does with its data

`pairs` is the left-to-right merge of neighbours that `merge_adj` is meant to compute, with a mark on each merged
element.  `scramble` is the order in which `merge_adj` really leaves them.  `Absorbs` is the merging into the left
neighbour.
-/

namespace GB
variable {E C D : Type}

/-- merge neighbours from the left (an element that has just been merged is not compared with its right neighbour); merged elements are marked -/
def pairs (B : Trait E C D) : List E → M (List (Bool × E))
  | [] => .ok []
  | [a] => .ok [(false, a)]
  | a :: b :: l =>
    if B.canMerge a b then do
      let c ← B.mergeRight a b
      let r ← pairs B l
      pure ((true, c) :: r)
    else do
      let r ← pairs B (b :: l)
      pure ((false, a) :: r)

/-- add one element behind the first merged one; if it is a merged one, the head of the list moves to the end -/
def scrambleStep (R : List E) (x : Bool × E) : List E :=
  match x.1, R ++ [x.2] with
  | true, y :: l => l ++ [y]
  | _, l => l

/-- the elements up to the first merged one keep their places; those behind it are rotated at every further merge -/
def scramble : List (Bool × E) → List E
  | [] => []
  | (false, a) :: l => a :: scramble l
  | (true, c) :: l => c :: l.foldl scrambleStep []

/-- `y` takes up the elements `took` one after the other and cannot be merged with the first of `rest` -/
inductive Absorbs (B : Trait E C D) : E → List E → List E → Prop
  | stop {y : E} {rest : List E} : (∀ d ds, rest = d :: ds → B.canMerge y d = false) → Absorbs B y [] rest
  | step {y y' d : E} {took rest : List E} : B.canMerge y d = true → B.mergeRight y d = .ok y' → Absorbs B y' took rest → Absorbs B y (d :: took) rest

end GB
