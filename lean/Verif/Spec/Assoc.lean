/-!
# Specification of an ordered map: sorted association lists
-/

namespace GB
variable {K V : Type} [Ord K]

/-- insert a binding; an existing binding keeps its key and gets the new value -/
def asInsert (k : K) (v : V) : List (K × V) → List (K × V)
  | [] => [(k, v)]
  | (a, b) :: l =>
    match compare k a with
    | .lt => (k, v) :: (a, b) :: l
    | .eq => (a, v) :: l
    | .gt => (a, b) :: asInsert k v l

/-- the binding of a key -/
def asFind (k : K) : List (K × V) → Option (K × V)
  | [] => none
  | (a, b) :: l => if compare k a = .eq then some (a, b) else asFind k l

/-- remove the binding of a key -/
def asDelete (k : K) : List (K × V) → List (K × V)
  | [] => []
  | (a, b) :: l => if compare k a = .eq then l else (a, b) :: asDelete k l

/-- the first binding whose key is not below `k`, or else the last binding; and the list without it -/
def asEvict (k : K) : List (K × V) → Option (K × V) × List (K × V)
  | [] => (none, [])
  | [e] => (some e, [])
  | e :: f :: l => if compare k e.1 = .gt then ((asEvict k (f :: l)).1, e :: (asEvict k (f :: l)).2) else (some e, f :: l)

/-- strictly increasing keys -/
def KeySorted (l : List (K × V)) : Prop := l.Pairwise fun a b => compare a.1 b.1 = .lt

end GB
