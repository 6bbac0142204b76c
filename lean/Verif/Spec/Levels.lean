import Verif.Spec.Shape

/-!
# Going through a nested list level by level
-/

namespace GB
variable {σ C E R : Type}

/-- the closure on the caches of one node, left to right: the accepted subtrees, each with the sum of what the closure returned for
the earlier ones -/
def askNode {X : Type} (add : R → R → R) (f : σ → C → σ × Bool × R) : σ → List (C × X) → R → σ × List (X × R)
  | st, [], _ => (st, [])
  | st, (c, x) :: cs, r =>
    let a := f st c
    let b := askNode add f a.1 cs (add r a.2.2)
    (b.1, if a.2.1 then (x, r) :: b.2 else b.2)

/-- the closure on the nodes of one level, left to right -/
def askRow {X : Type} (add : R → R → R) (f : σ → C → σ × Bool × R) : σ → List (List (C × X) × R) → σ × List (X × R)
  | st, [] => (st, [])
  | st, (cs, r) :: row =>
    let a := askNode add f st cs r
    let b := askRow add f a.1 row
    (b.1, a.2 ++ b.2)

/-- level by level, from `n` levels above the elements down -/
def Shape.levels (add : R → R → R) (f : σ → C → σ × Bool × R) : (n : Nat) → σ → List (Shape C E n × R) → σ × List (R × E)
  | 0, st, row => (st, row.map fun x => (x.2, x.1))
  | n + 1, st, row => Shape.levels add f n (askRow add f st row).1 (askRow add f st row).2

/-- the caches of a row of subtrees whose ancestors are accepted by `p`, level by level, each level from left to right -/
def Shape.askedRows (p : C → Bool) : (n : Nat) → List (Shape C E n) → List C
  | 0, _ => []
  | n + 1, row => List.flatMap (fun t => List.map Prod.fst t) row ++
      Shape.askedRows p n (List.flatMap (fun t => List.map Prod.snd (List.filter (fun x => p x.1) t)) row)

/-- all caches, level by level -/
def Shape.rows : (n : Nat) → List (Shape C E n) → List C
  | 0, _ => []
  | n + 1, row => List.flatMap (fun t => List.map Prod.fst t) row ++ Shape.rows n (List.flatMap (fun t => List.map Prod.snd t) row)

/-- depth first, for a closure without state -/
def Shape.dfs (add : R → R → R) (f : C → Bool × R) : (n : Nat) → Shape C E n × R → List (R × E)
  | 0, x => [(x.2, x.1)]
  | n + 1, x => List.flatMap (Shape.dfs add f n) (askNode add (fun _ c => ((), f c)) () x.1 x.2).2

/-- a closure whose answers may depend on everything it has been asked, and that notes it -/
def noting (ans : List C → C → Bool × R) : List C → C → List C × Bool × R := fun log c => (log ++ [c], ans log c)

end GB
