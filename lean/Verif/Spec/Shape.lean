/-!
# A tree as a nested list, and the traversal of `update_cache_and_elem_with_filter` on it
-/

namespace GB

/-- A tree of `n` levels as a nested list: an element, or a list of caches with subtrees. -/
def Shape (C E : Type) : Nat → Type
  | 0 => E
  | n + 1 => List (C × Shape C E n)

/-- the filter on the caches of one node, left to right; keeps the answers -/
def askAll {σ C X : Type} (f : σ → C → σ × C × Bool) : σ → List (C × X) → σ × List (C × Bool × X)
  | st, [] => (st, [])
  | st, (c, x) :: rest =>
    let a := f st c
    let b := askAll f a.1 rest
    (b.1, (a.2.1, a.2.2, x) :: b.2)

/-- visit the accepted subtrees of one node, the last one first -/
def visitRev {σ C X : Type} (v : σ → X → σ × X) : σ → List (C × Bool × X) → σ × List (C × X)
  | st, [] => (st, [])
  | st, (c, accepted, x) :: rest =>
    let b := visitRev v st rest
    if accepted then
      let a := v b.1 x
      (a.1, (c, a.2) :: b.2)
    else (b.1, (c, x) :: b.2)

/-- Depth first: at a node, the filter runs on all its caches, then the accepted subtrees are visited; at an element, `g` runs.
`σ` is the state of the two closures. -/
def Shape.visit {σ C E : Type} (f : σ → C → σ × C × Bool) (g : σ → E → σ × E) : (n : Nat) → σ → Shape C E n → σ × Shape C E n
  | 0, st, e => g st e
  | n + 1, st, cs =>
    let a := askAll f st cs
    visitRev (Shape.visit f g n) a.1 a.2

/-- the elements, in order -/
def Shape.elems {C E : Type} : (n : Nat) → Shape C E n → List E
  | 0, e => [e]
  | n + 1, cs => List.flatMap (fun x => Shape.elems n x.2) cs

/-- the caches, in order, of all levels -/
def Shape.caches {C E : Type} : (n : Nat) → Shape C E n → List C
  | 0, _ => []
  | n + 1, cs => List.flatMap (fun x => x.1 :: Shape.caches n x.2) cs

/-- the elements all of whose caches are accepted by `p`, in order -/
def Shape.picked {C E : Type} (p : C → Bool) : (n : Nat) → Shape C E n → List E
  | 0, e => [e]
  | n + 1, cs => List.flatMap (fun x => if p x.1 then Shape.picked p n x.2 else []) cs

/-- the caches whose ancestors are accepted by `p` -/
def Shape.asked {C E : Type} (p : C → Bool) : (n : Nat) → Shape C E n → List C
  | 0, _ => []
  | n + 1, cs => List.flatMap (fun x => x.1 :: if p x.1 then Shape.asked p n x.2 else []) cs

/-- replace the asked caches by `u` and the picked elements by `v` -/
def Shape.replace {C E : Type} (p : C → Bool) (u : C → C) (v : E → E) : (n : Nat) → Shape C E n → Shape C E n
  | 0, e => v e
  | n + 1, cs => List.map (fun x => (u x.1, if p x.1 then Shape.replace p u v n x.2 else x.2)) cs

end GB
