import Verif.Model.RangeMap

/-!
# Specification of the range map: an array of optional numbers

Position `i` of the list is the value at `i`; positions beyond the list have no value.
-/

namespace GB

/-- make room for positions below `stop`, with ten spare positions -/
def cellsReserve (t : List (Option Int)) (stop : Nat) : List (Option Int) :=
  if t.length < stop then t ++ List.replicate (stop - t.length + 10) none else t

/-- change the values at `start..stop` -/
def cellsMap (f : Option Int → Option Int) (t : List (Option Int)) (start stop : Nat) : List (Option Int) :=
  t.take start ++ ((t.drop start).take (stop - start)).map f ++ t.drop stop

/-- the operations of `RangeNumMap` -/
inductive RangeOp
  | insert (start stop : Nat) (v : Int)
  | plus (start stop : Nat) (d : Int)

/-- the end of the range of an operation -/
def RangeOp.stop : RangeOp → Nat
  | .insert _ b _ => b
  | .plus _ b _ => b

/-- ranges are not inverted, and an insertion to `0..0` is excluded -/
def RangeOp.valid : RangeOp → Prop
  | .insert a b _ => a ≤ b ∧ 0 < b
  | .plus a b _ => a ≤ b

/-- the same for an array that is not empty: `0..0` is allowed -/
def RangeOp.validOn (t : List (Option Int)) : RangeOp → Prop
  | .insert a b _ => a ≤ b ∧ (0 < b ∨ t ≠ [])
  | .plus a b _ => a ≤ b

/-- the effect on the array -/
def RangeOp.apply (t : List (Option Int)) : RangeOp → List (Option Int)
  | .insert a b v => cellsMap (fun _ => some v) (cellsReserve t b) a b
  | .plus a b d => cellsMap (Option.map (· + d)) (cellsReserve t b) a b

/-- the operation on the map, with a hash order -/
def RangeOp.run (ho : HashOrd RElem) (s : RangeMap) : RangeOp → M RangeMap
  | .insert a b v => RangeMap.insert ho s a b v
  | .plus a b d => RangeMap.plus ho s a b d

/-- a history; every operation may use another hash order -/
def rangeRun (s : RangeMap) : List (HashOrd RElem × RangeOp) → M RangeMap
  | [] => .ok s
  | (ho, o) :: os => do
    let s ← o.run ho s
    rangeRun s os

/-- the history on the array -/
def cellsRun (t : List (Option Int)) : List (HashOrd RElem × RangeOp) → List (Option Int)
  | [] => t
  | (_, o) :: os => cellsRun (o.apply t) os

/-- the ranges are not empty, the first begins at the given position and each of the others where the one before it ends -/
def Tiles : Nat → List ((Nat × Nat) × Int) → Prop
  | _, [] => True
  | i, x :: xs => x.1.1 = i ∧ i < x.1.2 ∧ Tiles x.1.2 xs

/-- the yielded ranges, from `start` on, are exactly the runs of the values `t` -/
structure RunsOf (start : Nat) (t : List Int) (out : List ((Nat × Nat) × Int)) : Prop where
  tiles : Tiles start out
  vals : ∀ k v, (∃ x ∈ out, x.1.1 ≤ start + k ∧ start + k < x.1.2 ∧ x.2 = v) ↔ t[k]? = some v

/-- an operation of `RangeNumMap`, now also `drain` -/
inductive RangeStep
  | edit (ho : HashOrd RElem) (o : RangeOp)
  | drain (start stop : Nat)

/-- as before; a drain must not be inverted nor reach beyond the end, nor begin at the end -/
def RangeStep.validOn (t : List (Option Int)) : RangeStep → Prop
  | .edit ho o => (∀ l, (ho.idx l).Perm l) ∧ o.validOn t
  | .drain a b => a ≤ b ∧ b ≤ t.length ∧ a < t.length

/-- the effect on the array: a drain takes its positions out, and later positions move up -/
def RangeStep.apply (t : List (Option Int)) : RangeStep → List (Option Int)
  | .edit _ o => o.apply t
  | .drain a b => t.take a ++ t.drop b

/-- the end of the range -/
def RangeStep.stop : RangeStep → Nat
  | .edit _ o => o.stop
  | .drain _ b => b

/-- every step is valid where it happens -/
def stepsValid (t : List (Option Int)) : List RangeStep → Prop
  | [] => True
  | o :: os => o.validOn t ∧ stepsValid (o.apply t) os

/-- the array in the end -/
def stepsCells (t : List (Option Int)) : List RangeStep → List (Option Int)
  | [] => t
  | o :: os => stepsCells (o.apply t) os

/-- what the drains should yield: the runs of the values drained, with the gaps closed up -/
def StepsYield (t : List (Option Int)) : List RangeStep → List (List ((Nat × Nat) × Int)) → Prop
  | [], outs => outs = []
  | .edit ho o :: os, outs => StepsYield ((RangeStep.edit ho o).apply t) os outs
  | .drain a b :: os, outs => ∃ out rest, outs = out :: rest ∧ RunsOf a (((t.drop a).take (b - a)).filterMap id) out ∧
      StepsYield ((RangeStep.drain a b).apply t) os rest

/-- the history on the map, with the yields of its drains -/
def stepsRun (s : RangeMap) : List RangeStep → M (List (List ((Nat × Nat) × Int)) × RangeMap)
  | [] => .ok ([], s)
  | .edit ho o :: os => do
    let s ← o.run ho s
    stepsRun s os
  | .drain a b :: os => do
    let (out, s) ← RangeMap.drain s a b
    let (outs, s) ← stepsRun s os
    pure (out :: outs, s)

end GB
