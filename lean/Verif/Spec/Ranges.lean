import Verif.Spec.Seq

/-!
# Specification of `update_leaves_with_arg_in_ranges`
-/

namespace GB
variable {E C D σ X A : Type}

/-- The positions strictly inside an element of length `len` at which a range starts or ends. -/
def cutPoints (len : Nat) (group : List (Nat × Nat × A)) : List Nat :=
  (List.range len).filter fun x => 0 < x && group.any fun g => x = g.1 || x = g.2.1

/-- Apply `f` to the piece from `lo` to `hi`, once for every range that contains the piece, in the order of the arguments. -/
def onPiece (f : σ → E → A → M (σ × E)) (lo hi : Nat) : List (Nat × Nat × A) → σ → E → M (σ × E)
  | [], st, e => .ok (st, e)
  | (a, b, arg) :: gs, st, e =>
    if a ≤ lo ∧ hi ≤ b then do
      let (st, e) ← f st e arg
      onPiece f lo hi gs st e
    else onPiece f lo hi gs st e

/-- Cut the rest of an element, from `lo` to `len`, at the given positions and apply `f` to the pieces from left to right. -/
def specPieces (B : Trait E C D) (f : σ → E → A → M (σ × E)) (group : List (Nat × Nat × A)) (len : Nat) : List Nat → σ → Nat → E → M (σ × List E)
  | [], st, lo, e => do
    let (st, e) ← onPiece f lo len group st e
    pure (st, [e])
  | x :: xs, st, lo, e => do
    let (e, next) ← B.split e (x - lo)
    let (st, e) ← onPiece f lo x group st e
    let (st, es) ← specPieces B f group len xs st x next
    pure (st, e :: es)

/-- The pieces of each of the given leaves, in the given order. -/
def specRanges (B : Trait E C D) (f : σ → E → A → M (σ × E)) (args : List (Nat × Nat × Nat × A)) (es : List (Nat × E)) :
    List Nat → σ → M (σ × List (Nat × List E))
  | [], st => .ok (st, [])
  | l :: ls, st =>
    match locate l es with
    | none => .error .panic
    | some (_, e, _) => do
      let group := (args.filter fun a => a.1 = l).map Prod.snd
      let (st, ps) ← specPieces B f group (B.rleLen e) (cutPoints (B.rleLen e) group) st 0 e
      let (st, out) ← specRanges B f args es ls st
      pure (st, (l, ps) :: out)

/-- Put pieces behind an element one after the other, as `insert_by_path` at its end does: absorbed if possible, merged if possible, as a new
element otherwise (before the element if that has length 0). -/
def glue (B : Trait E C D) : E → List E → M (List E)
  | e, [] => pure [e]
  | e, p :: ps => do
    match ← B.tryInsert e (B.rleLen e) p with
    | .inl e' => glue B e' ps
    | .inr p =>
      if B.rleLen e = 0 ∧ B.canMerge p e then do
        let e' ← B.mergeLeft e p
        glue B e' ps
      else if B.canMerge e p then do
        let e' ← B.mergeRight e p
        glue B e' ps
      else if B.rleLen e = 0 then do
        let r ← glue B p ps
        pure (r ++ [e])
      else do
        let r ← glue B p ps
        pure (e :: r)

/-- all pieces of a leaf put together -/
def glueAll (B : Trait E C D) : List E → M (List E)
  | [] => pure []
  | e :: ps => glue B e ps

/-- what becomes of one unit at position `i` of an element: every range that contains the position acts on it, in the order of the arguments -/
def specUnit (φ : A → X → X) (group : List (Nat × Nat × A)) (i : Nat) (u : X) : X :=
  group.foldl (fun u g => if g.1 ≤ i ∧ i < g.2.1 then φ g.2.2 u else u) u

/-- The range `a..b` lies in an element of length `len`, and if it is empty (or inverted) it is the whole element or lies strictly inside. -/
def Fits (a b len : Nat) : Prop := b ≤ len ∧ (a < b ∨ a = 0 ∧ b = len ∨ 0 < a ∧ a < len ∧ b < len)

instance (a b len : Nat) : Decidable (Fits a b len) := inferInstanceAs (Decidable (_ ∧ _))

/-- the ranges given for one leaf -/
def rangesOf (args : List (Nat × Nat × Nat × A)) (l : Nat) : List (Nat × Nat × A) := (args.filter fun a => a.1 = l).map Prod.snd

/-- What the code makes of an empty range at an edge of an element that is cut at `cuts`: the first or the last piece.  Other ranges are kept. -/
def widenRange (len : Nat) (cuts : List Nat) (a b : Nat) : Nat × Nat :=
  if 0 < len ∧ a = 0 ∧ b = 0 then (0, cuts.headD 0) else if 0 < len ∧ a = len ∧ b = len then (cuts.getLastD 0, len) else (a, b)

/-- `widenRange` for the ranges of one element -/
def widenGroup (len : Nat) (group : List (Nat × Nat × A)) : List (Nat × Nat × A) :=
  group.map fun g => ((widenRange len (cutPoints len group) g.1 g.2.1).1, (widenRange len (cutPoints len group) g.1 g.2.1).2, g.2.2)

/-- `widenRange` for all arguments -/
def widen (B : Trait E C D) (es : List (Nat × E)) (args : List (Nat × Nat × Nat × A)) : List (Nat × Nat × Nat × A) :=
  args.map fun x => match locate x.1 es with
    | none => x
    | some (_, e, _) =>
      let r := widenRange (B.rleLen e) (cutPoints (B.rleLen e) (rangesOf args x.1)) x.2.1 x.2.2.1
      (x.1, r.1, r.2, x.2.2.2)

/-- Some range of the element is empty and at an edge, and no range cuts the element. -/
def Stuck (len : Nat) (group : List (Nat × Nat × A)) : Prop := cutPoints len group = [] ∧ ∃ g ∈ group, ¬ Fits g.1 g.2.1 len

end GB
