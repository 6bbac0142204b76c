import Verif.Model.Ops

/-!
# Closures that panic

A panic of a closure unwinds through the function that called it; with `catch_unwind` the tree can still be used.  Here the functions that take a closure are
modelled again, such that a panic of the closure yields the tree as it is left.  A closure returns `.error e` if it panics, where `e` is what it leaves in the element that it
was given by `&mut`.  A result `.ok (.error t)` means: unwound, `t` is left.  All other panics are still `.error .panic`.
-/

namespace GB
variable {E C D Q F σ A : Type}
open Tree

/-- The loop of `BTree::update` (src/lib.rs:1015-1039); the closure is called in line 1027. -/
def updateFU (B : Trait E C D) (f : σ → E → Except E (σ × E × Option D)) (stop : Option Nat) :
    Nat → σ → Tree E C → List PIdx → List Nat → List (Idx × D) →
    M (Except (Tree E C) (σ × Tree E C × List Nat × List (Idx × D)))
  | 0, _, _, _, _, _ => .error .fuel
  | n + 1, st, s, path, rm, dm => do
    let cur ← unwrap path.head?
    let l ← cur.arena.unwrapLeaf
    if stop = some l then pure (.ok (st, s, rm, dm))
    else do
      let leaf ← s.getLf l
      match f st leaf.elem with
      | .error e => pure (.error (s.setLf l { leaf with elem := e }))
      | .ok (st, e, d) => do
        let s := s.setLf l { leaf with elem := e }
        let rm := if B.canRemove e then rm ++ [l] else rm
        let dm := match d with
          | some d => dmInsert dm (.leaf l) d
          | none => dm
        match ← nextSibling s path with
        | none => pure (.ok (st, s, rm, dm))
        | some p' => updateFU B f stop n st s p' rm dm

/-- `BTree::update` (src/lib.rs:989-1057). -/
def updateU (B : Trait E C D) (ho : HashOrd E) (f : σ → E → Except E (σ × E × Option D)) (st : σ)
    (s : Tree E C) (start stop : Cursor) : M (Except (Tree E C) (σ × List Nat × Tree E C)) := do
  let (ei, s) ← splitLeafIfNeeded B s stop
  let (si, s) ← splitLeafIfNeeded B s start
  let splitted := ei.newLeaf.toList ++ si.newLeaf.toList
  match si.newPos with
  | none => pure (.ok (st, splitted, s))
  | some start => do
    let path ← getPath s (.leaf start.leaf)
    match ← updateFU B f (ei.newPos.map Cursor.leaf) (leafFuel s) st s path [] [] with
    | .error t => pure (.error t)
    | .ok (st, s, rm, dm) => do
      let s ← (match dm with
        | [] => updateRootCache B s
        | _ => updateDirty B ho s dm : M (Tree E C))
      let s ← removeAll B s rm
      pure (.ok (st, splitted, s))

/-- `BTree::update_leaf` (src/lib.rs:1258-1384); the closure is called in line 1266, before anything else is done. -/
def updateLeafU (B : Trait E C D) (s : Tree E C) (l : Nat) (f : E → Except E (E × Bool × Option E × Option E)) :
    M (Except (Tree E C) (Bool × List Nat × Tree E C)) := do
  let node ← s.getLf l
  match f node.elem with
  | .error e => pure (.error (s.setLf l { node with elem := e }))
  | .ok r => do
    let x ← updateLeaf B s l fun _ => .ok r
    pure (.ok x)

/-- `BTree::update_leaf_by_search` (src/lib.rs:1107-1250); the closure is called in line 1145, after the descent.  The `unimplemented!()` of line 1150 unwinds, too, when the
closure has already changed the element. -/
def bySearchU (B : Trait E C D) (q : Query E C Q F) (s : Tree E C) (arg : Q)
    (f : E → QueryResult → Except E (E × Option (D × Option E × Option E))) :
    M (Except (Tree E C) (Option Cursor × List Nat × Tree E C)) := do
  if ← isEmpty s then .error .panic
  else do
    let (l, _, _, fd) ← searchPathF q arg (s.fuel + 1) s (.internal s.root) 0 [] (q.init arg)
    let leaf ← s.getLf l
    let ((offset, found), _) ← q.confirm fd arg leaf.elem
    match f leaf.elem ⟨⟨l, offset⟩, found⟩ with
    | .error e => pure (.error (s.setLf l { leaf with elem := e }))
    | .ok (e, some (_, _, some _)) => pure (.error (s.setLf l { leaf with elem := e }))
    | .ok r => do
      let x ← updateLeafBySearch B q s arg fun _ _ => .ok r
      pure (.ok x)

/-- The calls of `f` for one piece (src/lib.rs:1439-1443, 1450-1454, 1462-1466); `.error e`: a call panicked and left `e` in the piece. -/
def applyGroupU (f : σ → E → A → Except E (σ × E)) (test : Nat → Nat → Bool) :
    List (Nat × Nat × A) → σ → E → Except E (σ × E)
  | [], st, e => .ok (st, e)
  | (a, b, arg) :: gs, st, e =>
    if test a b then
      match f st e arg with
      | .error e => .error e
      | .ok (st, e) => applyGroupU f test gs st e
    else applyGroupU f test gs st e

/-- The loop for an element without cuts (src/lib.rs:1425-1430); the `assert_eq!` of lines 1427-1428 unwind like a call. -/
def wholeGroupU (f : σ → E → A → Except E (σ × E)) (len : Nat) :
    List (Nat × Nat × A) → σ → E → Except E (σ × E)
  | [], st, e => .ok (st, e)
  | (a, b, arg) :: gs, st, e =>
    if a = 0 ∧ b = len then
      match f st e arg with
      | .error e => .error e
      | .ok (st, e) => wholeGroupU f len gs st e
    else .error e

/-- The loop over the middle pieces (src/lib.rs:1447-1459).  The pieces are local variables: if a call panics they are dropped, which is the result `none`. -/
def middlePiecesU (B : Trait E C D) (f : σ → E → A → Except E (σ × E)) (group : List (Nat × Nat × A)) :
    List Nat → σ → Nat → E → M (Option (σ × List E × E))
  | [], st, _, e => .ok (some (st, [], e))
  | index :: rest, st, last, e => do
    let (e, next) ← B.split e (index - last)
    match applyGroupU f (fun a b => decide (a ≤ last ∧ index ≤ b)) group st e with
    | .error _ => pure none
    | .ok (st, e) => do
      match ← middlePiecesU B f group rest st index next with
      | none => pure none
      | some (st, es, fin) => pure (some (st, e :: es, fin))

/-- Processing of one leaf (src/lib.rs:1410-1480); `.error e`: a call panicked, and `e` is what is left in the leaf, namely the first piece if there are cuts. -/
def updOneLeafU (B : Trait E C D) (f : σ → E → A → Except E (σ × E)) (group : List (Nat × Nat × A)) (st : σ)
    (e : E) : M (Except E (σ × E × Option (List E))) := do
  let len := B.rleLen e
  match splitPoints len group with
  | [] =>
    match wholeGroupU f len group st e with
    | .error e => pure (.error e)
    | .ok (st, e) => pure (.ok (st, e, none))
  | first :: rest => do
    let (e, tail) ← B.split e first
    match applyGroupU f (fun a _ => a = 0) group st e with
    | .error e => pure (.error e)
    | .ok (st, e) => do
      match ← middlePiecesU B f group rest st first tail with
      | none => pure (.error e)
      | some (st, mids, lastE) =>
        match applyGroupU f (fun _ b => b = len) group st lastE with
        | .error _ => pure (.error e)
        | .ok (st, lastE) => pure (.ok (st, e, some (mids ++ [lastE])))

/-- The group loop (src/lib.rs:1405-1481). -/
def updGroupsU (B : Trait E C D) (f : σ → E → A → Except E (σ × E)) (args : List (Nat × Nat × Nat × A)) :
    List Nat → σ → Tree E C → List (Idx × D) → List (Cursor × List E) →
    M (Except (Tree E C) (σ × Tree E C × List (Idx × D) × List (Cursor × List E)))
  | [], st, s, dm, nw => .ok (.ok (st, s, dm, nw))
  | l :: ls, st, s, dm, nw => do
    let leaf ← s.getLf l
    let group := (args.filter fun a => a.1 = l).map Prod.snd
    match ← updOneLeafU B f group st leaf.elem with
    | .error e => pure (.error (s.setLf l { leaf with elem := e }))
    | .ok (st, e, es) => do
      let s := s.setLf l { leaf with elem := e }
      let nw := match es with
        | some es => nw ++ [(⟨l, B.rleLen e⟩, es)]
        | none => nw
      let dm := dmInsert dm (.leaf l) (B.subCache (B.elemCache e) (B.elemCache leaf.elem))
      updGroupsU B f args ls st s dm nw

/-- `BTree::update_leaves_with_arg_in_ranges` (src/lib.rs:1396-1503). -/
def updateLeavesU (B : Trait E C D) (ho : HashOrd E) (f : σ → E → A → Except E (σ × E)) (st : σ)
    (s : Tree E C) (args : List (Nat × Nat × Nat × A)) : M (Except (Tree E C) (σ × List Nat × Tree E C)) := do
  let leaves := ho.grp (args.map fun a => a.1).eraseDups
  match ← updGroupsU B f args leaves st s [] [] with
  | .error t => pure (.error t)
  | .ok (st, s, dm, nw) => do
    let s ← updateDirty B ho s dm
    let (out, s) ← insertChains B s (ho.cur nw) []
    pure (.ok (st, out, s))

end GB
