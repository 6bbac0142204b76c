import Verif.Model.Iter
import Verif.Model.LenFinder
import Verif.Model.FilterIter

/-!
# Programs that use a tree

A `Prog` is a program that owns one tree and calls its public methods.  Which method it calls next, and with which arguments, may depend on everything
the methods returned before (cursors, elements, caches).
-/

namespace GB
variable {E C D α R : Type}
open Tree

/-- a method call with its arguments; the index is the type of what the call returns -/
inductive Call (E C D : Type) : Type → Type 1
  /-- `push(e)` -/
  | push (e : E) : Call E C D Cursor
  /-- `prepend(e)` -/
  | prepend (e : E) : Call E C D Cursor
  /-- `insert_by_path(c, e)` -/
  | insertAt (c : Cursor) (e : E) : Call E C D (Cursor × List Nat)
  /-- `insert_many_by_cursor(Some(c), data)` -/
  | insertMany (c : Cursor) (data : List E) : Call E C D Unit
  /-- `remove_leaf(c)` -/
  | remove (c : Cursor) : Call E C D (Option E)
  /-- `clear()` -/
  | clear : Call E C D Unit
  /-- `drain(a..b)` of which `k` elements are taken before it is dropped: the elements taken, and the ones dropped with it -/
  | drain (a b : Cursor) (k : Nat) : Call E C D (List E × List E)
  /-- `update(a..b, f)` -/
  | update {σ : Type} (f : σ → E → M (σ × E × Option D)) (st : σ) (a b : Cursor) : Call E C D (σ × List Nat)
  /-- `update_leaf(l, f)` -/
  | updateLeaf (l : Nat) (f : E → M (E × Bool × Option E × Option E)) : Call E C D (Bool × List Nat)
  /-- `update_leaves_with_arg_in_ranges(args, f)` -/
  | ranges {σ Arg : Type} (f : σ → E → Arg → M (σ × E)) (st : σ) (args : List (Nat × Nat × Nat × Arg)) : Call E C D (σ × List Nat)
  /-- `update_leaf_by_search::<LengthFinder>(i, f)` -/
  | bySearch (getLen : C → Nat) (i : Nat) (f : E → QueryResult → M (E × Option (D × Option E × Option E))) : Call E C D (Option Cursor × List Nat)
  /-- a write through `get_elem_mut(l)` -/
  | write (l : Nat) (f : E → E) : Call E C D (Option E)
  /-- `get_elem(l)` -/
  | get (l : Nat) : Call E C D (Option E)
  /-- `query::<LengthFinder>(i)` -/
  | find (getLen : C → Nat) (i : Nat) : Call E C D (Option QueryResult)
  /-- `iter()` -/
  | iter : Call E C D (List E)
  /-- `iter_range(a..b)` or `iter_range(a..=b)` -/
  | iterRange (a b : Cursor) (incl : Bool) : Call E C D (List (ElemSlice E))
  /-- `iter_with_filter` -/
  | filter {S : Type} (zero : S) (add : S → S → S) (f : C → Bool × S) : Call E C D (List (S × E))
  /-- `root_cache()` -/
  | rootCache : Call E C D C
  /-- `is_empty()` -/
  | isEmpty : Call E C D Bool
  /-- `first_leaf()` -/
  | firstLeaf : Call E C D (Option Nat)
  /-- `last_leaf()` -/
  | lastLeaf : Call E C D (Option Nat)
  /-- `start_cursor()` -/
  | startCursor : Call E C D (Option Cursor)
  /-- `end_cursor()` -/
  | endCursor : Call E C D (Option Cursor)
  /-- `next_elem(c)` -/
  | next (c : Cursor) : Call E C D (Option Cursor)
  /-- `prev_elem(c)` -/
  | prev (c : Cursor) : Call E C D (Option Cursor)
  /-- `prefer_left(c)` -/
  | preferLeft (c : Cursor) : Call E C D (Option Cursor)
  /-- `prefer_right(c)` -/
  | preferRight (c : Cursor) : Call E C D (Option Cursor)
  /-- `compare_pos(a, b)` -/
  | compare (a b : Cursor) : Call E C D Ordering
  /-- `visit_previous_caches(c, ..)`: the caches it is called with, and the last step -/
  | visit (c : Cursor) : Call E C D (List C × (E × Nat))
  /-- `query_with_finder_return(arg)`, with any finder: what it finds, and the finder -/
  | search {Q F : Type} (q : Query E C Q F) (arg : Q) : Call E C D (Option QueryResult × F)
  /-- `shift_path_by_one_offset(c)` -/
  | shift (c : Cursor) : Call E C D (Option Cursor)
  /-- `check()` -/
  | check (inst : DecidableEq C) : Call E C D Unit
  /-- `depth()` -/
  | depth : Call E C D Nat
  /-- `node_len()` -/
  | nodeLen : Call E C D Nat
  /-- `iter_with_filter` with a closure that keeps a state, of which `k` items are taken -/
  | filterSt {S σ : Type} (zero : S) (add : S → S → S) (f : σ → C → σ × Bool × S) (st : σ) (k : Nat) : Call E C D (List (Option (S × E)) × σ)

/-- a result computed from the tree without changing it -/
def reading (s : Tree E C) (x : M α) : M (α × Tree E C) := do
  let x ← x
  pure (x, s)

/-- run a call on a tree of the model -/
def Call.run (B : Trait E C D) (ho : HashOrd E) (s : Tree E C) : Call E C D α → M (α × Tree E C)
  | .push e => GB.push B s e
  | .prepend e => GB.prepend B s e
  | .insertAt c e => insertByPath B s c e
  | .insertMany c data => do
    let s ← GB.insertMany B s (some c) data
    pure ((), s)
  | .remove c => removeLeaf B s c
  | .clear => pure ((), GB.clear B s)
  | .drain a b k => do
    let (x, y, s) ← GB.drain B s ⟨a, true⟩ ⟨b, true⟩ k
    pure ((x, y), s)
  | .update f st a b => do
    let (x, y, s) ← GB.update B ho f st s a b
    pure ((x, y), s)
  | .updateLeaf l f => do
    let (x, y, s) ← GB.updateLeaf B s l f
    pure ((x, y), s)
  | .ranges f st args => do
    let (x, y, s) ← updateLeavesWithArg B ho f st s args
    pure ((x, y), s)
  | .bySearch getLen i f => do
    let (x, y, s) ← updateLeafBySearch B (lenQuery B getLen) s i f
    pure ((x, y), s)
  | .write l f => pure (getElemMut s l f)
  | .get l => pure (getElem s l, s)
  | .find getLen i => reading s (query (lenQuery B getLen) s i)
  | .iter => reading s (GB.iter s)
  | .iterRange a b incl => reading s (GB.iterRange B s (.included a) (if incl then .included b else .excluded b))
  | .filter zero add f => reading s (iterWithFilter zero add f s)
  | .rootCache => pure (s.rootCache, s)
  | .isEmpty => reading s (GB.isEmpty s)
  | .firstLeaf => reading s (GB.firstLeaf s)
  | .lastLeaf => reading s (GB.lastLeaf s)
  | .startCursor => reading s (GB.startCursor s)
  | .endCursor => reading s (GB.endCursor B s)
  | .next c => reading s (nextElem s c)
  | .prev c => reading s (prevElem s c)
  | .preferLeft c => reading s (GB.preferLeft B s c)
  | .preferRight c => reading s (GB.preferRight B s c)
  | .compare a b => reading s (comparePos s a b)
  | .visit c => reading s (visitPrevCaches s c)
  | .search q arg => reading s (queryWithFinder q s arg)
  | .shift c => reading s (shiftByOne B s c)
  | .check inst => reading s (@GB.check E C D inst B s)
  | .depth => reading s (GB.depth s)
  | .nodeLen => pure (GB.nodeLen s, s)
  | .filterSt zero add f st k => reading s do
    let (xs, it) ← filterCalls add f s k (filterStart zero s st)
    pure (xs, it.st)

/-- a program: it ends with a result, or calls a method and goes on with what the method returned -/
inductive Prog (E C D R : Type) : Type 1
  | ret (r : R)
  | call {α : Type} (c : Call E C D α) (k : α → Prog E C D R)

/-- run a program on a tree of the model -/
def Prog.run (B : Trait E C D) (ho : HashOrd E) : Tree E C → Prog E C D R → M (R × Tree E C)
  | s, .ret r => .ok (r, s)
  | s, .call c k => do
    let (x, s) ← c.run B ho s
    (k x).run B ho s

/-- one call after another -/
def Prog.bind {R' : Type} : Prog E C D R → (R → Prog E C D R') → Prog E C D R'
  | .ret r, f => f r
  | .call c k, f => .call c fun x => (k x).bind f

end GB
