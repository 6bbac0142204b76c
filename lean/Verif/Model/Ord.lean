import Verif.Model.Ops

/-!
# Model of `src/generic_impl/ord.rs`

Keys have a comparison `Ord::cmp` (`compare`); `<` and `>` on keys are derived from it, as in Rust.
-/

namespace GB
variable {K V : Type}
open Tree

/-- `Option<(Key, Key)>`, the cache of `OrdTrait` (src/generic_impl/ord.rs:223). -/
abbrev OrdCache (K : Type) := Option (K × K)

/-- `OrdTrait::calc_cache_internal` (src/generic_impl/ord.rs:228-237). -/
def ordCalc (cache : OrdCache K) (caches : List (OrdCache K)) : M (OrdCache K × Unit) :=
  match caches.head?, caches.getLast? with
  | some a, some b => do
    let a ← unwrap a
    let b ← unwrap b
    pure (some (a.1, b.2), ())
  | _, _ => .ok (cache, ())

/-- `impl BTreeTrait for OrdTrait` (src/generic_impl/ord.rs:221-256) with `Unmergeable<(Key, Value)>` (src/generic_impl/ord.rs:179-219). -/
def ordTrait (K V : Type) : Trait (K × V) (OrdCache K) Unit where
  rleLen := fun _ => 1
  -- `Sliceable::split`: `slice(pos..)` then `slice_(..pos)`; `_slice` panics unless the length is 1,
  -- which cannot hold for both (src/generic_impl/ord.rs:186-192, src/rle.rs:34-38)
  split := fun _ _ => .error .panic
  canMerge := fun _ _ => false
  mergeRight := fun _ _ => .error .panic
  mergeLeft := fun _ _ => .error .panic
  tryInsert := fun _ _ e => .ok (.inr e)
  canRemove := fun _ => false
  useDiff := false
  dflt := none
  calcC := ordCalc
  apply := fun _ _ => .error .panic
  mergeDiff := fun _ _ => ()
  elemCache := fun e => some (e.1, e.1)
  newCacheToDiff := fun _ => ()
  subCache := fun _ _ => ()

/-- `<Unmergeable as Sliceable>::_slice` (src/generic_impl/ord.rs:185-193).  `range.end - range.start` panics on an inverted
range in debug builds; in release builds it wraps around and the comparison panics. -/
def unmergeableSlice {T : Type} (x : T) (start stop : Nat) : M T :=
  if stop = start + 1 then .ok x else .error .panic

/-- `slice::binary_search_by` of the Rust standard library (the bisection of rustc 1.52 to 1.81; used
in src/generic_impl/ord.rs:274-283).  `Sum.inl i` is `Ok(i)`, `Sum.inr i` is `Err(i)`. -/
def binSearchF {α : Type} (f : α → M Ordering) (l : List α) : Nat → Nat → Nat → M (Nat ⊕ Nat)
  | 0, _, _ => .error .fuel
  | n + 1, left, right =>
    if left < right then do
      let mid := left + (right - left) / 2
      let x ← vget l mid
      match ← f x with
      | .lt => binSearchF f l n (mid + 1) right
      | .gt => binSearchF f l n left mid
      | .eq => pure (.inl mid)
    else .ok (.inr left)

/-- `slice::binary_search_by` (standard library; called at src/generic_impl/ord.rs:274; the algorithm does not matter, C73). -/
def binSearch {α : Type} (f : α → M Ordering) (l : List α) : M (Nat ⊕ Nat) :=
  binSearchF f l (l.length + 1) 0 l.length

variable [Ord K]

/-- The comparison closure (src/generic_impl/ord.rs:274-283). -/
def ordCmpChild (target : K) (c : Child (OrdCache K)) : M Ordering := do
  let (mn, mx) ← unwrap c.cache
  if compare target mn = .lt then pure .gt
  else if compare target mx = .gt then pure .lt
  else pure .eq

/-- `<OrdTrait as Query>::find_node` (src/generic_impl/ord.rs:269-291). -/
def ordFindNode (target : K) (cs : List (Child (OrdCache K))) : M FindResult := do
  match ← binSearch (ordCmpChild target) cs with
  | .inl i => pure ⟨i, 0, true⟩
  | .inr i => do
    -- `child_caches.len() - 1` underflows on an empty slice
    assertM (decide (0 < cs.length))
    pure ⟨min i (cs.length - 1), if i = cs.length then 1 else 0, false⟩

/-- `<OrdTrait as Query>::confirm_elem` (src/generic_impl/ord.rs:294-304). -/
def ordConfirm (target : K) (e : K × V) : Nat × Bool :=
  match compare target e.1 with
  | .lt => (0, false)
  | .eq => (0, true)
  | .gt => (1, false)

/-- `impl Query<OrdTrait> for OrdTrait` (src/generic_impl/ord.rs:258-305); the finder has no state. -/
def ordQuery (K V : Type) [Ord K] : Query (K × V) (OrdCache K) K Unit where
  init := fun _ => ()
  findNode := fun _ target cs => do
    let r ← ordFindNode target cs
    pure (r, ())
  confirm := fun _ target e => .ok (ordConfirm target e, ())

/-- `struct OrdTreeMap` (src/generic_impl/ord.rs:15-18). -/
structure OrdMap (K V : Type) where
  tree : Tree (K × V) (OrdCache K)
  len : Nat

namespace OrdMap

/-- `OrdTreeMap::new` (src/generic_impl/ord.rs:25-30). -/
def new : OrdMap K V := ⟨newTree (ordTrait K V), 0⟩

/-- `OrdTreeMap::insert` (src/generic_impl/ord.rs:33-75).  The two merge branches (lines 50-53) are guarded by
`can_merge`, which is constantly `false` (src/generic_impl/ord.rs:196-198). -/
def insert (m : OrdMap K V) (key : K) (value : V) : M (OrdMap K V) := do
  match ← query (ordQuery K V) m.tree key with
  | none => do
    let (_, t) ← push (ordTrait K V) m.tree (key, value)
    pure ⟨t, m.len + 1⟩
  | some r =>
    if r.found = false then do
      let leaf ← m.tree.getLf r.cursor.leaf
      let p := leaf.parent
      let (child, t) := allocLeafChild (ordTrait K V) m.tree (key, value) p
      let (info, t) ← splitLeafIfNeeded (ordTrait K V) t r.cursor
      let par ← t.getIn info.parentIdx
      let cs ← vinsert par.children info.insertSlot child
      let par := { par with children := cs }
      let t := t.setIn info.parentIdx par
      let t ← recursiveUpdateCache (ordTrait K V) t (.internal p) false none
      let t ← (if par.isFull then split (ordTrait K V) t p else pure t : M _)
      pure ⟨t, m.len + 1⟩
    else do
      let leaf ← m.tree.getLf r.cursor.leaf
      pure ⟨m.tree.setLf r.cursor.leaf { leaf with elem := (leaf.elem.1, value) }, m.len⟩

/-- `OrdTreeMap::delete` (src/generic_impl/ord.rs:78-87). -/
def delete (m : OrdMap K V) (key : K) : M (Option (K × V) × OrdMap K V) := do
  match ← query (ordQuery K V) m.tree key with
  | none => pure (none, m)
  | some r => do
    let (v, t) ← removeLeaf (ordTrait K V) m.tree r.cursor
    match v with
    | some v => do
      -- `self.len -= 1` (overflow check)
      assertM (decide (0 < m.len))
      pure (some v, ⟨t, m.len - 1⟩)
    | none => pure (none, ⟨t, m.len⟩)

/-- `OrdTreeMap::iter` (src/generic_impl/ord.rs:90-92). -/
def iter (m : OrdMap K V) : M (List (K × V)) := GB.iter m.tree

/-- `OrdTreeMap::iter_key` (src/generic_impl/ord.rs:95-97). -/
def iterKey (m : OrdMap K V) : M (List K) := do
  let l ← GB.iter m.tree
  pure (l.map Prod.fst)

/-- `OrdTreeMap::is_empty` (src/generic_impl/ord.rs:105-107). -/
def isEmpty (m : OrdMap K V) : Bool := m.len = 0

end OrdMap

/-- `struct OrdTreeSet` (src/generic_impl/ord.rs:21) and its methods (src/generic_impl/ord.rs:115-148). -/
structure OrdSet (K : Type) where
  map : OrdMap K Unit

namespace OrdSet

/-- `OrdTreeSet::new` (src/generic_impl/ord.rs:117-119). -/
def new : OrdSet K := ⟨OrdMap.new⟩

/-- `OrdTreeSet::insert` (src/generic_impl/ord.rs:122-124). -/
def insert (s : OrdSet K) (k : K) : M (OrdSet K) := do
  let m ← s.map.insert k ()
  pure ⟨m⟩

/-- `OrdTreeSet::delete` (src/generic_impl/ord.rs:127-129). -/
def delete (s : OrdSet K) (k : K) : M (Bool × OrdSet K) := do
  let (r, m) ← s.map.delete k
  pure (r.isSome, ⟨m⟩)

/-- `OrdTreeSet::iter` (src/generic_impl/ord.rs:132-134). -/
def iter (s : OrdSet K) : M (List K) := s.map.iterKey

/-- `OrdTreeSet::len` (src/generic_impl/ord.rs:136-138). -/
def len (s : OrdSet K) : Nat := s.map.len

end OrdSet
end GB
