import Verif.Model.Ord
import Verif.Spec.OrdHistory

/-!
# `OrdTreeMap` over any `binary_search_by`

`OrdTrait::find_node` calls `slice::binary_search_by` of the Rust standard library (src/generic_impl/ord.rs:274).  The library documents a
contract, not an algorithm, and the algorithm has changed between releases.  `Verif/Model/Ord.lean` uses one of them.  Here the function
is a parameter.
-/

namespace GB
variable {K V : Type}
open Tree

/-- the type of `slice::binary_search_by`: the comparison may panic; `Sum.inl i` is `Ok(i)`, `Sum.inr i` is `Err(i)`
(called at src/generic_impl/ord.rs:274) -/
abbrev SearchFn (α : Type) := (α → M Ordering) → List α → M (Nat ⊕ Nat)

/-- The loop of `slice::binary_search_by` since rustc 1.82: no early exit (called at src/generic_impl/ord.rs:274). -/
def binSearch2F {α : Type} (f : α → M Ordering) (l : List α) : Nat → Nat → Nat → M Nat
  | 0, _, _ => .error .fuel
  | n + 1, base, size =>
    if 1 < size then do
      let half := size / 2
      let mid := base + half
      let x ← vget l mid
      let o ← f x
      binSearch2F f l n (if o = .gt then base else mid) (size - half)
    else .ok base

/-- `slice::binary_search_by` since rustc 1.82 (used in src/generic_impl/ord.rs:274-283). -/
def binSearch2 {α : Type} (f : α → M Ordering) (l : List α) : M (Nat ⊕ Nat) :=
  if l.length = 0 then .ok (.inr 0)
  else do
    let base ← binSearch2F f l (l.length + 1) 0 l.length
    let x ← vget l base
    let o ← f x
    if o = .eq then pure (.inl base)
    else pure (.inr (base + if o = .lt then 1 else 0))

variable [Ord K]

/-- `<OrdTrait as Query>::find_node` (src/generic_impl/ord.rs:269-291) over the given `binary_search_by`. -/
def ordFindNodeWith (search : SearchFn (Child (OrdCache K))) (target : K) (cs : List (Child (OrdCache K))) : M FindResult := do
  match ← search (ordCmpChild target) cs with
  | .inl i => pure ⟨i, 0, true⟩
  | .inr i => do
    assertM (decide (0 < cs.length))
    pure ⟨min i (cs.length - 1), if i = cs.length then 1 else 0, false⟩

/-- `impl Query<OrdTrait> for OrdTrait` (src/generic_impl/ord.rs:258-305) over the given `binary_search_by`. -/
def ordQueryWith (V : Type) (search : SearchFn (Child (OrdCache K))) : Query (K × V) (OrdCache K) K Unit where
  init := fun _ => ()
  findNode := fun _ target cs => do
    let r ← ordFindNodeWith search target cs
    pure (r, ())
  confirm := fun _ target e => .ok (ordConfirm target e, ())

namespace OrdMap

/-- `OrdTreeMap::insert` (src/generic_impl/ord.rs:33-75) over the given `binary_search_by`; the text of `OrdMap.insert`. -/
def insertWith (search : SearchFn (Child (OrdCache K))) (m : OrdMap K V) (key : K) (value : V) : M (OrdMap K V) := do
  match ← query (ordQueryWith V search) m.tree key with
  | none => do
    let (_, t) ← push (ordTrait K V) m.tree (key, value)
    pure ⟨t, m.len + 1⟩
  | some r =>
    if r.found = false then do
      let leaf ← m.tree.getLf r.cursor.leaf
      let p := leaf.parent
      let (child, t) := allocLeafChild (ordTrait K V) m.tree (key, value) p
      let (info, t) ← splitLeafIfNeeded (ordTrait K V) t r.cursor
      let par ← t.getIn info.parentIdx
      let cs ← vinsert par.children info.insertSlot child
      let par := { par with children := cs }
      let t := t.setIn info.parentIdx par
      let t ← recursiveUpdateCache (ordTrait K V) t (.internal p) false none
      let t ← (if par.isFull then split (ordTrait K V) t p else pure t : M _)
      pure ⟨t, m.len + 1⟩
    else do
      let leaf ← m.tree.getLf r.cursor.leaf
      pure ⟨m.tree.setLf r.cursor.leaf { leaf with elem := (leaf.elem.1, value) }, m.len⟩

/-- `OrdTreeMap::delete` (src/generic_impl/ord.rs:78-87) over the given `binary_search_by`; the text of `OrdMap.delete`. -/
def deleteWith (search : SearchFn (Child (OrdCache K))) (m : OrdMap K V) (key : K) : M (Option (K × V) × OrdMap K V) := do
  match ← query (ordQueryWith V search) m.tree key with
  | none => pure (none, m)
  | some r => do
    let (v, t) ← removeLeaf (ordTrait K V) m.tree r.cursor
    match v with
    | some v => do
      assertM (decide (0 < m.len))
      pure (some v, ⟨t, m.len - 1⟩)
    | none => pure (none, ⟨t, m.len⟩)

end OrdMap

/-- run one operation (src/generic_impl/ord.rs:33-87) over the given `binary_search_by` -/
def OrdOp.runWith (search : SearchFn (Child (OrdCache K))) (m : OrdMap K V) : OrdOp K V → M (Option (K × V) × OrdMap K V)
  | .insert k v => do
    let m ← m.insertWith search k v
    pure (none, m)
  | .delete k => m.deleteWith search k

/-- run a history of operations (src/generic_impl/ord.rs:33-87) over the given `binary_search_by` -/
def ordRunWith (search : SearchFn (Child (OrdCache K))) (m : OrdMap K V) : List (OrdOp K V) → M (List (Option (K × V)) × OrdMap K V)
  | [] => .ok ([], m)
  | o :: os => do
    let (r, m) ← o.runWith search m
    let (rs, m) ← ordRunWith search m os
    pure (r :: rs, m)

end GB
