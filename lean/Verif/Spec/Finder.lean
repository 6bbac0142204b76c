import Verif.Model.Tree
import Verif.Proof.Law

/-!
# What a search finds

A finder follows a predicate on prefixes of the sequence that, once true, stays true (`target < length`, `number of lines ≥ n`, …).
The search ends at the first element whose prefix, itself included, satisfies it, or at the last element if none does.
-/

namespace GB
variable {E C D Q F : Type}

/-- once true of a non-empty prefix, true of every longer one -/
def StaysTrue (hit : List E → Bool) : Prop := ∀ P R, P ≠ [] → hit P = true → hit (P ++ R) = true

/-- `y` is where the predicate becomes true in `U ++ y ++ W`, or `y` is the first or last part -/
def HitsAt (hit : List E → Bool) (U y W : List E) : Prop :=
  (U ≠ [] → hit U = false) ∧ (W ≠ [] → hit (U ++ y) = true)

/-- What an implementation of `Query` (src/lib.rs:49-60) must do on the sequence `es`: `Rep U fd` says that the finder has taken
in the elements `U`.  Given the children of a node, which hold the blocks `bs`, `find_node` chooses the block where the predicate
becomes true.  If `exact`, `found` says whether it does. -/
structure FinderLaw {B : Trait E C D} (A : Law B) (q : Query E C Q F) (arg : Q) (es : List E) (hit : List E → Bool) (Rep : List E → F → Prop)
    (exact : Prop) : Prop where
  mono : StaysTrue hit
  init : Rep [] (q.init arg)
  step : ∀ (cs : List (Child C)) (bs : List (List E)) (U W : List E) (fd : F), bs ≠ [] → (∀ b ∈ bs, b ≠ []) → U ++ bs.flatten ++ W = es →
    cs.map Child.cache = bs.map (fun b => A.total (b.map B.elemCache)) → Rep U fd →
    ∃ r fd' b1 b b2, q.findNode fd arg cs = .ok (r, fd') ∧ bs = b1 ++ b :: b2 ∧ r.index = b1.length ∧
      (b1 ≠ [] → hit (U ++ b1.flatten) = false) ∧ (b2 ≠ [] → hit (U ++ b1.flatten ++ b) = true) ∧
      Rep (U ++ b1.flatten) fd' ∧ (exact → r.found = hit (U ++ b1.flatten ++ b))

/-- A finder for any predicate of the combined cache (not in the crate): `find_node` adds up the caches of the children until it holds. -/
def scanLoop (tot : List C → C) (pred : C → Bool) : List C → List C → Nat → (FindResult × List C)
  | acc, [], i => (⟨i, 0, false⟩, acc)
  | acc, [c], i => (⟨i, 0, pred (tot (acc ++ [c]))⟩, acc)
  | acc, c :: cs, i => if pred (tot (acc ++ [c])) then (⟨i, 0, true⟩, acc) else scanLoop tot pred (acc ++ [c]) cs (i + 1)

/-- the `Query` implementation (src/lib.rs:49-60) over `scanLoop`; the finder holds the caches passed -/
def scanQuery (B : Trait E C D) (tot : List C → C) : Query E C (C → Bool) (List C) where
  init := fun _ => []
  findNode := fun acc pred cs => .ok (scanLoop tot pred acc (cs.map Child.cache) 0)
  confirm := fun acc pred e => .ok ((0, pred (tot (acc ++ [B.elemCache e]))), acc)

end GB
