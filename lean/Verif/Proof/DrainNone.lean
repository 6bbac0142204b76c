import Verif.Proof.Content
import Verif.Model.Iter

/-!
# Dropping an empty `Drain`
-/

namespace GB
variable {E C D Q F : Type}
open Tree

theorem drainTake_done {d : Drain E C} (hd : d.done = true) : ∀ k, drainTake k d = .ok ([], d) := by
  intro k
  induction k with
  | zero => rfl
  | succ k ih => simp only [drainTake, drainNext, hd, if_true, bind_ok, ih, pure_ok, Option.toList_none, List.nil_append]

/-- dropping `Drain::none` panics -/
theorem drainDrop_none (B : Trait E C D) (s : Tree E C) : drainDrop B (drainNone s) = .error .panic := by
  have : drainFinish (leafFuel s) (drainNone s) = .ok ([], drainNone s) := by
    rw [leafFuel, show s.inn.items.length + s.lf.items.length + 2 = (s.inn.items.length + s.lf.items.length + 1) + 1 by omega]
    simp only [drainFinish, drainNext, drainNone, if_true, bind_ok, pure_ok]
  simp only [drainDrop]
  rw [show leafFuel (drainNone s).tree = leafFuel s from rfl, this]
  rfl

end GB
