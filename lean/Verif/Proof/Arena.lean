import Verif.Model.Tree
import Verif.Proof.Util

/-!
# Lemmas about arenas and field access of the state
-/

namespace GB
variable {E C D V : Type}

namespace Arena

theorem get_lt {a : Arena V} {i : Nat} {v : V} (h : a.get i = some v) : i < a.items.length := by
  unfold get at h
  apply Decidable.byContradiction
  intro hn
  rw [List.getElem?_eq_none (by omega)] at h
  simp at h

theorem get_set (a : Arena V) (i j : Nat) (v : V) :
    (a.set i v).get j = if i = j ∧ i < a.items.length then some v else a.get j := by
  unfold get set
  rw [List.getElem?_set]
  split
  · next h =>
    subst h
    split
    · simp_all
    · next h2 => rw [List.getElem?_eq_none (by omega)]; simp [h2]
  · next h => rw [if_neg (by simp [h])]

theorem get_set_self {a : Arena V} {i : Nat} {w : V} (h : a.get i = some w) (v : V) :
    (a.set i v).get i = some v := by
  rw [get_set, if_pos ⟨rfl, get_lt h⟩]

theorem get_set_ne (a : Arena V) {i j : Nat} (h : i ≠ j) (v : V) : (a.set i v).get j = a.get j := by
  rw [get_set, if_neg (by simp [h])]

theorem get_set_live {a : Arena V} {i : Nat} {w : V} (h : a.get i = some w) (v : V) (j : Nat) :
    (a.set i v).get j = if j = i then some v else a.get j := by
  split
  · next e => subst e; exact get_set_self h v
  · next e => exact get_set_ne a (Ne.symm e) v

theorem get_insert (a : Arena V) (v : V) (j : Nat) :
    (a.insert v).2.get j = if j = a.items.length then some v else a.get j := by
  unfold get insert
  simp only
  split
  · next h => subst h; simp
  · next h =>
    rw [List.getElem?_append]
    split
    · rfl
    · next h2 =>
      rw [List.getElem?_eq_none (by simp; omega), List.getElem?_eq_none (by omega)]

theorem insert_fst (a : Arena V) (v : V) : (a.insert v).1 = a.items.length := rfl

theorem get_remove (a : Arena V) (i j : Nat) :
    (a.remove i).get j = if j = i then none else a.get j := by
  unfold get remove
  simp only
  rw [List.getElem?_set]
  split
  · next h =>
    subst h
    split <;> simp
  · next h => rw [if_neg (Ne.symm h)]

theorem get_ge (a : Arena V) {i : Nat} (h : a.items.length ≤ i) : a.get i = none := by
  unfold get
  rw [List.getElem?_eq_none h]
  rfl

@[simp] theorem items_set (a : Arena V) (i : Nat) (v : V) : (a.set i v).items.length = a.items.length := by
  simp [set]
@[simp] theorem items_remove (a : Arena V) (i : Nat) : (a.remove i).items.length = a.items.length := by
  simp [remove]
@[simp] theorem items_insert (a : Arena V) (v : V) : (a.insert v).2.items.length = a.items.length + 1 := by
  simp [insert]
@[simp] theorem get_new (i : Nat) : (Arena.new : Arena V).get i = none := by
  simp [get, new]

end Arena

namespace Tree
variable (s : Tree E C)

@[simp] theorem setIn_inn (x : Nat) (n : Node C) : (s.setIn x n).inn = s.inn.set x n := rfl
@[simp] theorem setIn_lf (x : Nat) (n : Node C) : (s.setIn x n).lf = s.lf := rfl
@[simp] theorem setIn_root (x : Nat) (n : Node C) : (s.setIn x n).root = s.root := rfl
@[simp] theorem setIn_rootCache (x : Nat) (n : Node C) : (s.setIn x n).rootCache = s.rootCache := rfl
@[simp] theorem setLf_inn (x : Nat) (n : LeafNode E) : (s.setLf x n).inn = s.inn := rfl
@[simp] theorem setLf_lf (x : Nat) (n : LeafNode E) : (s.setLf x n).lf = s.lf.set x n := rfl
@[simp] theorem setLf_root (x : Nat) (n : LeafNode E) : (s.setLf x n).root = s.root := rfl
@[simp] theorem setLf_rootCache (x : Nat) (n : LeafNode E) : (s.setLf x n).rootCache = s.rootCache := rfl

theorem getIn_ok {s : Tree E C} {x : Nat} {N : Node C} (h : s.inn.get x = some N) : s.getIn x = .ok N := by
  simp [getIn, h]
theorem getLf_ok {s : Tree E C} {x : Nat} {N : LeafNode E} (h : s.lf.get x = some N) : s.getLf x = .ok N := by
  simp [getLf, h]
theorem getInIdx_ok {s : Tree E C} {x : Nat} {N : Node C} (h : s.inn.get x = some N) :
    s.getInIdx (.internal x) = .ok N := by
  simp [getInIdx, getIn, h, Idx.unwrapInternal]

end Tree

theorem vget_ok {α : Type} {l : List α} {i : Nat} {a : α} (h : l[i]? = some a) : vget l i = .ok a := by
  simp [vget, h]

end GB
