import Verif.Model.Basic

/-!
# Small lemmas about the result monad
-/

namespace GB

theorem assertM_true {b : Bool} (h : b = true) : assertM b = .ok () := by rw [h]; rfl

@[simp] theorem bind_ok {α β : Type} (a : α) (f : α → M β) : (Except.ok a >>= f) = f a := rfl
@[simp] theorem bind_err {α β : Type} (e : Err) (f : α → M β) : ((Except.error e : M α) >>= f) = Except.error e := rfl
@[simp] theorem pure_ok {α : Type} (a : α) : (pure a : M α) = Except.ok a := rfl
@[simp] theorem unwrap_some {α : Type} (a : α) : unwrap (some a) = .ok a := rfl
@[simp] theorem unwrap_none {α : Type} : (unwrap (none : Option α)) = .error .panic := rfl

end GB
