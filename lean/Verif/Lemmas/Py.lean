import Verif.Model.Err

/-!
Lemmas about results of Python calls.
-/

namespace PFEM

theorem bind_ok {α β : Type} {x : Py α} {f : α → Py β} {r : β} (h : (x >>= f) = .ok r) :
    ∃ a, x = .ok a ∧ f a = .ok r := by
  cases x with
  | error e => simp [bind, Except.bind] at h
  | ok a => exact ⟨a, rfl, h⟩

theorem py_ok_bind {α β : Type} (a : α) (f : α → Py β) : ((Except.ok a : Py α) >>= f) = f a := rfl

theorem py_error_bind {α β : Type} (e : PyErr) (f : α → Py β) : ((.error e : Py α) >>= f) = .error e := rfl

end PFEM
