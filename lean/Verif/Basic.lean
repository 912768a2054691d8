/-! Shared helpers of the model (no code of the repository is modelled here). -/

namespace Verif

/-- Pointwise update of a function: `upd f a b` is `f` except that `a` is mapped to `b`. -/
def upd {α β : Type _} [DecidableEq α] (f : α → β) (a : α) (b : β) : α → β :=
  fun x => if x = a then b else f x

@[simp] theorem upd_same {α β : Type _} [DecidableEq α] (f : α → β) (a : α) (b : β) :
    upd f a b a = b := by simp [upd]

@[simp] theorem upd_other {α β : Type _} [DecidableEq α] (f : α → β) {a x : α} (b : β)
    (h : x ≠ a) : upd f a b x = f x := by simp [upd, h]

theorem upd_apply {α β : Type _} [DecidableEq α] (f : α → β) (a : α) (b : β) (x : α) :
    upd f a b x = if x = a then b else f x := rfl

end Verif
