import Mathlib.Tactic.Tauto
import Mathlib.Tactic.Common
import Mathlib.Data.List.Basic
import Mathlib.Data.List.Nodup
import Mathlib.Data.List.Perm.Basic

/-! Basic conventions shared by all models. -/
namespace MI

/-- Node identity (the address of a node, header nodes included). -/
abbrev Id := Nat

/-- `omega` for goals that mention ids. -/
macro "idomega" : tactic => `(tactic| ((try simp only [Id] at *); omega))

/-- Function update: the effect of one field assignment. -/
def upd {α β : Type _} [DecidableEq α] (f : α → β) (a : α) (b : β) : α → β := fun x => if x = a then b else f x

@[simp] theorem upd_same {α β : Type _} [DecidableEq α] (f : α → β) (a : α) (b : β) : upd f a b a = b := by simp [upd]

theorem upd_other {α β : Type _} [DecidableEq α] (f : α → β) {a x : α} (b : β) (h : x ≠ a) : upd f a b x = f x := by
  simp [upd, h]

/-- Outcome of a modelled function.
* `ok s`: normal return with state `s`;
* `threw s`: an exception (raised by a user call) leaves the function, the state being `s`;
* `ub`: the code would run into undefined behaviour (out of bounds access, …);
* `hang`: the iteration budget given to a loop of the model was exhausted. -/
inductive Out (α : Type _) where
  | ok (s : α)
  | threw (s : α)
  | ub
  | hang
  deriving Repr, DecidableEq

end MI
