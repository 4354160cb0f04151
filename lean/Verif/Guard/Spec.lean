import Verif.Guard.Model
/-! Specification of guards: who is in charge of an action. -/
namespace MI.Guard

/-- A legal history of guards, each action being given to one guard when it is made. -/
inductive Legal (bad : Nat → Bool) : List Ev → Prop
  | nil : Legal bad []
  | snoc {tr : List Ev} {e : Ev} : Legal bad tr → Can (run (.init bad) tr) e → (∀ g a, e = .make g a true → ∀ h, .make h a true ∉ tr) → Legal bad (tr ++ [e])

/-- The event is about the guard: it copies, dismisses, or destroys it. -/
def About (g : Nat) : Ev → Prop
  | .make _ _ _ => False
  | .copy g' _ => g' = g
  | .dismiss g' => g' = g
  | .destroy g' => g' = g

/-- After the history, guard `g` is in charge of action `a`: it was made for it, or is a copy of the guard that was in charge, and was not copied, dismissed, or destroyed since. -/
inductive Holds (a : Nat) : List Ev → Nat → Prop
  | made {tr : List Ev} {g : Nat} : Holds a (tr ++ [.make g a true]) g
  | copied {tr : List Ev} {g h : Nat} : Holds a tr g → Holds a (tr ++ [.copy g h]) h
  | kept {tr : List Ev} {g : Nat} {e : Ev} : Holds a tr g → ¬ About g e → Holds a (tr ++ [e]) g
end MI.Guard
