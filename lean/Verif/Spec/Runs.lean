import Verif.Spec.Calls
/-!
# Computations whose calls of user functions may throw

As in `Verif/Spec/Calls.lean`, a computation that calls user functions is a tree in which the calls are explicit; but now each call may also throw, and the
tree says what happens then. A `fate` decides the outcome of every call: `fate t q = none` if the call number `t` (from 0), with the
arguments `q`, throws, and `some b` if it returns `b`.
-/
namespace MI

/-- Computations that call user functions with arguments in `Q`; `ok b` is what is done when the call returns `b`, `threw` what is done when it throws. -/
inductive Runs (Q : Type) (α : Type) where
  | done (a : α)
  | call (q : Q) (ok : Bool → Runs Q α) (threw : Runs Q α)

namespace Runs
variable {Q Q' α β : Type}

/-- One computation after the other. -/
def bind : Runs Q α → (α → Runs Q β) → Runs Q β
  | done a, f => f a
  | call q ok threw, f => call q (fun b => (ok b).bind f) (threw.bind f)

/-- Notation: a computation is written with `do`. -/
instance : Monad (Runs Q) where
  pure := done
  bind := bind

/-- `try{c}`: the result of `c`, or `none` if one of its calls throws. -/
def attempt (q : Q' → Q) : Asks Q' α → Runs Q (Option α)
  | .done a => done (some a)
  | .call p k => call (q p) (fun b => attempt q (k b)) (done none)

/-- The result of a computation whose calls are numbered from `t` on and have the outcomes given by `fate`, and its calls, in order, each with a flag that says whether it
threw. -/
def exec (fate : Nat → Q → Option Bool) : Nat → Runs Q α → α × List (Q × Bool)
  | _, done a => (a, [])
  | t, call q ok threw =>
    match fate t q with
    | some b => (((ok b).exec fate (t + 1)).1, (q, false) :: ((ok b).exec fate (t + 1)).2)
    | none => ((threw.exec fate (t + 1)).1, (q, true) :: (threw.exec fate (t + 1)).2)

/-- The result. -/
def result (fate : Nat → Q → Option Bool) (c : Runs Q α) : α := (c.exec fate 0).1

/-- The calls made. -/
def calls (fate : Nat → Q → Option Bool) (c : Runs Q α) : List Q := (c.exec fate 0).2.map Prod.fst

/-- The user functions answer as `ans` does, whenever they do not throw. -/
def Honest (ans : Q → Bool) (fate : Nat → Q → Option Bool) : Prop := ∀ t q b, fate t q = some b → b = ans q

/-- Some call throws. -/
def throws (fate : Nat → Q → Option Bool) (c : Runs Q α) : Prop := ∃ p ∈ (c.exec fate 0).2, p.2 = true

end Runs
end MI
