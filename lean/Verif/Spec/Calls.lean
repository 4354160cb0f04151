/-!
# Counting calls of user functions

A computation that calls a user predicate now and then, written as a tree: `done a` returns `a`; `call q k` calls the predicate with
the arguments `q` and goes on with `k b` when it returns `b`. The calls are part of the tree, so they can be counted. Nothing
is assumed of the answers: two calls with the same arguments may be answered differently.
-/
namespace MI

/-- Computations that call a user predicate with arguments in `Q`. -/
inductive Asks (Q : Type) (α : Type) where
  | done (a : α)
  | call (q : Q) (k : Bool → Asks Q α)

namespace Asks
variable {Q α β : Type}

/-- One computation after the other. -/
def bind : Asks Q α → (α → Asks Q β) → Asks Q β
  | done a, f => f a
  | call q k, f => call q (fun b => (k b).bind f)

/-- Notation: a computation is written with `do`. -/
instance : Monad (Asks Q) where
  pure := done
  bind := bind

/-- A single call. -/
def ask (q : Q) : Asks Q Bool := call q done

/-- What the computation returns when the predicate is the function `ans`. -/
def run (ans : Q → Bool) : Asks Q α → α
  | done a => a
  | call q k => (k (ans q)).run ans

/-- The arguments of the calls it makes when the predicate is the function `ans`, in order. -/
def calls (ans : Q → Bool) : Asks Q α → List Q
  | done _ => []
  | call q k => q :: (k (ans q)).calls ans

/-- `c.AtMost n`: whatever the predicate answers, no more than `n` calls are made. -/
def AtMost : Nat → Asks Q α → Prop
  | _, done _ => True
  | 0, call _ _ => False
  | n + 1, call _ k => ∀ b, AtMost n (k b)

/-- `c.Computes ans r n`: with the predicate `ans`, the computation returns `r` and makes at most `n` calls; and whatever a predicate answers,
even inconsistently, it makes no more than that. -/
def Computes (c : Asks Q α) (ans : Q → Bool) (r : α) (n : Nat) : Prop :=
  c.run ans = r ∧ (c.calls ans).length ≤ n ∧ c.AtMost n

end Asks
end MI
