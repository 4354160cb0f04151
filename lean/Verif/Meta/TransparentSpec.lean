import Verif.Meta.Transparent
/-! Specification of C93: calls of function objects, by the rules of the language for overloads. -/
namespace MI.Meta
variable {T : Type}

/-- `o` can be called with arguments of types `a` and `b`, with these ranks of the conversions. -/
def Overload.Takes (o : Overload T) (a b : T) (m n : Nat) : Prop := o.const = true ∧ o.rank1 a = some m ∧ o.rank2 b = some n

/-- The call `f(x,y)` selects `o`: no other overload that can be called converts an argument better. (How the language decides among overloads that
convert equally well is left open here: the claims hold whichever it selects.) -/
def Selects (ops : List (Overload T)) (a b : T) (o : Overload T) : Prop :=
  o ∈ ops ∧ ∃ m n, o.Takes a b m n ∧ ∀ o' ∈ ops, ∀ m' n', o'.Takes a b m' n' → m ≤ m' ∧ n ≤ n'

/-- `f(x,y)` is a valid call that converts neither argument (`plain`: and that does not go to an overload more general than `const T&,const Q&`). -/
inductive NoConversion (plain : Bool) : Callee T → T → T → Prop
  | cls {fin : Bool} {ops : List (Overload T)} {a b : T} {o : Overload T} : Selects ops a b o → o.Takes a b 0 0 → (plain = true → o.pref ≠ .general) →
    NoConversion plain (.cls fin ops) a b
  | fn {p q : Param T} {a b : T} : p = .value a ∨ p = .cref a → q = .value b ∨ q = .cref b → NoConversion plain (.fn p q) a b

/-- `f(x,y)` is a valid call that converts an argument. -/
inductive Converts : Callee T → T → T → Prop
  | cls {fin : Bool} {ops : List (Overload T)} {a b : T} {o : Overload T} {m n : Nat} : Selects ops a b o → o.Takes a b m n → m + n ≠ 0 →
    Converts (.cls fin ops) a b
  | fn {p q : Param T} {a b : T} : ¬ (p = .value a ∨ p = .cref a) ∨ ¬ (q = .value b ∨ q = .cref b) → Converts (.fn p q) a b

/-- What the code can examine: the type is no final class and no unknown type. -/
def Callee.Known : Callee T → Prop
  | .cls fin _ => fin = false
  | .fn _ _ => True
  | .other => False
end MI.Meta
