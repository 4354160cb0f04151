import Verif.Spec.Lookup
import Verif.Spec.Hash
/-! Specification vocabulary: lexicographic order of tuples with components of different types. -/
namespace MI

/-- `x` precedes `y` lexicographically, looking at the first `n` components: at some component `x` is less, and all components before
it are equivalent. `lt j a b` is "a < b", `lt' j b a` is "b < a". -/
def LexLess {K L : Nat → Type} (n : Nat) (lt : ∀ j, K j → L j → Bool) (lt' : ∀ j, L j → K j → Bool) (x : ∀ j, K j) (y : ∀ j, L j) : Prop :=
  ∃ k < n, (∀ j < k, lt j (x j) (y j) = false ∧ lt' j (y j) (x j) = false) ∧ lt k (x k) (y k) = true

/-- All of the first `n` components are equal. -/
def AllEq {K L : Nat → Type} (n : Nat) (eq : ∀ j, K j → L j → Bool) (x : ∀ j, K j) (y : ∀ j, L j) : Prop := ∀ j < n, eq j (x j) (y j) = true

/-- All of the first `n` components are equivalent: neither less than the other. -/
def AllEquiv {K L : Nat → Type} (n : Nat) (lt : ∀ j, K j → L j → Bool) (lt' : ∀ j, L j → K j → Bool) (x : ∀ j, K j) (y : ∀ j, L j) : Prop :=
  ∀ j < n, lt j (x j) (y j) = false ∧ lt' j (y j) (x j) = false

end MI
