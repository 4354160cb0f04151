import Verif.Prelude
import Mathlib.Data.List.Forall2
/-! Specification vocabulary: equality of sequences up to order, for a user-supplied equality of values. -/
namespace MI

/-- A user-supplied `operator==`: an equivalence relation. -/
structure EqRel {V : Type _} (veq : V → V → Bool) : Prop where
  refl : ∀ v, veq v v = true
  symm : ∀ {v w}, veq v w = true → veq w v = true
  trans : ∀ {u v w}, veq u v = true → veq v w = true → veq u w = true

/-- `l` and `l'` have the same elements up to order: some permutation of `l'` is elementwise equal to `l`. -/
def SameUpTo {V : Type _} (veq : V → V → Bool) (l l' : List V) : Prop :=
  ∃ m, m.Perm l' ∧ List.Forall₂ (fun v w => veq v w = true) l m

end MI
