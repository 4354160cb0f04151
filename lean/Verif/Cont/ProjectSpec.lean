import Verif.Cont.Project
/-! Specification of C91. -/
namespace MI.Cont
open MI
variable {V : Type}

/-- The layout is one for `n` indices, and different nodes are at different places. -/
structure Layout.Ok (A : Layout) (n : Nat) : Prop where
  len : A.base.length = n
  inj : ∀ x y, A.at' x = A.at' y → x = y

/-- The iterator of index `k` is at position `p` of the traversal: at the element there, or at the end. -/
def Layout.Stands (A : Layout) (c : Container V) (k : Nat) (it : Int) (p : Nat) : Prop :=
  ∃ xs, c.seqs[k]? = some xs ∧ ∃ x, (xs ++ [c.hd])[p]? = some x ∧ it = A.iter k x

/-- The position is the end of the index. -/
def AtEnd (c : Container V) (k p : Nat) : Prop := ∃ xs, c.seqs[k]? = some xs ∧ p = xs.length
end MI.Cont
