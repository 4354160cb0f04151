import Verif.Prelude
/-! Specification vocabulary: the number of non-equivalent elements, `n_dist` of doc/reference/hash_indices.html ("Complexity signature"). -/
namespace MI

/-- The number of elements of `l` that are not equivalent, with respect to `eq`, to a later one. -/
def distinct {I : Type _} (eq : I → I → Bool) : List I → Nat
  | [] => 0
  | x :: l => (if l.any (eq x) then 0 else 1) + distinct eq l

end MI
