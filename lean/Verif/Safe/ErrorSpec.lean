import Verif.Safe.Checks
import Verif.Safe.ChecksSpec
/-!
What the error codes of safe mode mean (safe_mode_errors.hpp:28-41, doc/tutorial/debug.html:116-129).
-/
namespace MI.Safe
open MI MI.Cont
variable {V : Type}

/-- Error `e` is right for a position `it` given to index `k` of container `i`: the iterator is invalid, or it belongs to another index. -/
def State.PositionWrong (s : State V) (it i k : Nat) (e : Err) : Prop :=
  (e = .invalidIterator ∧ s.Invalid it) ∨
  (e = .notOwner ∧ ∃ i' k' u v, s.Stands it i' k' u v ∧ ¬ (i' = i ∧ k' = k))

/-- … and for an iterator that has to refer to an element. -/
def State.ElementWrong (s : State V) (it i k : Nat) (e : Err) : Prop :=
  s.PositionWrong it i k e ∨ (e = .notDereferenceable ∧ ∃ i' k' u, s.Stands it i' k' u [])

/-- … and for a range `[a,b)`: `a` comes after `b`. -/
def State.RangeWrong (s : State V) (a b i k : Nat) (e : Err) : Prop :=
  s.PositionWrong a i k e ∨ s.PositionWrong b i k e ∨
  (e = .invalidRange ∧ ∃ u v u' v', s.Stands a i k u v ∧ s.Stands b i k u' v' ∧ u'.length < u.length)

/-- … and for a position `pos` of index `k`, together with a range of index `l`: the position refers to an element of the range. -/
def State.InsideWrong (s : State V) (pos k a b l i : Nat) (e : Err) : Prop :=
  s.PositionWrong pos i k e ∨ s.RangeWrong a b i l e ∨
  (e = .insideRange ∧ ∃ u m v p x q, s.Stands a i l u (m ++ v) ∧ s.Stands b i l (u ++ m) v ∧ s.Stands pos i k p (x :: q) ∧ x ∈ m)

/-- … and for an iterator that has to belong to some index of container `i`. -/
def State.ContainerWrong (s : State V) (it i : Nat) (e : Err) : Prop :=
  (e = .invalidIterator ∧ s.Invalid it) ∨ (e = .notOwner ∧ ∃ i' k u v, s.Stands it i' k u v ∧ i' ≠ i)

end MI.Safe
