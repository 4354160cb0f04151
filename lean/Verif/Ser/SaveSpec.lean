import Verif.Ser.Replay
/-! What is said of the size of an archive. -/
namespace MI.Ser
open MI MI.Cont
variable {V : Type}

/-- `d` is the least number of elements to take out of `l`, so that the rest is in the order of `b`. -/
def Fewest (b l : List Id) (d : Nat) : Prop :=
  (∃ T : List Id, T.Sublist l ∧ T.Sublist b ∧ T.length + d = l.length) ∧ ∀ T : List Id, T.Sublist l → T.Sublist b → T.length + d ≤ l.length

/-- For each index whose order has to be saved (all but hashed and ordered unique indices): its elements, or, for an ordered index, those that are equivalent to another one. -/
def orders (val : Id → V) (Ss : List (Spec V)) (xss : List (List Id)) : List (List Id) :=
  ((Ss.zip xss).filter fun p => Rearranged p.1).map fun p => listed val p.2 p.1

end MI.Ser
