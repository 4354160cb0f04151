import Verif.Safe.Spec
/-!
Specification vocabulary for the checks of safe mode.
-/
namespace MI.Safe
open MI MI.Cont
variable {V : Type}

/-- Iterator `it` belongs to index `k` of container `i`; a traversal of that index meets the elements `u` before it gets to where the iterator is, and then the
elements `v`, the first of which is the one the iterator refers to (`v` empty: it is the end iterator). -/
def State.Stands (s : State V) (it i k : Nat) (u v : List Id) : Prop :=
  ∃ c, s.w.cs[i]? = some c ∧ (s.sid.getD i [])[k]? = some (s.reg.cont it) ∧ c.seqs[k]? = some (u ++ v) ∧ s.reg.node it = v.headD c.hd

/-- Nothing but what iterator `it` refers to is different. -/
structure Moved (s s' : State V) (it : Nat) : Prop where
  world : s'.w = s.w
  live : s'.live = s.live
  sid : s'.sid = s.sid
  cont : s'.reg.cont = s.reg.cont
  unchecked : s'.reg.unchecked = s.reg.unchecked
  node : ∀ y, y ≠ it → s'.reg.node y = s.reg.node y

end MI.Safe
