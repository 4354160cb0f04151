import Verif.Safe.Model
/-!
Specification vocabulary for safe mode.
-/
namespace MI.Safe
open MI MI.Cont
variable {V : Type}

/-- The node `z` is an element of, or the end of, container `c`. -/
def Has (c : Container V) (z : Id) : Prop := z ∈ c.hd :: c.elems

/-- Iterator `it` belongs to index `k` of container `i`, and refers to one of its elements or to its end. -/
def Located (w : World V) (sid : List (List Nat)) (r : Reg) (it i k : Nat) : Prop :=
  ∃ c, w.cs[i]? = some c ∧ (sid.getD i [])[k]? = some (r.cont it) ∧ Has c (r.node it)

/-- The node `z` is in no container of the program: it has been deleted, or is owned by a node handle. -/
def Gone (w : World V) (z : Id) : Prop := ∀ c ∈ w.cs, ¬ Has c z

/-- Operation `o` took the element `z` from a container to another one whose index `k` has a different iterator type. -/
def Estranged (w w' : World V) (o : Op V) (z : Id) (k : Nat) : Prop :=
  ∃ (i j : Nat) (e : Nat → Env) (c d c' : Container V) (L M : Layer V), o = .transfer i j z e ∧ w.cs[i]? = some c ∧ w.cs[j]? = some d ∧ w'.cs[i]? = some c' ∧
    z ∈ c'.elems ∧ c.ls[k]? = some L ∧ d.ls[k]? = some M ∧ sameIter M L = false

/-- The registry has a safe container for each index of each container. -/
structure Shape (w : World V) (sid : List (List Nat)) : Prop where
  len : sid.length = w.cs.length
  row : ∀ i c, w.cs[i]? = some c → (sid.getD i []).length = c.ls.length
  nodup : sid.flatten.Nodup
  nz : 0 ∉ sid.flatten

/-- What an operation of the library does to the iterators of the program: those attached to an index are afterwards attached to the same index of the
container that holds their node, or invalid if there is none or if the iterator type is a different one; others stay unattached. -/
structure LibOk (s : State V) (o : Op V) (w' : World V) (sid' : List (List Nat)) (r' : Reg) : Prop where
  node : ∀ y ∈ s.live, r'.node y = s.reg.node y
  unchecked : ∀ y ∈ s.live, r'.unchecked y = s.reg.unchecked y
  dead : ∀ y ∈ s.live, s.reg.cont y = 0 → r'.cont y = 0
  fate : ∀ y ∈ s.live, ∀ i k, Located s.w s.sid s.reg y i k →
    ((∃ i', Located w' sid' r' y i' k) ∧ ¬ Estranged s.w w' o (s.reg.node y) k) ∨
    (r'.cont y = 0 ∧ (Gone w' (s.reg.node y) ∨ Estranged s.w w' o (s.reg.node y) k))

/-- Iterator `it` is reported invalid by the check made before it is used (safe_mode.hpp:149-153). -/
def State.Invalid (s : State V) (it : Nat) : Prop := s.reg.checkValid it = false

/-- Iterator `it` exists and was not loaded from an archive (those are not checked). -/
def State.Checked (s : State V) (it : Nat) : Prop := it ∈ s.live ∧ s.reg.unchecked it = false

/-- The iterator object an operation constructs, changes or destroys. -/
def ItOp.subject : ItOp → Nat
  | .make it _ _ _ | .blank it _ | .copy it _ | .assign it _ | .drop it | .move it _ | .load it _ => it

/-- Does a step construct, change or destroy iterator `it`? -/
def SOp.Touches (it : Nat) : SOp V → Prop
  | .lib _ _ _ => False
  | .it o => o.subject = it

/-- A run from state `s`, the steps with the states they lead to, that does not touch iterator `it`. -/
inductive Run (it : Nat) : State V → List (SOp V × State V) → Prop where
  | nil (s : State V) : Run it s []
  | cons {s s1 : State V} {o : SOp V} {l : List (SOp V × State V)} : s.Legal o → ¬ o.Touches it → (s.step o = .ok s1 ∨ s.step o = .threw s1) → Run it s1 l →
      Run it s ((o, s1) :: l)

/-- The state a run ends in. -/
def endOf (s : State V) : List (SOp V × State V) → State V
  | [] => s
  | (_, s1) :: l => endOf s1 l

/-- All through a run node `z` was in some container, and was never transferred to a container whose index `k` has a different iterator type. -/
def Held (z : Id) (k : Nat) : State V → List (SOp V × State V) → Prop
  | _, [] => True
  | s, (o, s1) :: l => (∃ c ∈ s1.w.cs, Has c z) ∧ (∀ o' t ids, o = .lib o' t ids → ¬ Estranged s.w s1.w o' z k) ∧ Held z k s1 l

end MI.Safe
