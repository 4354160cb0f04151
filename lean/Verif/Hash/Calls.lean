import Verif.Hash.Index
import Verif.Spec.Calls
/-!
# Hashed indices: where the equality predicate is called

The functions of `Verif/Hash/Index.lean` that call the user's equality predicate, once more, with every call explicit. The lines cited there
are modelled here too; `Verif/Hash/CallsLemmas.lean` proves that the two versions compute the same. `q x` compares the key looked for
with that of the element `x`, `e x y` the keys of two elements.
-/
namespace MI.Hash
open MI

/-- A call of the equality predicate: with a key that is looked for and that of an element, or with those of two elements. -/
inductive EqCall (K CK : Type) where
  | found (x : CK) (k : K)
  | same (k k' : K)

/-- Answers of a pair of equality predicates. -/
def EqCall.ans {K CK : Type} (ceq : CK → K → Bool) (eq : K → K → Bool) : EqCall K CK → Bool
  | .found x k => ceq x k
  | .same k k' => eq k k'

/-- `eq(x,key(y->value()))`. -/
def isFound {K CK : Type} (key : Id → K) (x : CK) (y : Id) : Asks (EqCall K CK) Bool := Asks.ask (.found x (key y))
/-- `eq_(key(x->value()),key(y->value()))`. -/
def isSame {K : Type} (CK : Type) (key : Id → K) (x y : Id) : Asks (EqCall K CK) Bool := Asks.ask (.same (key x) (key y))

section
variable {Q : Type}

/-- `last_of_range(x)`: hashed_index.hpp:1354-1370. -/
def lastOfRangeA (c : Cat) (e : Id → Id → Asks Q Bool) (h : Heap) (x : Id) : Asks Q Id :=
  match c with
  | .uniq => pure x
  | .multi => do
    let y := h.next x
    let z := h.prior y
    if z = x then
      if ← e x y then return y else return x
    else if h.prior z = x then return x
    else return z

/-- `end_of_range(x)`: hashed_index.hpp:1377-1402. -/
def endOfRangeA (c : Cat) (e : Id → Id → Asks Q Bool) (h : Heap) (x : Id) : Asks Q Id :=
  match c with
  | .uniq => do return U.after h (← lastOfRangeA .uniq e h x)
  | .multi => do
    let y := h.next x
    let z := h.prior y
    if z = x then
      let yy := if ← e x y then y else x
      return if h.prior (h.next yy) = yy then h.next yy else h.prior (h.next yy)
    else if h.prior z = x then return z
    else return if h.prior (h.next z) = z then h.next z else h.prior (h.next z)

/-- The loop of `find`, `count`, `equal_range`, `erase(key)`: hashed_index.hpp:1703-1708. -/
def findLoopA (c : Cat) (q : Id → Asks Q Bool) (h : Heap) : Nat → Id → Asks Q (Out (Option Id))
  | 0, x => if x = 0 then pure (.ok none) else pure .hang
  | n + 1, x => do
    if x = 0 then return .ok none
    if ← q x then return .ok (some x)
    findLoopA c q h n (nextToInspect c h x)

/-- `find(k,hash,eq)`: hashed_index.hpp:1698-1710. -/
def findA (n : Nat) (c : Cat) (q : Id → Asks Q Bool) (hk : Nat) (h : Heap) (a : Arr) (hd : Id) : Asks Q (Out Id) := do
  match ← findLoopA c q h n (h.prior (a.at (a.position hk))) with
  | .ok (some x) => return .ok x
  | .ok none => return .ok hd
  | .threw _ => return .hang
  | .ub => return .ub
  | .hang => return .hang

/-- `count(k,hash,eq)`: hashed_index.hpp:1724-1746. -/
def countA (n : Nat) (c : Cat) (e : Id → Id → Asks Q Bool) (q : Id → Asks Q Bool) (hk : Nat) (h : Heap) (a : Arr) : Asks Q (Out Nat) := do
  match ← findLoopA c q h n (h.prior (a.at (a.position hk))) with
  | .ok (some x) => return countLoop c h (← endOfRangeA c e h x) n x 0
  | .ok none => return .ok 0
  | .threw _ => return .hang
  | .ub => return .ub
  | .hang => return .hang

/-- `equal_range(k,hash,eq)`: hashed_index.hpp:1758-1772. -/
def equalRangeA (n : Nat) (c : Cat) (e : Id → Id → Asks Q Bool) (q : Id → Asks Q Bool) (hk : Nat) (h : Heap) (a : Arr) (hd : Id) :
    Asks Q (Out (Id × Id)) := do
  match ← findLoopA c q h n (h.prior (a.at (a.position hk))) with
  | .ok (some x) => return .ok (x, ← endOfRangeA c e h x)
  | .ok none => return .ok (hd, hd)
  | .threw _ => return .hang
  | .ub => return .ub
  | .hang => return .hang

/-- The loop of `link_point` for unique indices: hashed_index.hpp:1317-1328. -/
def linkPointUA (q : Id → Asks Q Bool) (h : Heap) : Nat → Id → Asks Q (Out (Option Id))
  | 0, x => if x = 0 then pure (.ok none) else pure .hang
  | n + 1, x => do
    if x = 0 then return .ok none
    if ← q x then return .ok (some x)
    linkPointUA q h n (U.afterLocal h x)

/-- The loop of `link_point` for non-unique indices: hashed_index.hpp:1330-1342. -/
def linkPointNA (e : Id → Id → Asks Q Bool) (q : Id → Asks Q Bool) (h : Heap) : Nat → Id → Asks Q (Out (Option (Id × Id)))
  | 0, x => if x = 0 then pure (.ok none) else pure .hang
  | n + 1, x => do
    if x = 0 then return .ok none
    if ← q x then return .ok (some (x, ← lastOfRangeA .multi e h x))
    linkPointNA e q h n (N.nextToInspect h x)

/-- `link_point(v,pos)`: hashed_index.hpp:1312-1342. -/
def linkPointA (n : Nat) (c : Cat) (e : Id → Id → Asks Q Bool) (q : Id → Asks Q Bool) (hv : Nat) (h : Heap) (a : Arr) : Asks Q (Out Point) :=
  let b := a.at (a.position hv)
  match c with
  | .uniq => do
    match ← linkPointUA q h n (h.prior b) with
    | .ok none => return .ok (.accept (.bucket b))
    | .ok (some x) => return .ok (.reject x)
    | .threw _ => return .hang
    | .ub => return .ub
    | .hang => return .hang
  | .multi => do
    match ← linkPointNA e q h n (h.prior b) with
    | .ok none => return .ok (.accept (.bucket b))
    | .ok (some (f, l)) => return .ok (.accept (.group f l))
    | .threw _ => return .hang
    | .ub => return .ub
    | .hang => return .hang

/-- `in_place` for unique indices: hashed_index.hpp:1577-1588. -/
def inPlaceUA (q : Id → Asks Q Bool) (h : Heap) (x : Id) : Nat → Id → Bool → Asks Q (Out Bool)
  | 0, y, found => if y = 0 then pure (.ok found) else pure .hang
  | n + 1, y, found => do
    if y = 0 then return .ok found
    if y = x then inPlaceUA q h x n (U.afterLocal h y) true
    else if ← q y then return .ok false
    else inPlaceUA q h x n (U.afterLocal h y) found

/-- `in_place` for non-unique indices: hashed_index.hpp:1590-1645. -/
def inPlaceNA (q : Id → Asks Q Bool) (h : Heap) (x : Id) : Nat → Id → Bool → Nat → Asks Q (Out Bool)
  | 0, y, found, _ => if y = 0 then pure (.ok found) else pure .hang
  | n + 1, y, found, rs => do
    if y = 0 then return .ok found
    if N.isFirstOfGroup h y then
      if y = x then return .ok (← q (h.next y))
      else
        let z := N.afterLocal h (h.prior (h.next y))
        if ← q y then
          if found then return .ok false else return inPlaceScan h x z (n + 1) y
        else if rs == 1 && !found then return .ok false
        else if rs == 2 then return .ok found
        else inPlaceNA q h x n z found 0
    else if y = x then
      if rs == 1 then return .ok true
      else inPlaceNA q h x n (N.afterLocal h y) true 1
    else if ← q y then
      if rs == 0 && found then return .ok false
      else if rs == 1 && !found then return .ok false
      else if rs == 2 then return .ok false
      else inPlaceNA q h x n (N.afterLocal h y) found (rs + 1)
    else if rs == 1 && !found then return .ok false
    else if rs == 2 then return .ok found
    else inPlaceNA q h x n (N.afterLocal h y) found 0

/-- `in_place(x,k,buc)`: hashed_index.hpp:1572-1645. -/
def inPlaceA (n : Nat) (c : Cat) (q : Id → Asks Q Bool) (hk : Nat) (h : Heap) (a : Arr) (x : Id) : Asks Q (Out Bool) :=
  let y := h.prior (a.at (a.position hk))
  match c with
  | .uniq => inPlaceUA q h x n y false
  | .multi => inPlaceNA q h x n y false 0

end
end MI.Hash
