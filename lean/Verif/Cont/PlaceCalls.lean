import Verif.Cont.Calls
/-!
# Loading: where comparison objects are called

The calls of the rearranger of ordered non-unique indices (`Verif/Cont/Place.lean`) once more, with every call of the comparison object explicit, so that each of them may throw. The
other indices call no function of theirs when they are loaded.
-/
namespace MI.Cont
open MI
variable {V : Type}

/-- A comparison made in a search. -/
def UserCall.ofSearch (k : Nat) : Ord.Cmp V V → UserCall V
  | .before a b => .less k a b
  | .after a b => .less k a b

/-- The new position: ord_index_impl.hpp:1505-1512 (`threw`: inconsistent rearrangement). -/
def ordTargetA (n : Nat) (hd : Id) (val : Id → V) (h : Ord.Heap) (x : Id) : Option Id → Asks (Ord.Cmp V V) (Out Id)
  | none => do
    match ← Ord.lowerBoundA val n h hd (val x) with
    | none => return .hang
    | some p => return .ok p
  | some p => do
    if ← Asks.ask (.before (val p) (val x)) then
      match ← Ord.lowerBoundA val n h hd (val x) with
      | none => return .hang
      | some p => return .ok p
    else if ← Asks.ask (.before (val x) (val p)) then return .threw p
    else
      match Ord.increment h n p with
      | none => return .hang
      | some p => return .ok p

/-- What is done with the new position: ord_index_impl.hpp:1514-1519. -/
def ordPut (n : Nat) (hd : Id) (h : Ord.Heap) (x : Id) : Out Id → Out Ord.Heap
  | .ok p =>
    if p ≠ x then
      match Ord.extract n h hd x with
      | none => .hang
      | some h =>
        match Ord.restore n h x p hd with
        | none => .hang
        | some h => .ok h
    else .ok h
  | .threw _ => .threw h
  | .ub => .ub
  | .hang => .hang

/-- `rearranger(position,x)` of an ordered non-unique index, the index number `k`: ord_index_impl.hpp:1503-1521. All calls of the comparison object precede the changes of
the tree. -/
def ordRearrangerR (k n : Nat) (hd : Id) (val : Id → V) (h : Ord.Heap) (position : Option Id) (x : Id) : Runs (UserCall V) (Out Ord.Heap) := do
  match ← Runs.attempt (.ofSearch k) (ordTargetA n hd val h x position) with
  | none => return .threw h
  | some p => return ordPut n hd h x p

/-- The calls of the rearranger, up to the first exception: ord_index_impl.hpp:1490-1501. -/
def ordPlaceR (k n : Nat) (hd : Id) (val : Id → V) (h : Ord.Heap) : List (Option Id × Id) → Runs (UserCall V) (Out Ord.Heap)
  | [] => return .ok h
  | (p, x) :: ins => do
    match ← ordRearrangerR k n hd val h p x with
    | .ok h => ordPlaceR k n hd val h ins
    | .threw h => return .threw h
    | .ub => return .ub
    | .hang => return .hang

/-- The same tree under a new index. -/
def Layer.withTree (u : Bool) (lt : V → V → Bool) : Out Ord.Heap → Out (Layer V)
  | .ok h => .ok (.ord u lt h)
  | .threw h => .threw (.ord u lt h)
  | .ub => .ub
  | .hang => .hang

/-- `load_` of index number `k` (see `Layer.place`). -/
def Layer.placeR (k n : Nat) (hd : Id) (val : Id → V) (fail : Bool) (ins : List (Option Id × Id)) : Layer V → Runs (UserCall V) (Out (Layer V))
  | .ord false lt h => do return Layer.withTree false lt (← ordPlaceR k n hd val h ins)
  | L => return L.place n hd val fail ins

/-- `Op.place` with its calls: index `k` of container `i` carries out the instructions of the archive. -/
def World.placeR (w : World V) (i k : Nat) (fail : Bool) (ins : List (Option Id × Id)) : Runs (UserCall V) (Out (World V × Ret)) :=
  match w.cs[i]? with
  | none => return .ub
  | some c =>
    match c.ls[k]? with
    | none => return .ub
    | some L => do return w.putLayer i k c (← L.placeR k c.budget c.hd w.m.val fail ins)

end MI.Cont
