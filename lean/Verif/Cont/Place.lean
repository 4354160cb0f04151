import Verif.Cont.Spec
import Verif.Spec.Lists
/-!
The rearrangers that loading uses: each index puts elements where the archive says.
-/
namespace MI.Cont
open MI
variable {V : Type}

/-- `rearranger(position,x)` of a sequenced index: sequenced_index.hpp:934-939, `relink`: seq_index_node.hpp:65-71 (`none`: null
position). -/
def seqRearranger (h : Seq.Heap) (hd : Id) (position : Option Id) (x : Id) : Seq.Heap :=
  let position := h.next (position.getD hd)
  if position ≠ x then h.relink position x else h

/-- `rearranger(position,x)` of an ordered non-unique index: ord_index_impl.hpp:1503-1521 (inconsistent
rearrangements throw). `n`: budget of the loops. -/
def ordRearranger (n : Nat) (hd : Id) (val : Id → V) (lt : V → V → Bool) (h : Ord.Heap) (position : Option Id) (x : Id) : Out Ord.Heap :=
  let target : Out Id :=
    match position with
    | none =>
      match Ord.lowerBound val lt n h hd (val x) with
      | none => .hang
      | some p => .ok p
    | some p =>
      if lt (val p) (val x) then
        match Ord.lowerBound val lt n h hd (val x) with
        | none => .hang
        | some p => .ok p
      else if lt (val x) (val p) then .threw p
      else
        match Ord.increment h n p with
        | none => .hang
        | some p => .ok p
  match target with
  | .ok p =>
    if p ≠ x then
      match Ord.extract n h hd x with
      | none => .hang
      | some h =>
        match Ord.restore n h x p hd with
        | none => .hang
        | some h => .ok h
    else .ok h
  | .threw _ => .threw h
  | .ub => .ub
  | .hang => .hang

/-- The calls of the rearranger of an ordered non-unique index, up to the first exception. -/
def ordPlace (n : Nat) (hd : Id) (val : Id → V) (lt : V → V → Bool) (h : Ord.Heap) : List (Option Id × Id) → Out Ord.Heap
  | [] => .ok h
  | (p, x) :: ins =>
    match ordRearranger n hd val lt h p x with
    | .ok h => ordPlace n hd val lt h ins
    | .threw h => .threw h
    | .ub => .ub
    | .hang => .hang

/-- What `load_` of an index does with the calls of its rearranger that the archive induces: ord_index_impl.hpp:1467-1474 (unique:
none), 1490-1501, hashed_index.hpp:1243-1249 (none), sequenced_index.hpp:862-871, random_access_index.hpp:953-968 (`fail`: the
allocation of the auxiliary array throws; the array is allocated by the first call). -/
def Layer.place (n : Nat) (hd : Id) (val : Id → V) (fail : Bool) (ins : List (Option Id × Id)) : Layer V → Out (Layer V)
  | .ord false lt h =>
    match ordPlace n hd val lt h ins with
    | .ok h => .ok (.ord false lt h)
    | .threw h => .threw (.ord false lt h)
    | .ub => .ub
    | .hang => .hang
  | .seq h => .ok (.seq (ins.foldl (fun h i => seqRearranger h hd i.1 i.2) h))
  | .rnd s => if fail = true ∧ ins ≠ [] then .threw (.rnd s) else .ok (.rnd (Rnd.load s ins))
  | L => .ok L

/-! ## What it means -/

/-- `x` moved to the beginning of the elements with equivalent keys: after all elements that are less. -/
def frontOf (val : Id → V) (lt : V → V → Bool) (xs : List Id) (x : Id) : List Id :=
  (xs.erase x).takeWhile (fun a => lt (val a) (val x)) ++ x :: (xs.erase x).dropWhile (fun a => lt (val a) (val x))

/-- The sequence after the instruction "put `x` right after `p`" (`none`: at the beginning). In an ordered index, equivalence of
keys limits the movement: if `p` is less than `x`, `x` goes before the elements equivalent to it; if `p` is greater than `x`, there is no
result (`none`). Unique ordered indices and hashed indices have no such instructions. -/
def Spec.move (val : Id → V) (xs : List Id) (p : Option Id) (x : Id) : Spec V → Option (List Id)
  | .ord false lt =>
    match p with
    | none => some (frontOf val lt xs x)
    | some q =>
      if lt (val q) (val x) then some (frontOf val lt xs x)
      else if lt (val x) (val q) then none
      else some (moveAfter xs (some q) x)
  | .ord true _ => some xs
  | .hash _ _ _ => some xs
  | _ => some (moveAfter xs p x)

/-- The sequence after a list of instructions, up to the first one that has no result. -/
def Spec.moves (S : Spec V) (val : Id → V) (xs : List Id) : List (Option Id × Id) → List Id × Bool
  | [] => (xs, true)
  | (p, x) :: ins =>
    match S.move val xs p x with
    | some xs' => S.moves val xs' ins
    | none => (xs, false)

end MI.Cont
