import Verif.Cont.Calls
import Verif.Spec.Distinct
/-!
# How many calls of user functions an operation may make

`n`: the number of elements of the container; `d`: the number of different keys of the index in question. All logarithms are to base 2.
-/
namespace MI.Cont
open MI
variable {V : Type}

/-- The number of different keys, if the index is hashed. -/
def Spec.keysIn (val : Id → V) (els : List Id) : Spec V → Nat
  | .hash _ eq _ => distinct (fun x y => eq (val x) (val y)) els
  | _ => 0

/-- Insertions, with or without a hint. -/
def insertBound (κ : CallKind) (n d : Nat) (hinted : Bool) : Spec V → Nat
  | .ord u _ =>
    match κ with
    | .less => 2 * Nat.log2 (n + 1) + (if u then 1 else 0) + (if hinted then 2 else 0)
    | .key => 1
    | _ => 0
  | .hash c _ _ =>
    match κ with
    | .same => 2 * d + (if c = .uniq then 0 else 1)
    | .hash => min n (2 * d) + 1
    | _ => 0
  | _ => 0

/-- `replace`. -/
def replaceBound (κ : CallKind) (n d : Nat) : Spec V → Nat
  | .ord u _ =>
    match κ with
    | .less => 2 * Nat.log2 (n + 1) + (if u then 1 else 0) + 2
    | .key => 1
    | _ => 0
  | .hash c _ _ =>
    match κ with
    | .same => 2 * d + (if c = .uniq then 0 else 1) + 1
    | .hash => 1
    | _ => 0
  | _ => 0

/-- `modify`. -/
def modifyBound (κ : CallKind) (n d : Nat) : Spec V → Nat
  | .ord u _ =>
    match κ with
    | .less => 2 * Nat.log2 (n + 1) + (if u then 1 else 0) + 2
    | .key => 1
    | _ => 0
  | .hash c _ _ =>
    match κ with
    | .same => 4 * d + (if c = .uniq then 0 else 1)
    | .hash => 1
    | _ => 0
  | _ => 0

/-- `modify` with rollback. -/
def modifyRbBound (κ : CallKind) (n d : Nat) : Spec V → Nat
  | .ord u _ =>
    match κ with
    | .less => 2 * Nat.log2 (n + 1) + (if u then 1 else 0) + 4
    | .key => 1
    | _ => 0
  | .hash c _ _ =>
    match κ with
    | .same => 6 * d + (if c = .uniq then 0 else 1)
    | .hash => 2
    | _ => 0
  | _ => 0

/-- The most calls of kind `κ` that an operation may make of the functions of index number `k`, specified by `S`, of its container. -/
def Op.bound (κ : CallKind) (k : Nat) (S : Spec V) (n d : Nat) : Op V → Nat
  | .insert _ _ _ _ hint _ | .emplace _ _ _ _ hint _ | .insertNh _ _ hint _ => insertBound κ n d hint.isSome S
  | .transfer .. => insertBound κ n d false S
  | .replace .. => replaceBound κ n d S
  | .modify .. => modifyBound κ n d S
  | .modifyRb .. => modifyRbBound κ n d S
  | .rehash _ k' _ _ => if κ = .hash ∧ k = k' then min n (2 * d) else 0
  | _ => 0

end MI.Cont
