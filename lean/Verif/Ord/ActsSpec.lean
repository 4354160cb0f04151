import Verif.Ord.Acts
import Verif.Ord.Tree
/-!
# Ordered indices: histories of operations

When an index holds elements in its order, and which operations may be called then.
-/
namespace MI.Ord
open MI

variable {K : Type} (lt : K → K → Bool) (u : Bool) (hd : Id)

/-- An element with key `a` may stand before one with key `b`: it is not greater, and in a unique index it is less. -/
def mayPrecede (a b : K) : Prop :=
  match u with
  | true => lt a b = true
  | false => lt b a = false

/-- The elements are in the order of the index. -/
def OrderedBy (key : Id → K) (xs : List Id) : Prop := xs.Pairwise (fun a b => mayPrecede lt u (key a) (key b))

/-- The index with header `hd` holds the elements `xs`, in order. -/
def Idx.Holds (s : Idx K) (xs : List Id) : Prop := Rep s.h hd xs ∧ OrderedBy lt u s.key xs ∧ s.count = xs.length

/-- The precondition of an operation on an index that holds `xs`: a new element gets a new node, hints are elements or `end()`, and other
operations are for elements. -/
def Act.Legal (xs : List Id) : Act K → Prop
  | .insert x _ hint => x ≠ 0 ∧ x ∉ hd :: xs ∧ ∀ q, hint = some q → q ∈ xs ++ [hd]
  | .erase x => x ∈ xs
  | .replace x _ => x ∈ xs
  | .modify x _ => x ∈ xs

/-- What an operation may make of the elements. -/
def Act.Effect (xs : List Id) (a : Act K) (xs' : List Id) : Prop :=
  match a with
  | .insert x _ _ => xs'.Perm (x :: xs) ∨ (u = true ∧ xs' = xs)
  | .erase x => xs' = xs.erase x
  | .replace _ _ => xs'.Perm xs
  | .modify x _ => xs'.Perm xs ∨ (u = true ∧ xs' = xs.erase x)

/-- A history: every operation is called with its precondition met, and with `ok`. -/
def History (ok : Idx K → List Id → Act K → Prop) (n : Nat) (s : Idx K) : List (Act K) → Prop
  | [] => True
  | a :: as => (∃ xs, s.Holds lt u hd xs ∧ a.Legal hd xs ∧ ok s xs a) ∧ ∀ s' r, act lt u n hd s a = some (s', r) → History ok n s' as

/-- Any history. -/
def LegalHistory : Nat → Idx K → List (Act K) → Prop := History lt u hd (fun _ _ _ => True)

/-- An empty index: `empty_initialize()` has been called for its header. -/
def Idx.empty (key : Id → K) (h : Heap) : Idx K := ⟨key, emptyInit h hd, 0⟩

/-- The documented complexity signature (ord_indices.html:444-456) without the cases in which a hint is good or an element stays in its place: insertion,
replacement and modification of one of `m` elements are logarithmic, deletion is constant. -/
def Act.signature (m : Nat) : Act K → Nat
  | .erase _ => 1
  | _ => Nat.log2 (m + 1) + 1

/-- The signature of a history. -/
def signatureOf (n : Nat) (s : Idx K) : List (Act K) → Nat
  | [] => 0
  | a :: as =>
    match act lt u n hd s a with
    | none => 0
    | some (s', _) => a.signature s.count + signatureOf n s' as

/-- An insertion with a hint, and the hint element is immediately after a point where the new element may be inserted. -/
def WellHinted (s : Idx K) (xs : List Id) : Act K → Prop
  | .insert _ k (some q) => ∃ a b, xs = a ++ b ∧ q = hdOr hd b ∧ (∀ z ∈ a, mayPrecede lt u (s.key z) k) ∧ (∀ z ∈ b, mayPrecede lt u k (s.key z))
  | _ => False

/-- A hinted insertion at the end, or an erasure. -/
def EndOrErase (s : Idx K) (xs : List Id) : Act K → Prop
  | .insert x k hint => hint = some hd ∧ WellHinted lt u hd s xs (.insert x k hint)
  | .erase _ => True
  | _ => False

/-- Work at the ends only: insertions before the first element with the hint `begin()`, or after the last one with the hint `end()`, and erasures of the first
element. -/
def AtEnds (s : Idx K) (xs : List Id) : Act K → Prop
  | .insert x k hint => (hint = some (hdOr hd xs) ∨ hint = some hd) ∧ WellHinted lt u hd s xs (.insert x k hint)
  | .erase x => ∃ v, xs = x :: v
  | _ => False

/-- `++it`, `m` times, with the rounds this takes. -/
def advanceS (h : Heap) (n : Nat) : Nat → Id → Option (Id × Nat)
  | 0, x => some (x, 0)
  | m + 1, x =>
    match incrementS h n x with
    | none => none
    | some (y, w) => (advanceS h n m y).map (fun (z, w') => (z, w + w'))

end MI.Ord
