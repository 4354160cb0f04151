import Verif.Cont.Ideal
import Verif.Cont.Ask
/-!
What the ideal containers of Verif/Cont/Ideal.lean answer to the questions of Verif/Cont/Ask.lean: functions on lists.
-/
namespace MI.Ideal
open MI MI.Cont
variable {V : Type}

/-- An index is not hashed: the order of its elements is determined. -/
def Fixed : Spec V → Prop
  | .hash _ _ _ => False
  | _ => True

/-- The number of elements before a position. -/
def offset (xs : List Id) : Option Id → Nat
  | some x => xs.idxOf x
  | none => xs.length

/-- Equality of indices: of the values in the same order, or, for hashed indices, up to order. -/
def SameValues (eq : V → V → Bool) (vs ws : List V) : Spec V → Prop
  | .hash _ _ _ => SameUpTo eq vs ws
  | _ => List.Forall₂ (fun a b => eq a b = true) vs ws

namespace State
variable (a : State V)

/-- Index `k` of container `i`. -/
def index (i k : Nat) : Option (Index V) :=
  match a.boxes[i]? with
  | none => none
  | some b => b[k]?

/-- Its elements. -/
def list (i k : Nat) : List Id :=
  match a.index i k with
  | none => []
  | some (_, xs) => xs

/-- Its index specifier is `S`. -/
def Is (i k : Nat) (S : Spec V) : Prop := ∃ xs, a.index i k = some (S, xs)

/-- It is ordered, and `below`, `above` are as its documentation requires of comparisons with a key of another type. -/
def Compat (i k : Nat) (below above : V → Bool) : Prop := ∃ u lt, a.Is i k (.ord u lt) ∧ CompatExt lt (fun v (_ : Unit) => below v) (fun _ v => above v)

/-- It is ordered, and `lower`, `upper` are bounds as documented. -/
def Bounds (i k : Nat) (lower upper : Option (V → Bool)) : Prop :=
  ∃ u lt, a.Is i k (.ord u lt) ∧ (∀ p, lower = some p → LowerBounder lt p) ∧ ∀ p, upper = some p → UpperBounder lt p

/-- It is hashed, and `p`, `hk` are as its documentation requires of a key of another type. -/
def CompatH (i k : Nat) (p : V → Bool) (hk : Nat) : Prop :=
  ∃ g eq hf, a.Is i k (.hash g eq hf) ∧ CompatHash eq hf (fun (_ : Unit) v => p v) (fun _ => hk)

/-- The questions a program may ask: the container and the index exist and the index has such a function, positions are positions of the index, there is an element
to be read, and functions given for keys of another type meet their requirements. Of hashed indices, the position `begin()` and the steps of iterators are not determined by
the ideal; `walk` has whole traversals. -/
def Fine : Ask V → Prop
  | .size i => i < a.boxes.length
  | .value x => (∃ i k, x ∈ a.list i k) ∨ some x ∈ a.hs
  | .walk i k => ∃ S, a.Is i k S
  | .first i k => ∃ S, a.Is i k S ∧ Fixed S
  | .next i k x => ∃ S, a.Is i k S ∧ Fixed S ∧ x ∈ a.list i k
  | .prior i k p => ∃ S, a.Is i k S ∧ Fixed S ∧ (∀ x, p = some x → x ∈ a.list i k) ∧ 0 < offset (a.list i k) p
  | .find i k below above | .contains i k below above | .lower i k below above | .upper i k below above | .count i k below above | .equalRange i k below above
  | .findRank i k below above | .lowerRank i k below above | .upperRank i k below above | .equalRangeRank i k below above | .countRanked i k below above =>
    a.Compat i k below above
  | .range i k lower upper | .rangeRank i k lower upper => a.Bounds i k lower upper
  | .nth i k _ => ∃ u lt, a.Is i k (.ord u lt)
  | .rank i k p => (∃ u lt, a.Is i k (.ord u lt)) ∧ ∀ x, p = some x → x ∈ a.list i k
  | .hashFind i k p hk | .hashCount i k p hk | .hashRange i k p hk => a.CompatH i k p hk
  | .at i k n => a.Is i k .rnd ∧ n < (a.list i k).length
  | .distance i k p q => a.Is i k .rnd ∧ (∀ x, p = some x → x ∈ a.list i k) ∧ ∀ x, q = some x → x ∈ a.list i k
  | .equal eq i k j l => ∃ S T, a.Is i k S ∧ a.Is j l T ∧
    match S with
    | .hash _ e _ => T = S ∧ EqRel eq ∧ ∀ v w, eq v w = true → e v w = true
    | _ => Fixed T
  | .less _ i k j l => ∃ S T, a.Is i k S ∧ Fixed S ∧ a.Is j l T ∧ Fixed T

/-- The answers the ideal allows: one, except that it does not say in which order a hashed index is traversed, and which element `find` returns if
several match in a hashed index. -/
def Says : Ask V → Ans V → Prop
  | .size i, r => r = .num (a.list i 0).length
  | .value x, r => r = .value (a.val x)
  | .walk i k, r => ∃ S ys, a.Is i k S ∧ Shows (a.list i k) ys S ∧ r = .list ys
  | .first i k, r => r = .pos (a.list i k)[0]?
  | .next i k x, r => r = .pos (a.list i k)[(a.list i k).idxOf x + 1]?
  | .prior i k p, r => r = .pos (a.list i k)[offset (a.list i k) p - 1]?
  | .find i k below above, r => r = .pos ((a.list i k).find? fun z => !below (a.val z) && !above (a.val z))
  | .contains i k below above, r => r = .bool ((a.list i k).any fun z => !below (a.val z) && !above (a.val z))
  | .lower i k below _, r => r = .pos ((a.list i k).find? fun z => !below (a.val z))
  | .upper i k _ above, r => r = .pos ((a.list i k).find? fun z => above (a.val z))
  | .count i k below above, r | .countRanked i k below above, r => r = .num ((a.list i k).countP fun z => !below (a.val z) && !above (a.val z))
  | .equalRange i k below above, r => r = .pair ((a.list i k).find? fun z => !below (a.val z)) ((a.list i k).find? fun z => above (a.val z))
  | .range i k lower upper, r => r = .pair ((a.list i k).find? fun z => holds lower (a.val z)) ((a.list i k).find? fun z => holds lower (a.val z) && !holds upper (a.val z))
  | .nth i k n, r => r = .pos (a.list i k)[n]?
  | .rank i k p, r => r = .num (offset (a.list i k) p)
  | .findRank i k below above, r => r = .num ((a.list i k).findIdx fun z => !below (a.val z) && !above (a.val z))
  | .lowerRank i k below _, r => r = .num ((a.list i k).countP fun z => below (a.val z))
  | .upperRank i k _ above, r => r = .num ((a.list i k).countP fun z => !above (a.val z))
  | .equalRangeRank i k below above, r => r = .nums ((a.list i k).countP fun z => below (a.val z)) ((a.list i k).countP fun z => !above (a.val z))
  | .rangeRank i k lower upper, r => r = .nums ((a.list i k).countP fun z => !holds lower (a.val z))
      ((a.list i k).countP (fun z => !holds lower (a.val z)) + (a.list i k).countP fun z => holds lower (a.val z) && holds upper (a.val z))
  | .hashFind i k p _, r => (∃ x ∈ a.list i k, p (a.val x) = true ∧ r = .pos (some x)) ∨ ((∀ x ∈ a.list i k, p (a.val x) = false) ∧ r = .pos none)
  | .hashCount i k p _, r => r = .num ((a.list i k).countP fun z => p (a.val z))
  | .hashRange i k p _, r => ∃ ys, ys.Perm ((a.list i k).filter fun z => p (a.val z)) ∧ r = .list ys
  | .at i k n, r => r = .pos (a.list i k)[n]?
  | .distance i k p q, r => r = .int ((offset (a.list i k) q : Int) - offset (a.list i k) p)
  | .equal eq i k j l, r => ∃ S b, a.Is i k S ∧ r = .bool b ∧ (b = true ↔ SameValues eq ((a.list i k).map a.val) ((a.list j l).map a.val) S)
  | .less lt i k j l, r => ∃ b, r = .bool b ∧ (b = true ↔ SeqLess lt ((a.list i k).map a.val) ((a.list j l).map a.val))

/-- The questions with only one answer. -/
def Sure : Ask V → Prop
  | .walk i k => ∃ S, a.Is i k S ∧ Fixed S
  | .hashFind .. | .hashRange .. => False
  | _ => True

end State
end MI.Ideal
