import Verif.Ord.Search
import Verif.Hash.Index
/-!
# Lookup arguments that are converted in advance

Lookup functions take arguments of other types than the key. If the comparison object or the equality predicate cannot take the argument as it is, but
can take a key, and the argument can be converted to a key, then the code converts it once before the lookup ("the promotion is made once in advance
to increase efficiency", ord_index_ops.hpp:56-58). Which of the two is done is decided at compile time, here by the fields of a structure.
-/
namespace MI
open MI

/-- What C++ makes of the calls of a function object `f` of two arguments with keys (type `K`) and lookup arguments (type `CK`). `left`, `right` and
`both` are the results of the calls as the user writes them, whichever overload is called with whichever conversions of the arguments. -/
structure Fn (K CK : Type) where
  /-- `f(x,k)` -/
  left : CK → K → Bool
  /-- `f(k,x)` -/
  right : K → CK → Bool
  /-- `f(k,k')` -/
  both : K → K → Bool
  /-- `is_transparent<F,CK,K>`: `f(x,k)` converts no argument, or it cannot be determined. detail/is_transparent.hpp:24-31. -/
  exactLeft : Bool
  /-- `is_transparent<F,K,CK>`. -/
  exactRight : Bool
  /-- `is_transparent<F,K,K>`. -/
  exactBoth : Bool
  /-- The implicit conversion of lookup arguments to keys, if there is one: `is_convertible<const CK,K>`. -/
  conv : Option (CK → K)

variable {K CK : Type}

/-- `promotes_1st_arg<F,CK,K>`, with the conversion: detail/promotes_arg.hpp:58-64. -/
def Fn.first (f : Fn K CK) : Option (CK → K) := if f.exactLeft = false ∧ f.exactBoth = true then f.conv else none
/-- `promotes_2nd_arg<F,K,CK>`, with the conversion: detail/promotes_arg.hpp:66-73. -/
def Fn.second (f : Fn K CK) : Option (CK → K) := if f.exactRight = false ∧ f.exactBoth = true then f.conv else none
/-- `mpl::and_<promotes_1st_arg<F,CK,K>,promotes_2nd_arg<F,K,CK> >`: ord_index_ops.hpp:73-75, 215-217, rnk_index_ops.hpp:99-101, 263-265. -/
def Fn.twice (f : Fn K CK) : Option (CK → K) :=
  match f.first, f.second with
  | some g, some _ => some g
  | _, _ => none

namespace Ord
variable (key : Id → K)

/-- `find(x,comp)` with `ordered_index_find`: ord_index_ops.hpp:60-109, ord_index_impl.hpp:599-619. -/
def findArg (f : Fn K CK) (n : Nat) (h : Heap) (hd : Id) (x : CK) : Option Id :=
  match f.twice with
  | some g => find key f.both f.both n h hd (g x)
  | none => find key f.right f.left n h hd x

/-- `contains(x,comp)`: ord_index_impl.hpp:635-646. -/
def containsArg (f : Fn K CK) (n : Nat) (h : Heap) (hd : Id) (x : CK) : Option Bool :=
  (findArg key f n h hd x).map (fun p => decide (p ≠ hd))

/-- `lower_bound(x,comp)` with `ordered_index_lower_bound`: ord_index_ops.hpp:111-155, ord_index_impl.hpp:648-661. -/
def lowerBoundArg (f : Fn K CK) (n : Nat) (h : Heap) (hd : Id) (x : CK) : Option Id :=
  match f.second with
  | some g => lowerBound key f.both n h hd (g x)
  | none => lowerBound key f.right n h hd x

/-- `upper_bound(x,comp)` with `ordered_index_upper_bound`: ord_index_ops.hpp:157-201, ord_index_impl.hpp:663-676. -/
def upperBoundArg (f : Fn K CK) (n : Nat) (h : Heap) (hd : Id) (x : CK) : Option Id :=
  match f.first with
  | some g => upperBound key f.both n h hd (g x)
  | none => upperBound key f.left n h hd x

/-- `equal_range(x,comp)` with `ordered_index_equal_range`: ord_index_ops.hpp:203-258, ord_index_impl.hpp:678-696. -/
def equalRangeArg (f : Fn K CK) (n : Nat) (h : Heap) (hd : Id) (x : CK) : Option (Id × Id) :=
  match f.twice with
  | some g => equalRange key f.both f.both n h hd (g x)
  | none => equalRange key f.right f.left n h hd x

/-- `count(x,comp)`: ord_index_impl.hpp:621-633. -/
def countArg (f : Fn K CK) (n : Nat) (h : Heap) (hd : Id) (x : CK) : Option Nat :=
  match equalRangeArg key f n h hd x with
  | none => none
  | some (a, b) => distance h n n a b

/-- `find_rank(x,comp)` with `ranked_index_find_rank`: rnk_index_ops.hpp:86-113, ranked_index.hpp:86-99. -/
def findRankArg (f : Fn K CK) (n : Nat) (h : Heap) (hd : Id) (x : CK) : Option Nat :=
  match f.twice with
  | some g => findRank key f.both f.both n h hd (g x)
  | none => findRank key f.right f.left n h hd x

/-- `lower_bound_rank(x,comp)` with `ranked_index_lower_bound_rank`: rnk_index_ops.hpp:143-168. -/
def lowerBoundRankArg (f : Fn K CK) (n : Nat) (h : Heap) (hd : Id) (x : CK) : Option Nat :=
  match f.second with
  | some g => lowerBoundRank key f.both n h hd (g x)
  | none => lowerBoundRank key f.right n h hd x

/-- `upper_bound_rank(x,comp)` with `ranked_index_upper_bound_rank`: rnk_index_ops.hpp:196-221. -/
def upperBoundRankArg (f : Fn K CK) (n : Nat) (h : Heap) (hd : Id) (x : CK) : Option Nat :=
  match f.first with
  | some g => upperBoundRank key f.both n h hd (g x)
  | none => upperBoundRank key f.left n h hd x

/-- `equal_range_rank(x,comp)` with `ranked_index_equal_range_rank`: rnk_index_ops.hpp:249-278. -/
def equalRangeRankArg (f : Fn K CK) (n : Nat) (h : Heap) (hd : Id) (x : CK) : Option (Nat × Nat) :=
  match f.twice with
  | some g => equalRangeRank key f.both f.both n h hd (g x)
  | none => equalRangeRank key f.right f.left n h hd x

end Ord

/-- What the calls of a hash function give: `hash(x)` for a lookup argument and `hash(k)` for a key, whichever overloads and conversions are used. -/
structure HashFn (K CK : Type) where
  onArg : CK → Nat
  onKey : K → Nat

namespace Hash
variable (key : Id → K)

/-- `find(k,hash,eq)`: hashed_index.hpp:602-611, 1684-1710. The converted argument is what is hashed, too. -/
def findArg (f : Fn K CK) (hf : HashFn K CK) (n : Nat) (c : Cat) (h : Heap) (a : Arr) (hd : Id) (x : CK) : Out Id :=
  match f.first with
  | some g => find n c (fun y => f.both (g x) (key y)) (hf.onKey (g x)) h a hd
  | none => find n c (fun y => f.left x (key y)) (hf.onArg x) h a hd

/-- `count(k,hash,eq)`: hashed_index.hpp:619-628, 1712-1746; `eq` is the predicate of the index. -/
def countArg (eq : K → K → Bool) (f : Fn K CK) (hf : HashFn K CK) (n : Nat) (c : Cat) (h : Heap) (a : Arr) (x : CK) : Out Nat :=
  match f.first with
  | some g => count n c (fun y z => eq (key y) (key z)) (fun y => f.both (g x) (key y)) (hf.onKey (g x)) h a
  | none => count n c (fun y z => eq (key y) (key z)) (fun y => f.left x (key y)) (hf.onArg x) h a

/-- `equal_range(k,hash,eq)`: hashed_index.hpp:652-661, 1745-1778. -/
def equalRangeArg (eq : K → K → Bool) (f : Fn K CK) (hf : HashFn K CK) (n : Nat) (c : Cat) (h : Heap) (a : Arr) (hd : Id) (x : CK) : Out (Id × Id) :=
  match f.first with
  | some g => equalRange n c (fun y z => eq (key y) (key z)) (fun y => f.both (g x) (key y)) (hf.onKey (g x)) h a hd
  | none => equalRange n c (fun y z => eq (key y) (key z)) (fun y => f.left x (key y)) (hf.onArg x) h a hd

end Hash
end MI
