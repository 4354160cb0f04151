import Verif.Cont.Container
import Verif.Ord.Check
import Verif.Hash.Local
/-!
# Self checking: `invariant_()`

Models the functions compiled when `BOOST_MULTI_INDEX_ENABLE_INVARIANT_CHECKING` is defined. Every public operation ends (also when
it throws) with `BOOST_MULTI_INDEX_INVARIANT_ASSERT(invariant_())` (multi_index_container.hpp:72-77, 1203-1206). `size()` is the
number of elements the container has counted (`final_size_()`). The result `none` means that a loop exceeded its budget.
-/
namespace MI.Cont
open MI
variable {V : Type}

namespace Layer

/-- `for(it=x,s=0;it!=end();++it,++s){if(!body(it))return false;}`. `some none`: returned `false`; `some (some s)`: finished with
this `s`. The `for` statements of ord_index_impl.hpp:1095 (and, with an empty body, `std::distance` in 1090), hashed_index.hpp:1262,
sequenced_index.hpp:887. -/
def scan (n : Nat) (hd : Id) (L : Layer V) (body : Id → Option Bool) : Nat → Id → Nat → Option (Option Nat)
  | 0, x, s => if x = hd then some (some s) else none
  | m + 1, x, s =>
    if x = hd then some (some s)
    else
      match body x with
      | none => none
      | some false => some none
      | some true =>
        match L.next n x with
        | none => none
        | some y => scan n hd L body m y (s + 1)

/-- The body of the loop of ordered indices: ord_index_impl.hpp:1096-1110. `len`: the number of black nodes above the first. -/
def nodeCheck (n : Nat) (lt : V → V → Bool) (val : Id → V) (h : Ord.Heap) (root : Id) (len : Nat) (x : Id) : Option Bool :=
  let l := h.left x
  let r := h.right x
  if h.color x = .red ∧ ((l ≠ 0 ∧ h.color l = .red) ∨ (r ≠ 0 ∧ h.color r = .red)) then some false
  else if l ≠ 0 ∧ lt (val x) (val l) = true then some false
  else if r ≠ 0 ∧ lt (val r) (val x) = true then some false
  else if l = 0 ∧ r = 0 then
    match Ord.blackCount n h x root with
    | none => none
    | some b => if b ≠ len then some false else some (Ord.augInvariant h x)
  else some (Ord.augInvariant h x)

/-- The loop over the elements of one bucket: hashed_index.hpp:1269-1272. `pos x` is `find_bucket(*it)`. -/
def localScan (c : Hash.Cat) (h : Hash.Heap) (pos : Id → Nat) (buc : Nat) : Nat → Id → Nat → Option (Option Nat)
  | 0, x, ss => if x = 0 then some (some ss) else none
  | n + 1, x, ss =>
    if x = 0 then some (some ss)
    else if pos x ≠ buc then some none
    else localScan c h pos buc n (Hash.afterLocal c h x) (ss + 1)

/-- The loop over the buckets: hashed_index.hpp:1266-1276; `k` buckets are still to be visited, `s1` elements have been met. -/
def bucketScan (n : Nat) (c : Hash.Cat) (h : Hash.Heap) (a : Hash.Arr) (pos : Id → Nat) (size : Nat) : Nat → Nat → Option Bool
  | 0, s1 => some (s1 == size)
  | k + 1, s1 =>
    let buc := a.size - (k + 1)
    match localScan c h pos buc n (Hash.localBegin h a buc) 0 with
    | none => none
    | some none => some false
    | some (some ss) =>
      match Hash.bucketSize n c h a buc with
      | .ok m => if ss ≠ m then some false else bucketScan n c h a pos size k (s1 + ss)
      | _ => none

/-- The loop of random access indices, which also visits `end()`: random_access_index.hpp:983-986. -/
def rndScan (hd : Id) (s : Rnd.Arr) : Nat → Id → Nat → Option (Option Nat)
  | 0, _, _ => none
  | m + 1, x, k =>
    if s.arr (s.up x) ≠ x then some none
    else if x = hd then some (some k)
    else rndScan hd s m (Rnd.increment s x) (k + 1)

/-- `invariant_()` of one index, without the call of `super::invariant_()`: ord_index_impl.hpp:1082-1118, hashed_index.hpp:1255-1279,
sequenced_index.hpp:877-894, random_access_index.hpp:974-990. -/
def check (n : Nat) (hd : Id) (val : Id → V) (size : Nat) (L : Layer V) : Option Bool :=
  match L with
  | .ord _ lt h =>
    if size = 0 ∨ L.first hd = hd then
      some (decide (size = 0 ∧ L.first hd = hd ∧ h.left hd = hd ∧ h.right hd = hd))
    else
      match L.scan n hd (fun _ => some true) n (L.first hd) 0 with
      | none => none
      | some none => some false
      | some (some s) =>
        if s ≠ size then some false
        else
          match Ord.blackCount n h (h.left hd) (h.parent hd) with
          | none => none
          | some len =>
            match L.scan n hd (nodeCheck n lt val h (h.parent hd) len) n (L.first hd) 0 with
            | none => none
            | some none => some false
            | some (some _) =>
              match Ord.minimum h n (h.parent hd) with
              | none => none
              | some y =>
                if h.left hd ≠ y then some false
                else
                  match Ord.maximum h n (h.parent hd) with
                  | none => none
                  | some z => some (h.right hd == z)
  | .hash c _ hf _ _ h a =>
    if size = 0 ∨ L.first hd = hd then some (decide (size = 0 ∧ L.first hd = hd))
    else
      match L.scan n hd (fun _ => some true) n (L.first hd) 0 with
      | none => none
      | some none => some false
      | some (some s0) =>
        if s0 ≠ size then some false
        else bucketScan n c h a (fun x => a.position (hf (val x))) size a.size 0
  | .seq h =>
    if size = 0 ∨ L.first hd = hd then
      some (decide (size = 0 ∧ L.first hd = hd ∧ h.next hd = hd ∧ h.prior hd = hd))
    else
      match L.scan n hd (fun x => some (decide (h.prior (h.next x) = x ∧ h.next (h.prior x) = x))) n (L.first hd) 0 with
      | none => none
      | some none => some false
      | some (some s) => some (s == size)
  | .rnd s =>
    if size > s.cap then some false
    else if size = 0 ∨ L.first hd = hd then some (decide (size = 0 ∧ L.first hd = hd))
    else
      match rndScan hd s (n + 1) (L.first hd) 0 with
      | none => none
      | some none => some false
      | some (some k) => some (k == size)

end Layer

/-- `invariant_()` of a chain of indices: each index calls `super::invariant_()` last; `index_base::invariant_()` is `true`
(index_base.hpp:209). -/
def checkAll (n : Nat) (hd : Id) (val : Id → V) (size : Nat) : List (Layer V) → Option Bool
  | [] => some true
  | L :: Ls =>
    match L.check n hd val size with
    | none => none
    | some false => some false
    | some true => checkAll n hd val size Ls

/-- `invariant_()` of a container: multi_index_container.hpp:1196-1206. -/
def Container.check (val : Id → V) (c : Container V) : Option Bool := checkAll c.budget c.hd val c.count c.ls

end MI.Cont
