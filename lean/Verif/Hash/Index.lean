import Verif.Hash.Heap
/-!
# Hashed indices: index operations

Models detail/bucket_array.hpp and hashed_index.hpp. User code (hash function, equality, key extraction) appears as functions on
node identities: `hash x` is `hash_(key(x->value()))`, `eq x y` is `eq_(key(x->value()),key(y->value()))`, and `p x` is
`eq_(k,key(x->value()))` for the key `k` of a lookup. Loops have an iteration budget; running out of it gives `Out.hang`.
-/
namespace MI.Hash
open MI

/-! ## Bucket arrays -/

/-- `BOOST_MULTI_INDEX_BA_SIZES` for 64 bit `unsigned long`: bucket_array.hpp:43-75. -/
def sizes : List Nat :=
  [53, 97, 193, 389, 769,
   1543, 3079, 6151, 12289, 24593,
   49157, 98317, 196613, 393241, 786433,
   1572869, 3145739, 6291469, 12582917, 25165843,
   50331653, 100663319, 201326611, 402653189, 805306457,
   1610612741, 3221225473,
   6442450939, 12884901893, 25769803751, 51539607551,
   103079215111, 206158430209, 412316860441, 824633720831,
   1649267441651, 3298534883309, 6597069766657, 13194139533299,
   26388279066623, 52776558133303, 105553116266489, 211106232532969,
   422212465066001, 844424930131963, 1688849860263953,
   3377699720527861, 6755399441055731, 13510798882111483,
   27021597764222939, 54043195528445957, 108086391056891903,
   216172782113783843, 432345564227567621, 864691128455135207,
   1729382256910270481, 3458764513820540933, 6917529027641081903,
   13835058055282163729, 18446744073709551557]

/-- The same for 32 bit `unsigned long`: bucket_array.hpp:43-53. -/
def sizes32 : List Nat := sizes.take 27 ++ [4294967291]

/-- `std::lower_bound(l,l+length,n)-l`, as the loop of the usual implementations (binary search over `[first,first+len)`);
the fuel bounds the number of halvings. -/
def lowerBound (l : List Nat) (n : Nat) : Nat → Nat → Nat → Nat
  | 0, first, _ => first
  | fuel + 1, first, len =>
    if len = 0 then first
    else
      let half := len / 2
      if l.getD (first + half) 0 < n then lowerBound l n fuel (first + half + 1) (len - half - 1)
      else lowerBound l n fuel first half

/-- `size_index(n)`: bucket_array.hpp:84-89. -/
def sizeIndex (l : List Nat) (n : Nat) : Nat :=
  let bound := lowerBound l n l.length 0 l.length
  if bound = l.length then bound - 1 else bound

/-- The size of the array built by the constructor for the size `n`: bucket_array.hpp:139-150. -/
def sizeFor (l : List Nat) (n : Nat) : Nat := l.getD (sizeIndex l n) 0

/-- A bucket array: its first bucket and its size; `base + size` is the end bucket. bucket_array.hpp:127-160. -/
structure Arr where
  base : Id
  size : Nat
deriving Repr, DecidableEq

/-- `at(n)`: bucket_array.hpp:161. -/
def Arr.at (a : Arr) (n : Nat) : Id := a.base + n

/-- `end()`: bucket_array.hpp:160. -/
def Arr.endB (a : Arr) : Id := a.base + a.size

/-- `position(hash)`: bucket_array.hpp:94-107, 154-157 (the switch selects `hash%sizes[size_index_]`). -/
def Arr.position (a : Arr) (hash : Nat) : Nat := hash % a.size

/-- First loop of `clear`: bucket_array.hpp:165. -/
def clearLoop (b : Id) : Nat → Heap → Heap
  | 0, h => h
  | n + 1, h => clearLoop b n (h.setPrior (b + n) 0)

/-- `clear(end_)`: bucket_array.hpp:163-168. The loop is run downwards; the order of its assignments does not matter. -/
def clear (h : Heap) (a : Arr) (hd : Id) : Heap :=
  let h := clearLoop a.base a.size h
  let h := h.setPrior hd hd
  let h := h.setPrior a.endB hd
  h.setNext hd a.endB

/-! ## Category dispatch -/

/-- The category of the index: hashed_index.hpp `hashed_unique_tag`, `hashed_non_unique_tag`. -/
inductive Cat where
  | uniq
  | multi
deriving Repr, DecidableEq

/-- `node_alg::after(x)`. -/
def after (c : Cat) (h : Heap) (x : Id) : Id :=
  match c with
  | .uniq => U.after h x
  | .multi => N.after h x

/-- `node_alg::after_local(x)`. -/
def afterLocal (c : Cat) (h : Heap) (x : Id) : Id :=
  match c with
  | .uniq => U.afterLocal h x
  | .multi => N.afterLocal h x

/-- `node_alg::next_to_inspect(x)`. -/
def nextToInspect (c : Cat) (h : Heap) (x : Id) : Id :=
  match c with
  | .uniq => U.nextToInspect h x
  | .multi => N.nextToInspect h x

/-- `node_alg::unlink(x)`. -/
def unlink (c : Cat) (h : Heap) (x : Id) : Heap :=
  match c with
  | .uniq => U.unlink h x
  | .multi => N.unlink h x

/-- `node_alg::unlink(x,undo)`. -/
def unlinkA (c : Cat) (h : Heap) (x : Id) : St :=
  match c with
  | .uniq => U.unlinkA { h := h } x
  | .multi => N.unlinkA { h := h } x

/-! ## Traversal -/

/-- `begin()`: hashed_index.hpp:245-255. -/
def begin (h : Heap) (hd : Id) : Id := h.prior (h.next hd)

/-- `last_of_range(x)`: hashed_index.hpp:1354-1370. -/
def lastOfRange (c : Cat) (eq : Id → Id → Bool) (h : Heap) (x : Id) : Id :=
  match c with
  | .uniq => x
  | .multi =>
    let y := h.next x
    let z := h.prior y
    if z = x then (if eq x y then y else x)
    else if h.prior z = x then x
    else z

/-- `end_of_range(x)`: hashed_index.hpp:1377-1402. -/
def endOfRange (c : Cat) (eq : Id → Id → Bool) (h : Heap) (x : Id) : Id :=
  match c with
  | .uniq => U.after h (lastOfRange .uniq eq h x)
  | .multi =>
    let y := h.next x
    let z := h.prior y
    if z = x then
      let yy := if eq x y then y else x
      if h.prior (h.next yy) = yy then h.next yy else h.prior (h.next yy)
    else if h.prior z = x then z
    else if h.prior (h.next z) = z then h.next z else h.prior (h.next z)

/-! ## Lookup -/

/-- The loop of `find`, `count`, `equal_range`, `erase(key)`: the first node satisfying `p` that is found on inspecting the bucket
from `x`. hashed_index.hpp:1703-1708. -/
def findLoop (c : Cat) (p : Id → Bool) (h : Heap) : Nat → Id → Out (Option Id)
  | 0, x => if x = 0 then .ok none else .hang
  | n + 1, x =>
    if x = 0 then .ok none
    else if p x then .ok (some x)
    else findLoop c p h n (nextToInspect c h x)

/-- `find(k,hash,eq)`: hashed_index.hpp:1698-1710. `hk` is `hash(k)`; `contains` (640-648) compares the result with `end()`. -/
def find (n : Nat) (c : Cat) (p : Id → Bool) (hk : Nat) (h : Heap) (a : Arr) (hd : Id) : Out Id :=
  match findLoop c p h n (h.prior (a.at (a.position hk))) with
  | .ok (some x) => .ok x
  | .ok none => .ok hd
  | .threw _ => .hang
  | .ub => .ub
  | .hang => .hang

/-- The loop counting from `x` to `y`: hashed_index.hpp:1737-1740. -/
def countLoop (c : Cat) (h : Heap) (y : Id) : Nat → Id → Nat → Out Nat
  | 0, _, _ => .hang
  | n + 1, x, res =>
    let x := after c h x
    if x = y then .ok (res + 1) else countLoop c h y n x (res + 1)

/-- `count(k,hash,eq)`: hashed_index.hpp:1724-1746. -/
def count (n : Nat) (c : Cat) (eq : Id → Id → Bool) (p : Id → Bool) (hk : Nat) (h : Heap) (a : Arr) : Out Nat :=
  match findLoop c p h n (h.prior (a.at (a.position hk))) with
  | .ok (some x) => countLoop c h (endOfRange c eq h x) n x 0
  | .ok none => .ok 0
  | .threw _ => .hang
  | .ub => .ub
  | .hang => .hang

/-- `equal_range(k,hash,eq)`: hashed_index.hpp:1758-1772. -/
def equalRange (n : Nat) (c : Cat) (eq : Id → Id → Bool) (p : Id → Bool) (hk : Nat) (h : Heap) (a : Arr) (hd : Id) :
    Out (Id × Id) :=
  match findLoop c p h n (h.prior (a.at (a.position hk))) with
  | .ok (some x) => .ok (x, endOfRange c eq h x)
  | .ok none => .ok (hd, hd)
  | .threw _ => .hang
  | .ub => .ub
  | .hang => .hang

/-- `bucket_size(m)`: hashed_index.hpp:674-682, the loop. -/
def bucketLoop (c : Cat) (h : Heap) : Nat → Id → Nat → Out Nat
  | 0, x, res => if x = 0 then .ok res else .hang
  | n + 1, x, res => if x = 0 then .ok res else bucketLoop c h n (afterLocal c h x) (res + 1)

/-- `bucket_size(m)`: hashed_index.hpp:674-682. -/
def bucketSize (n : Nat) (c : Cat) (h : Heap) (a : Arr) (m : Nat) : Out Nat := bucketLoop c h n (h.prior (a.at m)) 0

/-! ## Insertion -/

/-- The loop of `link_point` for unique indices: hashed_index.hpp:1317-1328. `some x`: rejected because of `x`. -/
def linkPointU (p : Id → Bool) (h : Heap) : Nat → Id → Out (Option Id)
  | 0, x => if x = 0 then .ok none else .hang
  | n + 1, x =>
    if x = 0 then .ok none
    else if p x then .ok (some x)
    else linkPointU p h n (U.afterLocal h x)

/-- The loop of `link_point` for non-unique indices: hashed_index.hpp:1330-1342. `some (first,last)`: the group found. -/
def linkPointN (eq : Id → Id → Bool) (p : Id → Bool) (h : Heap) : Nat → Id → Out (Option (Id × Id))
  | 0, x => if x = 0 then .ok none else .hang
  | n + 1, x =>
    if x = 0 then .ok none
    else if p x then .ok (some (x, lastOfRange .multi eq h x))
    else linkPointN eq p h n (N.nextToInspect h x)

/-- Where to link: `link_info`, hashed_index.hpp:1296-1310. -/
inductive Pos where
  | bucket (b : Id)
  | group (first last : Id)
deriving Repr, DecidableEq

/-- Result of `link_point`: rejected because of an element, or a position. -/
inductive Point where
  | reject (x : Id)
  | accept (pos : Pos)
deriving Repr, DecidableEq

/-- `link_point(v,pos)`: hashed_index.hpp:1312-1342, `pos` being initially the bucket of `v` (938-940). -/
def linkPoint (n : Nat) (c : Cat) (eq : Id → Id → Bool) (p : Id → Bool) (hv : Nat) (h : Heap) (a : Arr) : Out Point :=
  let b := a.at (a.position hv)
  match c with
  | .uniq =>
    match linkPointU p h n (h.prior b) with
    | .ok none => .ok (.accept (.bucket b))
    | .ok (some x) => .ok (.reject x)
    | .threw _ => .hang
    | .ub => .ub
    | .hang => .hang
  | .multi =>
    match linkPointN eq p h n (h.prior b) with
    | .ok none => .ok (.accept (.bucket b))
    | .ok (some (f, l)) => .ok (.accept (.group f l))
    | .threw _ => .hang
    | .ub => .ub
    | .hang => .hang

/-- `link(x,pos)`: hashed_index.hpp:1404-1426. -/
def link (c : Cat) (h : Heap) (x : Id) (pos : Pos) (hd : Id) : Heap :=
  match c, pos with
  | .uniq, .bucket b => U.link h x b hd
  | .uniq, .group b _ => U.link h x b hd
  | .multi, .bucket b => N.link h x b hd
  | .multi, .group f l => N.linkGroup h x f l

/-! ## Modification -/

/-- `in_place` for unique indices: hashed_index.hpp:1577-1588. -/
def inPlaceU (p : Id → Bool) (h : Heap) (x : Id) : Nat → Id → Bool → Out Bool
  | 0, y, found => if y = 0 then .ok found else .hang
  | n + 1, y, found =>
    if y = 0 then .ok found
    else if y = x then inPlaceU p h x n (U.afterLocal h y) true
    else if p y then .ok false
    else inPlaceU p h x n (U.afterLocal h y) found

/-- The inner loop of `in_place` for non-unique indices: hashed_index.hpp:1612-1616. -/
def inPlaceScan (h : Heap) (x z : Id) : Nat → Id → Out Bool
  | 0, _ => .hang
  | n + 1, y =>
    if y = x then .ok true
    else
      let y := N.afterLocal h y
      if y = z then .ok false else inPlaceScan h x z n y

/-- `in_place` for non-unique indices: hashed_index.hpp:1590-1645. -/
def inPlaceN (p : Id → Bool) (h : Heap) (x : Id) : Nat → Id → Bool → Nat → Out Bool
  | 0, y, found, _ => if y = 0 then .ok found else .hang
  | n + 1, y, found, rs =>
    if y = 0 then .ok found
    else if N.isFirstOfGroup h y then
      if y = x then .ok (p (h.next y))
      else
        let z := N.afterLocal h (h.prior (h.next y))
        if p y then
          if found then .ok false else inPlaceScan h x z (n + 1) y
        else if rs == 1 && !found then .ok false
        else if rs == 2 then .ok found
        else inPlaceN p h x n z found 0
    else if y = x then
      if rs == 1 then .ok true
      else inPlaceN p h x n (N.afterLocal h y) true 1
    else if p y then
      if rs == 0 && found then .ok false
      else if rs == 1 && !found then .ok false
      else if rs == 2 then .ok false
      else inPlaceN p h x n (N.afterLocal h y) found (rs + 1)
    else if rs == 1 && !found then .ok false
    else if rs == 2 then .ok found
    else inPlaceN p h x n (N.afterLocal h y) found 0

/-- `in_place(x,k,buc)`: hashed_index.hpp:1572-1645; `p y` is `eq_(k,key(y->value()))`, `hk` the hash of `k`. -/
def inPlace (n : Nat) (c : Cat) (p : Id → Bool) (hk : Nat) (h : Heap) (a : Arr) (x : Id) : Out Bool :=
  let y := h.prior (a.at (a.position hk))
  match c with
  | .uniq => inPlaceU p h x n y false
  | .multi => inPlaceN p h x n y false 0

/-! ## Rehashing -/

/-- State of the rehashing loop: the links, the pairs `(hashes[j],node_ptrs[j])` with the latest first, `within_bucket`. -/
structure RS where
  h : Heap
  log : List (Nat × Id) := []
  within : Bool := false

/-- The loop of `unchecked_rehash` for unique indices: hashed_index.hpp:1472-1484. `t` is the number of calls of the hash function
that succeed (`none`: all of them); the second result tells if the hash function threw. The budget is the number of remaining
iterations of the loop itself, `size()-i`. -/
def rehashLoopU (hash : Id → Nat) (na : Arr) (hd cpy : Id) : Nat → Option Nat → RS → RS × Bool
  | 0, _, s => (s, false)
  | _ + 1, some 0, s => (s, true)
  | n + 1, t, s =>
    let x := s.h.prior hd
    let hx := hash x
    let r := U.unlinkLast s.h hd
    let h := U.link r.1 x (na.at (na.position hx)) cpy
    rehashLoopU hash na hd cpy n (t.map (· - 1)) { h := h, log := (hx, x) :: s.log, within := !r.2 }

/-- The restoring loop for unique indices: hashed_index.hpp:1490-1496. `pb` is `prev_buc`, where `none` stands for the complement
of the bucket number that the first iteration computes, so that the test `buc==prev_buc` is false. -/
def restoreU (oa : Arr) (hd : Id) : Option Nat → List (Nat × Id) → Heap → Heap
  | _, [], h => h
  | pb, (hx, x) :: r, h =>
    let buc := oa.position hx
    let h := if pb = some buc then U.append h x hd else U.link h x (oa.at buc) hd
    restoreU oa hd (some buc) r h

/-- The initial `prev_buc`: hashed_index.hpp:1487-1488. -/
def prevBuc (oa : Arr) (s : RS) : Option Nat :=
  match s.log with
  | [] => none
  | (hx, _) :: _ => if s.within then some (oa.position hx) else none

/-- The end of `unchecked_rehash`: hashed_index.hpp:1504-1506, 1565-1567. -/
def rehashFinish (h : Heap) (hd cpy : Id) : Heap :=
  let h := h.setPrior hd (if h.prior cpy ≠ cpy then h.prior cpy else hd)
  let h := h.setNext hd (h.next cpy)
  let h := h.setPrior (h.prior (h.next hd)) hd
  h.setPrior (h.next (h.prior hd)) hd

/-- `unchecked_rehash(n)` for unique indices: hashed_index.hpp:1459-1509. `cpy` is the local node, `na` the new bucket array,
`size` is `size()`. On `true` (the hash function threw) the index keeps its old bucket array `oa`, else it takes `na`. -/
def rehashU (hash : Id → Nat) (size : Nat) (t : Option Nat) (h : Heap) (oa na : Arr) (hd cpy : Id) : Heap × Bool :=
  let h := clear h na cpy
  let r := rehashLoopU hash na hd cpy size t { h := h }
  if r.2 then (restoreU oa hd (prevBuc oa r.1) r.1.log r.1.h, true)
  else (rehashFinish r.1.h hd cpy, false)

/-- The loop of `unchecked_rehash` for non-unique indices: hashed_index.hpp:1525-1540. -/
def rehashLoopN (hash : Id → Nat) (na : Arr) (hd cpy : Id) : Nat → Option Nat → RS → Out (RS × Bool)
  | 0, t, s => if s.h.prior hd = hd then .ok (s, false) else if t = some 0 then .ok (s, true) else .hang
  | n + 1, t, s =>
    let x := s.h.prior hd
    if x = hd then .ok (s, false)
    else if t = some 0 then .ok (s, true)
    else
      let hx := hash x
      let r := N.unlinkLastGroup s.h hd
      let h := N.linkRange r.1 r.2.1 x (na.at (na.position hx)) cpy
      rehashLoopN hash na hd cpy n (t.map (· - 1)) { h := h, log := (hx, x) :: s.log, within := !r.2.2 }

/-- First node of the range to restore: hashed_index.hpp:1550-1554. -/
def rangeStart (h : Heap) (x : Id) : Id :=
  if h.next (h.prior x) ≠ x ∧ h.prior (h.next (h.prior x)) ≠ x then h.next (h.prior x) else x

/-- The restoring loop for non-unique indices: hashed_index.hpp:1547-1559. -/
def restoreN (oa : Arr) (hd : Id) : Option Nat → List (Nat × Id) → Heap → Heap
  | _, [], h => h
  | pb, (hx, x) :: r, h =>
    let buc := oa.position hx
    let y := rangeStart h x
    let h := N.unlinkRange h y x
    let h := if pb = some buc then N.appendRange h y x hd else N.linkRange h y x (oa.at buc) hd
    restoreN oa hd (some buc) r h

/-- `unchecked_rehash(n)` for non-unique indices: hashed_index.hpp:1511-1570. -/
def rehashN (hash : Id → Nat) (size : Nat) (t : Option Nat) (h : Heap) (oa na : Arr) (hd cpy : Id) : Out (Heap × Bool) :=
  let h := clear h na cpy
  if size = 0 then .ok (rehashFinish h hd cpy, false)
  else
    match rehashLoopN hash na hd cpy size t { h := h } with
    | .ok (s, true) => .ok (restoreN oa hd (prevBuc oa s) s.log s.h, true)
    | .ok (s, false) => .ok (rehashFinish s.h hd cpy, false)
    | .threw _ => .hang
    | .ub => .ub
    | .hang => .hang

/-- `unchecked_rehash(n)`: hashed_index.hpp:1457. -/
def rehash (c : Cat) (hash : Id → Nat) (size : Nat) (t : Option Nat) (h : Heap) (oa na : Arr) (hd cpy : Id) : Out (Heap × Bool) :=
  match c with
  | .uniq => .ok (rehashU hash size t h oa na hd cpy)
  | .multi => rehashN hash size t h oa na hd cpy

/-- The number of calls of the hash function that `unchecked_rehash(n)` makes: each call that returns is recorded in `hashes`
(hashed_index.hpp:1475-1478, 1529-1532); a call that throws is the last one. -/
def rehashCalls (c : Cat) (hash : Id → Nat) (size : Nat) (t : Option Nat) (h : Heap) (na : Arr) (hd cpy : Id) : Nat :=
  match c with
  | .uniq =>
    let r := rehashLoopU hash na hd cpy size t { h := clear h na cpy }
    r.1.log.length + if r.2 then 1 else 0
  | .multi =>
    if size = 0 then 0
    else
      match rehashLoopN hash na hd cpy size t { h := clear h na cpy } with
      | .ok (s, b) => s.log.length + if b then 1 else 0
      | _ => 0

end MI.Hash
