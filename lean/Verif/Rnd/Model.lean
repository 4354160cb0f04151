import Verif.Prelude
/-!
# Random access index: pointer array and back pointers

Models rnd_index_node.hpp, rnd_index_ptr_array.hpp, rnd_index_ops.hpp and the list operations of
random_access_index.hpp. A slot of the pointer array is identified by its offset from `ptrs()`, so a `ptr_pointer` is a
natural number; the array has `cap+1` slots, the slot `size` holding the header.
-/
namespace MI.Rnd
open MI

/-- `random_access_index_ptr_array` (rnd_index_ptr_array.hpp:122-124) together with the `up_` fields of the nodes
(rnd_index_node.hpp:192). -/
structure Arr where
  /-- contents of the slots -/
  arr : Nat → Id
  /-- the `up()` pointer of every node, as a slot offset -/
  up : Id → Nat
  size : Nat
  cap : Nat

/-- `*p=v; (*p)->up()=p;` -/
def Arr.put (s : Arr) (p : Nat) (v : Id) : Arr := { s with arr := upd s.arr p v, up := upd s.up v p }

/-- `std::swap(*p,*q); (*p)->up()=p; (*q)->up()=q;` -/
def Arr.swapSlots (s : Arr) (p q : Nat) : Arr :=
  let a := s.arr p
  let b := s.arr q
  let arr := upd (upd s.arr p b) q a
  let up := upd s.up (arr p) p
  { s with arr := arr, up := upd up (arr q) q }

/-! ## Iterators: rnd_index_node.hpp:51-69 -/

/-- `increment(x)`: rnd_index_node.hpp:51-54. -/
def increment (s : Arr) (x : Id) : Id := s.arr (s.up x + 1)

/-- `decrement(x)`: rnd_index_node.hpp:56-59. -/
def decrement (s : Arr) (x : Id) : Id := s.arr (s.up x - 1)

/-- `advance(x,n)`: rnd_index_node.hpp:61-64. -/
def advance (s : Arr) (x : Id) (n : Int) : Id := s.arr ((s.up x : Int) + n).toNat

/-- `distance(x,y)`: rnd_index_node.hpp:66-69. -/
def distance (s : Arr) (x y : Id) : Int := (s.up y : Int) - (s.up x : Int)

/-- `operator[](n)`, `at(n)` in range: random_access_index.hpp:311-321. -/
def nth (s : Arr) (n : Nat) : Id := s.arr n

/-! ## Node array algorithms: rnd_index_node.hpp:73-189 -/

/-- The loop of `extract(x,pend)`: rnd_index_node.hpp:144-148. First argument: number of iterations, which is
`pend-1-x` as `x<=pend-1` for all callers. -/
def extractGo : Nat → Arr → Nat → Arr
  | 0, s, _ => s
  | n + 1, s, x => extractGo n (s.put x (s.arr (x + 1))) (x + 1)

/-- `extract(x,pend)`: rnd_index_node.hpp:141-149. -/
def extract (s : Arr) (x pend : Nat) : Arr := extractGo (pend - 1 - x) s x

/-- The loop of `relocate(pos,x)` for `x>=pos`: rnd_index_node.hpp:82-86. First argument: `x-pos`. -/
def shiftGo : Nat → Arr → Nat → Arr
  | 0, s, _ => s
  | n + 1, s, x => shiftGo n (s.put x (s.arr (x - 1))) (x - 1)

/-- `relocate(pos,x)`: rnd_index_node.hpp:73-90. -/
def relocate1 (s : Arr) (pos x : Nat) : Arr :=
  let n := s.arr x
  if x < pos then (extract s x pos).put (pos - 1) n
  else (shiftGo (x - pos) s x).put pos n

/-- The inner loop of `relocate(pos,first,last)`: rnd_index_node.hpp:113-137, two steps per iteration as in the code.
`none`: the loop did not stop within the budget. -/
def cycleGo (begin_ nm m i : Nat) (tmp : Id) : Nat → Arr → Nat → Option Arr
  | 0, _, _ => none
  | fuel + 1, s, j =>
    let k := if j < nm then j + m else j - nm
    if k = i then some (s.put (begin_ + j) tmp)
    else
      let s := s.put (begin_ + j) (s.arr (begin_ + k))
      let j := if k < nm then k + m else k - nm
      if j = i then some (s.put (begin_ + k) tmp)
      else
        let s := s.put (begin_ + k) (s.arr (begin_ + j))
        cycleGo begin_ nm m i tmp fuel s j

/-- The outer loop: rnd_index_node.hpp:111-138. First argument: `p-i`. -/
def cyclesGo (begin_ n nm m : Nat) : Nat → Arr → Nat → Option Arr
  | 0, s, _ => some s
  | r + 1, s, i =>
    match cycleGo begin_ nm m i (s.arr (begin_ + i)) n s i with
    | none => none
    | some s => cyclesGo begin_ n nm m r s (i + 1)

/-- `relocate(pos,first,last)`: rnd_index_node.hpp:92-139. -/
def relocateR (s : Arr) (pos first last : Nat) : Option Arr :=
  let (begin_, middle, end_) := if pos < first then (pos, first, last) else (first, last, pos)
  let n := end_ - begin_
  let m := middle - begin_
  let nm := n - m
  let p := Nat.gcd n m
  cyclesGo begin_ n nm m p s 0

/-- `transfer(pbegin0,pend0,pbegin1)` into a new array: rnd_index_node.hpp:151-159. `src` is the old array; first argument:
number of slots still to copy. -/
def transferGo (src : Nat → Id) : Nat → Arr → Nat → Arr
  | 0, s, _ => s
  | n + 1, s, p => transferGo src n (s.put p (src p)) (p + 1)

/-- `reverse(pbegin,pend)`: rnd_index_node.hpp:161-170. First argument: `d-i`. -/
def reverseGo : Nat → Arr → Nat → Nat → Arr
  | 0, s, _, _ => s
  | d + 1, s, pbegin, pend => reverseGo d (s.swapSlots pbegin (pend - 1)) (pbegin + 1) (pend - 1)

/-- First loop of `gather_nulls`: rnd_index_node.hpp:175-181. `nul` is the null pointer. First argument: `x-p`.
Returns also `pbegin`. -/
def gatherFwd (nul : Id) : Nat → Arr → Nat → Nat → Arr × Nat
  | 0, s, pbegin, _ => (s, pbegin)
  | n + 1, s, pbegin, p =>
    if s.arr p ≠ nul then gatherFwd nul n (s.put pbegin (s.arr p)) (pbegin + 1) (p + 1)
    else gatherFwd nul n s pbegin (p + 1)

/-- Second loop of `gather_nulls`: rnd_index_node.hpp:182-187. First argument: `p-x`. -/
def gatherBwd (nul : Id) : Nat → Arr → Nat → Nat → Arr
  | 0, s, _, _ => s
  | n + 1, s, pend, p =>
    if s.arr (p - 1) ≠ nul then gatherBwd nul n (s.put (pend - 1) (s.arr (p - 1))) (pend - 1) (p - 1)
    else gatherBwd nul n s pend (p - 1)

/-- `gather_nulls(pbegin,pend,x)` over the whole array: rnd_index_node.hpp:172-189. -/
def gatherNulls (nul : Id) (s : Arr) (x : Nat) : Arr × Nat :=
  let r := gatherFwd nul x s 0 0
  (gatherBwd nul (s.size - x) r.1 s.size s.size, r.2)

/-! ## Pointer array: rnd_index_ptr_array.hpp -/

/-- Construction for `size = 0`: rnd_index_ptr_array.hpp:50-58; `junk` is the uninitialized storage. -/
def empty (junk : Nat → Id) (up : Id → Nat) (header : Id) : Arr :=
  Arr.put ⟨junk, up, 0, 0⟩ 0 header

/-- `set_capacity(c)`: rnd_index_ptr_array.hpp:131-137. `junk`: contents of the new uninitialized storage. -/
def setCapacity (junk : Nat → Id) (s : Arr) (c : Nat) : Arr :=
  let s1 := transferGo s.arr (s.size + 1) { s with arr := junk } 0
  { s1 with cap := c }

/-- `reserve(c)`: rnd_index_ptr_array.hpp:70-73. -/
def reserve (junk : Nat → Id) (s : Arr) (c : Nat) : Arr := if c > s.cap then setCapacity junk s c else s

/-- `room_for_one()`: rnd_index_ptr_array.hpp:63-68. -/
def roomForOne (junk : Nat → Id) (s : Arr) : Arr :=
  if s.size = s.cap then reserve junk s (if s.cap ≤ 10 then 15 else s.cap + s.cap / 2) else s

/-- `shrink_to_fit()`: rnd_index_ptr_array.hpp:75-78. -/
def shrinkToFit (junk : Nat → Id) (s : Arr) : Arr := if s.cap > s.size then setCapacity junk s s.size else s

/-- `push_back(x)`: rnd_index_ptr_array.hpp:84-91. Writing slot `size+1` beyond the storage is undefined behaviour:
`none`. -/
def pushBack (s : Arr) (x : Id) : Option Arr :=
  if s.size + 1 ≤ s.cap then
    let s := s.put (s.size + 1) (s.arr s.size)
    let s := s.put s.size x
    some { s with size := s.size + 1 }
  else none

/-- `erase(x)`: rnd_index_ptr_array.hpp:93-97. -/
def erase (s : Arr) (x : Id) : Arr :=
  let s := extract s (s.up x) (s.size + 1)
  { s with size := s.size - 1 }

/-- `clear()`: rnd_index_ptr_array.hpp:99-104. -/
def clear (s : Arr) : Arr :=
  let s := s.put 0 (s.arr s.size)
  { s with size := 0 }

/-! ## random_access_index.hpp -/

/-- `insert_` of an accepted (`acc`) or rejected node: random_access_index.hpp:826-845: room is made first. -/
def insert_ (junk : Nat → Id) (s : Arr) (x : Id) (acc : Bool) : Option Arr :=
  let s := roomForOne junk s
  if acc then pushBack s x else some s

/-- `insert(position,x)`: random_access_index.hpp:349-359 (same code 361-371, 405-416, 1098-1110). -/
def insertAt (junk : Nat → Id) (s : Arr) (header position x : Id) (acc : Bool) : Option Arr :=
  match insert_ junk s x acc with
  | none => none
  | some s => if acc ∧ position ≠ header then some (relocate1 s (s.up position) (s.up x)) else some s

/-- `relocate(position,i)`: random_access_index.hpp:713-722 (same in `splice`, 566-570). -/
def relocate (s : Arr) (position i : Id) : Arr :=
  if position ≠ i then relocate1 s (s.up position) (s.up i) else s

/-- `relocate(position,first,last)`: random_access_index.hpp:724-737 (same in `internal_splice`, 1165-1171). -/
def relocateRange (s : Arr) (position first last : Id) : Option Arr :=
  if position ≠ last then relocateR s (s.up position) (s.up first) (s.up last) else some s

/-- The insertion loop of `insert_iter`: random_access_index.hpp:1051-1053. `vs`: node, acceptance (`none`: the insertion
throws). Returns the array, the number of insertions and whether the loop ended without an exception. -/
def insertLoop (junk : Nat → Id) : List (Id × Option Bool) → Arr → Nat → Option (Arr × Nat × Bool)
  | [], s, n => some (s, n, true)
  | (_, none) :: _, s, n => some (roomForOne junk s, n, false)
  | (x, some acc) :: r, s, n =>
    match insert_ junk s x acc with
    | none => none
    | some s => insertLoop junk r s (if acc then n + 1 else n)

/-- `insert(position,first,last)`: random_access_index.hpp:1044-1061 (and 373-390, 1063-1081): the relocation is done in
the normal and in the exceptional path alike. -/
def insertIter (junk : Nat → Id) (s : Arr) (header position : Id) (vs : List (Id × Option Bool)) : Out Arr :=
  match insertLoop junk vs s 0 with
  | none => .ub
  | some (s, n, fin) =>
    match relocateRange s position (advance s header (-(n : Int))) header with
    | none => .hang
    | some s => if fin then .ok s else .threw s

/-- `while(n--)pop_back();` with `pop_back()` erasing `--end()`: random_access_index.hpp:344,448,634,644. -/
def popBackN (header : Id) : Nat → Arr → Arr
  | 0, s => s
  | n + 1, s => popBackN header n (erase s (decrement s header))

/-- `erase(position)`: random_access_index.hpp:428-436: the array and the returned iterator. -/
def eraseAt (s : Arr) (x : Id) : Arr × Id := (erase s x, increment s x)

/-- `erase(first,last)`: random_access_index.hpp:438-450. -/
def eraseRange (s : Arr) (header first last : Id) : Option Arr :=
  let n := (distance s first last).toNat
  match relocateRange s header first last with
  | none => none
  | some s => some (popBackN header n s)

/-- `random_access_index_remove`: rnd_index_ops.hpp:40-50. `pred k x`: `k`-th call of the predicate (`none`: throws).
First argument: `last-first`. Returns the array and `res`. -/
def removeGo (pred : Nat → Id → Option Bool) : Nat → Arr → Nat → Nat → Nat → Out (Arr × Nat)
  | 0, s, _, _, res => .ok (s, res)
  | n + 1, s, k, first, res =>
    match pred k (s.arr first) with
    | none => .threw (s, res)
    | some true => removeGo pred n s (k + 1) (first + 1) res
    | some false =>
      let s := if first ≠ res then s.swapSlots first res else s
      removeGo pred n s (k + 1) (first + 1) (res + 1)

/-- `remove_if(pred)`: random_access_index.hpp:637-645. -/
def removeIf (pred : Nat → Id → Option Bool) (s : Arr) (header : Id) : Out Arr :=
  match removeGo pred s.size s 0 0 0 with
  | .ok (s, res) => .ok (popBackN header (distance s (s.arr res) header).toNat s)
  | .threw (s, _) => .threw s
  | .ub => .ub
  | .hang => .hang

/-- The loop of `random_access_index_unique`: rnd_index_ops.hpp:65-76. The predicate is called with the last kept element
first. First argument: `last-first`, `first` already incremented. -/
def uniqueGo (pred : Nat → Id → Id → Option Bool) : Nat → Arr → Nat → Nat → Nat → Out (Arr × Nat)
  | 0, s, _, _, res => .ok (s, res + 1)
  | n + 1, s, k, first, res =>
    match pred k (s.arr res) (s.arr first) with
    | none => .threw (s, res)
    | some true => uniqueGo pred n s (k + 1) (first + 1) res
    | some false =>
      let res := res + 1
      let s := if first ≠ res then s.swapSlots first res else s
      uniqueGo pred n s (k + 1) (first + 1) res

/-- `random_access_index_unique`: rnd_index_ops.hpp:54-80. -/
def uniqueAll (pred : Nat → Id → Id → Option Bool) (s : Arr) : Out (Arr × Nat) :=
  if s.size = 0 then .ok (s, 0) else uniqueGo pred (s.size - 1) s 0 1 0

/-- `unique(binary_pred)`: random_access_index.hpp:657-665. -/
def unique (pred : Nat → Id → Id → Option Bool) (s : Arr) (header : Id) : Out Arr :=
  match uniqueAll pred s with
  | .ok (s, res) => .ok (popBackN header (distance s (s.arr res) header).toNat s)
  | .threw (s, _) => .threw s
  | .ub => .ub
  | .hang => .hang

/-- The merging loop of `random_access_index_inplace_merge`: rnd_index_ops.hpp:98-109: the auxiliary array filled.
First arguments: `last0-first0` and `last1-first1`. `none`: the comparison threw (the auxiliary array is dropped). -/
def mergeBuf (cmp : Nat → Id → Id → Option Bool) (a : Nat → Id) : Nat → Nat → Nat → Nat → Nat → Option (List Id)
  | 0, n1, _, _, first1 => some ((List.range n1).map (fun i => a (first1 + i)))
  | n0 + 1, 0, _, first0, _ => some ((List.range (n0 + 1)).map (fun i => a (first0 + i)))
  | n0 + 1, n1 + 1, k, first0, first1 =>
    match cmp k (a first1) (a first0) with
    | none => none
    | some true => (mergeBuf cmp a (n0 + 1) n1 (k + 1) first0 (first1 + 1)).map (a first1 :: ·)
    | some false => (mergeBuf cmp a n0 (n1 + 1) (k + 1) (first0 + 1) first1).map (a first0 :: ·)
  termination_by n0 n1 => n0 + n1

/-- Writing an auxiliary buffer back: rnd_index_ops.hpp:111-117 and 190-194. -/
def writeBack : List Id → Arr → Nat → Arr
  | [], s, _ => s
  | v :: vs, s, p => writeBack vs (s.put p v) (p + 1)

/-- `random_access_index_inplace_merge(al,ptrs,first1,comp)`: rnd_index_ops.hpp:82-118. -/
def inplaceMerge (cmp : Nat → Id → Id → Option Bool) (s : Arr) (first1 : Nat) : Out Arr :=
  match mergeBuf cmp s.arr first1 (s.size - first1) 0 0 first1 with
  | none => .threw s
  | some buf => .ok (writeBack buf s 0)

/-- `random_access_index_sort(al,ptrs,comp)`: rnd_index_ops.hpp:147-195. `std::stable_sort` is not modelled: `ssort`
stands for it, applied to the copy of the pointers (`none`: a comparison threw). -/
def sort (ssort : List Id → Option (List Id)) (s : Arr) : Out Arr :=
  if s.size ≤ 1 then .ok s
  else
    match ssort ((List.range s.size).map s.arr) with
    | none => .threw s
    | some buf => .ok (writeBack buf s 0)

/-- `reverse()`: random_access_index.hpp:705-709. -/
def reverse (s : Arr) : Arr := reverseGo (s.size / 2) s 0 s.size

/-- `rearrange(first)`: random_access_index.hpp:739-752; `vs` are the nodes of the given sequence. -/
def rearrangeGo : List Id → Arr → Nat → Arr
  | [], s, _ => s
  | v :: vs, s, p0 => rearrangeGo vs (s.swapSlots p0 (s.up v)) (p0 + 1)

/-- `rearrange(first)`. -/
def rearrange (s : Arr) (vs : List Id) : Arr := rearrangeGo vs s 0

/-- Nulling the slots of a range: random_access_index.hpp:1149-1151. -/
def nullOut (nul : Id) : List Id → Arr → Arr
  | [], s => s
  | v :: vs, s => nullOut nul vs { s with arr := upd s.arr (s.up v) nul }

/-- Same-container `splice` of a range given by another index: random_access_index.hpp:1144-1163. `vs`: the nodes of the
range. -/
def internalSplice (nul : Id) (s : Arr) (position : Id) (vs : List Id) : Arr :=
  let s := nullOut nul vs s
  let r := gatherNulls nul s (s.up position)
  writeBack vs r.1 r.2

/-- `copy_(x,map)`: random_access_index.hpp:808-824; `src` is the source array. First argument: slots still to copy. -/
def copyGo (src : Nat → Id) (map : Id → Id) : Nat → Arr → Nat → Arr
  | 0, s, _ => s
  | n + 1, s, p => copyGo src map n (s.put p (map (src p))) (p + 1)


/-! ## Loading: rnd_index_loader.hpp -/

/-- State of `random_access_index_loader_base` after `preprocess()`: the pointer array now holds next pointers
(`nxt`), `prev_spc` the previous ones (`prv`), and `up` keeps mapping every node to its slot
(rnd_index_loader.hpp:143-147). -/
structure Loader where
  nxt : Nat → Id
  prv : Nat → Id
  up : Id → Nat
  size : Nat
  header : Id

/-- `preprocess()`: rnd_index_loader.hpp:99-115. `std::rotate_copy` and `std::rotate` are modelled by what they do: the
first writes slot `size`, then slots `0 … size-1`; the second moves slot 0 behind slot `size`. -/
def preprocess (s : Arr) : Loader where
  nxt i := if i = s.size then s.arr 0 else s.arr (i + 1)
  prv i := if i = 0 then s.arr s.size else s.arr (i - 1)
  up := s.up
  size := s.size
  header := s.arr s.size

/-- `next(x)=v`: rnd_index_loader.hpp:132-135. -/
def Loader.setNext (l : Loader) (x v : Id) : Loader := { l with nxt := upd l.nxt (l.up x) v }

/-- `prev(x)=v`: rnd_index_loader.hpp:137-140. -/
def Loader.setPrev (l : Loader) (x v : Id) : Loader := { l with prv := upd l.prv (l.up x) v }

/-- `next(x)`. -/
def Loader.next (l : Loader) (x : Id) : Id := l.nxt (l.up x)

/-- `prev(x)`. -/
def Loader.prev (l : Loader) (x : Id) : Id := l.prv (l.up x)

/-- `rearrange(position_,x)`: rnd_index_loader.hpp:84-93 (`none`: the null position). -/
def Loader.rearrange (l : Loader) (position : Option Id) (x : Id) : Loader :=
  let position := position.getD l.header
  let l := l.setNext (l.prev x) (l.next x)
  let l := l.setPrev (l.next x) (l.prev x)
  let l := l.setPrev x position
  let l := l.setNext x (l.next position)
  let l := l.setPrev (l.next x) x
  l.setNext (l.prev x) x

/-- The loop of the destructor: rnd_index_loader.hpp:70-80. First argument: `i` before the decrement. -/
def Loader.finishGo : Nat → Loader → Id → Loader
  | 0, l, _ => l
  | i + 1, l, n =>
    let n := l.prev n
    let d := l.up n
    let l :=
      if d ≠ i then
        let m := l.prev (l.nxt i)
        let l := { l with up := upd (upd l.up m (l.up n)) n (l.up m) }
        let l := { l with nxt := upd l.nxt d (l.nxt i) }
        { l with prv := upd (upd l.prv d (l.prv i)) i (l.prv d) }
      else l
    finishGo i (l.setNext n n) n

/-- The destructor after preprocessing: rnd_index_loader.hpp:63-82; the pointer array regained. -/
def Loader.finish (l : Loader) (cap : Nat) : Arr :=
  let l := Loader.finishGo l.size (l.setNext l.header l.header) l.header
  ⟨l.nxt, l.up, l.size, cap⟩

/-- `load_`: random_access_index.hpp:953-968 with the calls of the rearranger that the archive induces (also those made
before an exception): preprocessing happens only if there is a call. -/
def load (s : Arr) (moves : List (Option Id × Id)) : Arr :=
  match moves with
  | [] => s
  | _ => (moves.foldl (fun l mv => l.rearrange mv.1 mv.2) (preprocess s)).finish s.cap


/-! ## Two containers -/

/-- `final_transfer_range_`: multi_index_container.hpp:976-985, seen by the random access indices of both containers:
destination and source. `dec x`: whether the destination accepts `x` (`none`: a user call throws). The source unlinks
an accepted node before the destination links it (index_base.hpp:131-142), so their `up` fields are kept apart here. -/
def transferRange (junk : Nat → Id) (dec : Id → Option Bool) : List Id → Arr → Arr → Out (Arr × Arr)
  | [], d, s => .ok (d, s)
  | x :: vs, d, s =>
    match dec x with
    | none => .threw (roomForOne junk d, s)
    | some acc =>
      match insert_ junk d x acc with
      | none => .ub
      | some d => transferRange junk dec vs d (if acc then erase s x else s)

/-- `splice(position,x,first,last)` from another container: `external_splice`, random_access_index.hpp:1195-1213. -/
def externalSplice (junk : Nat → Id) (dec : Id → Option Bool) (d s : Arr) (header position : Id) (vs : List Id) :
    Out (Arr × Arr) :=
  let n := d.size
  match transferRange junk dec vs d s with
  | .ok (d, s) =>
    match relocateRange d position (nth d n) header with
    | none => .hang
    | some d => .ok (d, s)
  | .threw (d, s) =>
    match relocateRange d position (nth d n) header with
    | none => .hang
    | some d => .threw (d, s)
  | .ub => .ub
  | .hang => .hang

/-- `merge(x,comp)` with another container: random_access_index.hpp:678-688. `vs`: the elements of `x`. -/
def merge (junk : Nat → Id) (dec : Id → Option Bool) (cmp : Nat → Id → Id → Option Bool) (d s : Arr) (header : Id) (vs : List Id) :
    Out (Arr × Arr) :=
  let n := d.size
  match externalSplice junk dec d s header header vs with
  | .ok (d, s) =>
    match inplaceMerge cmp d n with
    | .ok d => .ok (d, s)
    | .threw d => .threw (d, s)
    | .ub => .ub
    | .hang => .hang
  | r => r

/-! ## Histories -/

/-- Operations on one random access index. Positions are offsets (`begin()+p`). Nodes are given with the decision of the
other indices on them (`none`: a user call throws). -/
inductive Op where
  | insert (p : Nat) (x : Id) (dec : Option Bool)
  | insertRange (p : Nat) (vs : List (Id × Option Bool))
  | erase (p : Nat)
  | eraseRange (p q : Nat)
  | relocate (p i : Nat)
  | relocateRange (p i j : Nat)
  | reverse
  | rearrange (vs : List Id)
  | splice (p : Nat) (vs : List Id)
  | removeIf (pred : Nat → Id → Option Bool)
  | unique (pred : Nat → Id → Id → Option Bool)
  | sort (ssort : List Id → Option (List Id))
  | reserve (n : Nat)
  | shrinkToFit
  | clear
  | load (moves : List (Option Id × Id))

/-- The state an outcome leaves; `none` for undefined behaviour and non-termination. -/
def Out.state {α : Type} : Out α → Option α
  | .ok s => some s
  | .threw s => some s
  | _ => none

/-- One operation. -/
def step (junk : Nat → Id) (nul header : Id) (s : Arr) : Op → Option Arr
  | .insert _ _ none => some (roomForOne junk s)
  | .insert p x (some acc) => insertAt junk s header (s.arr p) x acc
  | .insertRange p vs => Out.state (insertIter junk s header (s.arr p) vs)
  | .erase p => some (eraseAt s (s.arr p)).1
  | .eraseRange p q => Rnd.eraseRange s header (s.arr p) (s.arr q)
  | .relocate p i => some (Rnd.relocate s (s.arr p) (s.arr i))
  | .relocateRange p i j => Rnd.relocateRange s (s.arr p) (s.arr i) (s.arr j)
  | .reverse => some (Rnd.reverse s)
  | .rearrange vs => some (Rnd.rearrange s vs)
  | .splice p vs => some (internalSplice nul s (s.arr p) vs)
  | .removeIf pred => Out.state (Rnd.removeIf pred s header)
  | .unique pred => Out.state (Rnd.unique pred s header)
  | .sort ssort => Out.state (Rnd.sort ssort s)
  | .reserve n => some (Rnd.reserve junk s n)
  | .shrinkToFit => some (Rnd.shrinkToFit junk s)
  | .clear => some (Rnd.clear s)
  | .load moves => some (Rnd.load s moves)

/-- A history. -/
def run (junk : Nat → Id) (nul header : Id) : List Op → Arr → Option Arr
  | [], s => some s
  | op :: ops, s =>
    match step junk nul header s op with
    | none => none
    | some s => run junk nul header ops s

end MI.Rnd
