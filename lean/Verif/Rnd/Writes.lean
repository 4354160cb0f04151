import Verif.Rnd.Model
/-!
# Random access index: the model with writes of slots counted

The functions of `Verif/Rnd/Model.lean` again, over the array together with a counter that is incremented by every write of a slot of the pointer
array (each of which comes with the write of one back pointer). `Verif/Rnd/WritesLemmas.lean` proves for each function that the array is
what the function of the model gives. The lines of code are those cited there.
-/
namespace MI.Rnd
open MI

/-- The array and the number of slots written so far. -/
abbrev W := Arr × Nat

/-- `*p=v; (*p)->up()=p;`: one write. -/
def W.put (w : W) (p : Nat) (v : Id) : W := (w.1.put p v, w.2 + 1)

/-- `std::swap(*p,*q); …`: two writes. -/
def W.swapSlots (w : W) (p q : Nat) : W := (w.1.swapSlots p q, w.2 + 2)

/-- The loop of `extract(x,pend)`: rnd_index_node.hpp:144-148. -/
def extractGoW : Nat → W → Nat → W
  | 0, w, _ => w
  | n + 1, w, x => extractGoW n (w.put x (w.1.arr (x + 1))) (x + 1)

/-- `extract(x,pend)`: rnd_index_node.hpp:141-149. -/
def extractW (w : W) (x pend : Nat) : W := extractGoW (pend - 1 - x) w x

/-- The loop of `relocate(pos,x)` for `x>=pos`: rnd_index_node.hpp:82-86. -/
def shiftGoW : Nat → W → Nat → W
  | 0, w, _ => w
  | n + 1, w, x => shiftGoW n (w.put x (w.1.arr (x - 1))) (x - 1)

/-- `relocate(pos,x)`: rnd_index_node.hpp:73-90. -/
def relocate1W (w : W) (pos x : Nat) : W :=
  let n := w.1.arr x
  if x < pos then (extractW w x pos).put (pos - 1) n
  else (shiftGoW (x - pos) w x).put pos n

/-- The inner loop of `relocate(pos,first,last)`: rnd_index_node.hpp:113-137. -/
def cycleGoW (begin_ nm m i : Nat) (tmp : Id) : Nat → W → Nat → Option W
  | 0, _, _ => none
  | fuel + 1, w, j =>
    let k := if j < nm then j + m else j - nm
    if k = i then some (w.put (begin_ + j) tmp)
    else
      let w := w.put (begin_ + j) (w.1.arr (begin_ + k))
      let j := if k < nm then k + m else k - nm
      if j = i then some (w.put (begin_ + k) tmp)
      else
        let w := w.put (begin_ + k) (w.1.arr (begin_ + j))
        cycleGoW begin_ nm m i tmp fuel w j

/-- The outer loop: rnd_index_node.hpp:111-138. -/
def cyclesGoW (begin_ n nm m : Nat) : Nat → W → Nat → Option W
  | 0, w, _ => some w
  | r + 1, w, i =>
    match cycleGoW begin_ nm m i (w.1.arr (begin_ + i)) n w i with
    | none => none
    | some w => cyclesGoW begin_ n nm m r w (i + 1)

/-- `relocate(pos,first,last)`: rnd_index_node.hpp:92-139. -/
def relocateRW (w : W) (pos first last : Nat) : Option W :=
  let (begin_, middle, end_) := if pos < first then (pos, first, last) else (first, last, pos)
  let n := end_ - begin_
  let m := middle - begin_
  let nm := n - m
  let p := Nat.gcd n m
  cyclesGoW begin_ n nm m p w 0

/-- `transfer(pbegin0,pend0,pbegin1)`: rnd_index_node.hpp:151-159. -/
def transferGoW (src : Nat → Id) : Nat → W → Nat → W
  | 0, w, _ => w
  | n + 1, w, p => transferGoW src n (w.put p (src p)) (p + 1)

/-- `reverse(pbegin,pend)`: rnd_index_node.hpp:161-170. -/
def reverseGoW : Nat → W → Nat → Nat → W
  | 0, w, _, _ => w
  | d + 1, w, pbegin, pend => reverseGoW d (w.swapSlots pbegin (pend - 1)) (pbegin + 1) (pend - 1)

/-- First loop of `gather_nulls`: rnd_index_node.hpp:175-181. -/
def gatherFwdW (nul : Id) : Nat → W → Nat → Nat → W × Nat
  | 0, w, pbegin, _ => (w, pbegin)
  | n + 1, w, pbegin, p =>
    if w.1.arr p ≠ nul then gatherFwdW nul n (w.put pbegin (w.1.arr p)) (pbegin + 1) (p + 1)
    else gatherFwdW nul n w pbegin (p + 1)

/-- Second loop of `gather_nulls`: rnd_index_node.hpp:182-187. -/
def gatherBwdW (nul : Id) : Nat → W → Nat → Nat → W
  | 0, w, _, _ => w
  | n + 1, w, pend, p =>
    if w.1.arr (p - 1) ≠ nul then gatherBwdW nul n (w.put (pend - 1) (w.1.arr (p - 1))) (pend - 1) (p - 1)
    else gatherBwdW nul n w pend (p - 1)

/-- `gather_nulls(pbegin,pend,x)`: rnd_index_node.hpp:172-189. -/
def gatherNullsW (nul : Id) (w : W) (x : Nat) : W × Nat :=
  let r := gatherFwdW nul x w 0 0
  (gatherBwdW nul (w.1.size - x) r.1 w.1.size w.1.size, r.2)

/-- `set_capacity(c)`: rnd_index_ptr_array.hpp:131-137. -/
def setCapacityW (junk : Nat → Id) (w : W) (c : Nat) : W :=
  let w1 := transferGoW w.1.arr (w.1.size + 1) ({ w.1 with arr := junk }, w.2) 0
  ({ w1.1 with cap := c }, w1.2)

/-- `reserve(c)`: rnd_index_ptr_array.hpp:70-73. -/
def reserveW (junk : Nat → Id) (w : W) (c : Nat) : W := if c > w.1.cap then setCapacityW junk w c else w

/-- `room_for_one()`: rnd_index_ptr_array.hpp:63-68. -/
def roomForOneW (junk : Nat → Id) (w : W) : W :=
  if w.1.size = w.1.cap then reserveW junk w (if w.1.cap ≤ 10 then 15 else w.1.cap + w.1.cap / 2) else w

/-- `shrink_to_fit()`: rnd_index_ptr_array.hpp:75-78. -/
def shrinkToFitW (junk : Nat → Id) (w : W) : W := if w.1.cap > w.1.size then setCapacityW junk w w.1.size else w

/-- `push_back(x)`: rnd_index_ptr_array.hpp:84-91. -/
def pushBackW (w : W) (x : Id) : Option W :=
  if w.1.size + 1 ≤ w.1.cap then
    let w := w.put (w.1.size + 1) (w.1.arr w.1.size)
    let w := w.put w.1.size x
    some ({ w.1 with size := w.1.size + 1 }, w.2)
  else none

/-- `erase(x)`: rnd_index_ptr_array.hpp:93-97. -/
def eraseW (w : W) (x : Id) : W :=
  let w := extractW w (w.1.up x) (w.1.size + 1)
  ({ w.1 with size := w.1.size - 1 }, w.2)

/-- `clear()`: rnd_index_ptr_array.hpp:99-104. -/
def clearW (w : W) : W :=
  let w := w.put 0 (w.1.arr w.1.size)
  ({ w.1 with size := 0 }, w.2)

/-- `insert_`: random_access_index.hpp:826-845. -/
def insert_W (junk : Nat → Id) (w : W) (x : Id) (acc : Bool) : Option W :=
  let w := roomForOneW junk w
  if acc then pushBackW w x else some w

/-- `insert(position,x)`: random_access_index.hpp:349-359. -/
def insertAtW (junk : Nat → Id) (w : W) (header position x : Id) (acc : Bool) : Option W :=
  match insert_W junk w x acc with
  | none => none
  | some w => if acc ∧ position ≠ header then some (relocate1W w (w.1.up position) (w.1.up x)) else some w

/-- `relocate(position,i)`: random_access_index.hpp:713-722. -/
def relocateW (w : W) (position i : Id) : W :=
  if position ≠ i then relocate1W w (w.1.up position) (w.1.up i) else w

/-- `relocate(position,first,last)`: random_access_index.hpp:724-737. -/
def relocateRangeW (w : W) (position first last : Id) : Option W :=
  if position ≠ last then relocateRW w (w.1.up position) (w.1.up first) (w.1.up last) else some w

/-- The insertion loop of `insert_iter`: random_access_index.hpp:1051-1053. -/
def insertLoopW (junk : Nat → Id) : List (Id × Option Bool) → W → Nat → Option (W × Nat × Bool)
  | [], w, n => some (w, n, true)
  | (_, none) :: _, w, n => some (roomForOneW junk w, n, false)
  | (x, some acc) :: r, w, n =>
    match insert_W junk w x acc with
    | none => none
    | some w => insertLoopW junk r w (if acc then n + 1 else n)

/-- `insert(position,first,last)`: random_access_index.hpp:1044-1061. -/
def insertIterW (junk : Nat → Id) (w : W) (header position : Id) (vs : List (Id × Option Bool)) : Out W :=
  match insertLoopW junk vs w 0 with
  | none => .ub
  | some (w, n, fin) =>
    match relocateRangeW w position (advance w.1 header (-(n : Int))) header with
    | none => .hang
    | some w => if fin then .ok w else .threw w

/-- `while(n--)pop_back();`: random_access_index.hpp:344,448,634,644. -/
def popBackNW (header : Id) : Nat → W → W
  | 0, w => w
  | n + 1, w => popBackNW header n (eraseW w (decrement w.1 header))

/-- `erase(first,last)`: random_access_index.hpp:438-450. -/
def eraseRangeW (w : W) (header first last : Id) : Option W :=
  let n := (distance w.1 first last).toNat
  match relocateRangeW w header first last with
  | none => none
  | some w => some (popBackNW header n w)

/-- `random_access_index_remove`: rnd_index_ops.hpp:40-50. -/
def removeGoW (pred : Nat → Id → Option Bool) : Nat → W → Nat → Nat → Nat → Out (W × Nat)
  | 0, w, _, _, res => .ok (w, res)
  | n + 1, w, k, first, res =>
    match pred k (w.1.arr first) with
    | none => .threw (w, res)
    | some true => removeGoW pred n w (k + 1) (first + 1) res
    | some false =>
      let w := if first ≠ res then w.swapSlots first res else w
      removeGoW pred n w (k + 1) (first + 1) (res + 1)

/-- `remove_if(pred)`: random_access_index.hpp:637-645. -/
def removeIfW (pred : Nat → Id → Option Bool) (w : W) (header : Id) : Out W :=
  match removeGoW pred w.1.size w 0 0 0 with
  | .ok (w, res) => .ok (popBackNW header (distance w.1 (w.1.arr res) header).toNat w)
  | .threw (w, _) => .threw w
  | .ub => .ub
  | .hang => .hang

/-- The loop of `random_access_index_unique`: rnd_index_ops.hpp:65-76. -/
def uniqueGoW (pred : Nat → Id → Id → Option Bool) : Nat → W → Nat → Nat → Nat → Out (W × Nat)
  | 0, w, _, _, res => .ok (w, res + 1)
  | n + 1, w, k, first, res =>
    match pred k (w.1.arr res) (w.1.arr first) with
    | none => .threw (w, res)
    | some true => uniqueGoW pred n w (k + 1) (first + 1) res
    | some false =>
      let res := res + 1
      let w := if first ≠ res then w.swapSlots first res else w
      uniqueGoW pred n w (k + 1) (first + 1) res

/-- `random_access_index_unique`: rnd_index_ops.hpp:54-80. -/
def uniqueAllW (pred : Nat → Id → Id → Option Bool) (w : W) : Out (W × Nat) :=
  if w.1.size = 0 then .ok (w, 0) else uniqueGoW pred (w.1.size - 1) w 0 1 0

/-- `unique(binary_pred)`: random_access_index.hpp:657-665. -/
def uniqueW (pred : Nat → Id → Id → Option Bool) (w : W) (header : Id) : Out W :=
  match uniqueAllW pred w with
  | .ok (w, res) => .ok (popBackNW header (distance w.1 (w.1.arr res) header).toNat w)
  | .threw (w, _) => .threw w
  | .ub => .ub
  | .hang => .hang

/-- Writing an auxiliary buffer back: rnd_index_ops.hpp:111-117 and 190-194. -/
def writeBackW : List Id → W → Nat → W
  | [], w, _ => w
  | v :: vs, w, p => writeBackW vs (w.put p v) (p + 1)

/-- `random_access_index_sort(al,ptrs,comp)`: rnd_index_ops.hpp:147-195. Writes of the auxiliary array are not counted. -/
def sortW (ssort : List Id → Option (List Id)) (w : W) : Out W :=
  if w.1.size ≤ 1 then .ok w
  else
    match ssort ((List.range w.1.size).map w.1.arr) with
    | none => .threw w
    | some buf => .ok (writeBackW buf w 0)

/-- `reverse()`: random_access_index.hpp:705-709. -/
def reverseW (w : W) : W := reverseGoW (w.1.size / 2) w 0 w.1.size

/-- `rearrange(first)`: random_access_index.hpp:739-752. -/
def rearrangeGoW : List Id → W → Nat → W
  | [], w, _ => w
  | v :: vs, w, p0 => rearrangeGoW vs (w.swapSlots p0 (w.1.up v)) (p0 + 1)

/-- Nulling the slots of a range: random_access_index.hpp:1149-1151: one write each. -/
def nullOutW (nul : Id) : List Id → W → W
  | [], w => w
  | v :: vs, w => nullOutW nul vs ({ w.1 with arr := upd w.1.arr (w.1.up v) nul }, w.2 + 1)

/-- Same-container `splice` of a range given by another index: random_access_index.hpp:1144-1163. -/
def internalSpliceW (nul : Id) (w : W) (position : Id) (vs : List Id) : W :=
  let w := nullOutW nul vs w
  let r := gatherNullsW nul w (w.1.up position)
  writeBackW vs r.1 r.2

/-- One operation. Loading is not counted (`none`). -/
def stepW (junk : Nat → Id) (nul header : Id) (w : W) : Op → Option W
  | .insert _ _ none => some (roomForOneW junk w)
  | .insert p x (some acc) => insertAtW junk w header (w.1.arr p) x acc
  | .insertRange p vs => Out.state (insertIterW junk w header (w.1.arr p) vs)
  | .erase p => some (eraseW w (w.1.arr p))
  | .eraseRange p q => eraseRangeW w header (w.1.arr p) (w.1.arr q)
  | .relocate p i => some (relocateW w (w.1.arr p) (w.1.arr i))
  | .relocateRange p i j => relocateRangeW w (w.1.arr p) (w.1.arr i) (w.1.arr j)
  | .reverse => some (reverseW w)
  | .rearrange vs => some (rearrangeGoW vs w 0)
  | .splice p vs => some (internalSpliceW nul w (w.1.arr p) vs)
  | .removeIf pred => Out.state (removeIfW pred w header)
  | .unique pred => Out.state (uniqueW pred w header)
  | .sort ssort => Out.state (sortW ssort w)
  | .reserve n => some (reserveW junk w n)
  | .shrinkToFit => some (shrinkToFitW junk w)
  | .clear => some (clearW w)
  | .load _ => none

/-- A history. -/
def runW (junk : Nat → Id) (nul header : Id) : List Op → W → Option W
  | [], w => some w
  | op :: ops, w =>
    match stepW junk nul header w op with
    | none => none
    | some w => runW junk nul header ops w

end MI.Rnd
