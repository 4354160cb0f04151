import Verif.Ord.Heap
import Verif.Hash.Index
import Verif.Seq.Heap
import Verif.Rnd.Model
import Verif.Ser.Matcher
import Mathlib.Data.List.Sort
/-!
# Copying the structure of an index

Models detail/copy_map.hpp and the `copy_` functions of the indices. When the elements of a container have been cloned, every index
builds its own links among the clones from the links among the originals, translating addresses with the copy map. `f` is that
translation, `map.find`; its result `none` stands for the dereference of the end of the array of entries. `h` are the links of
the original, `c` those of the copy, with arbitrary contents at the beginning.
-/
namespace MI

/-- The array of `copy_map` after the cloning: pairs (original, clone), and the headers. copy_map.hpp:120-127. -/
structure CopyMap where
  entries : List (Id × Id)
  hdOrg : Id
  hdCpy : Id

/-- `std::sort` of the entries by the address of the original, done when the last one has been added (`n==size_`): copy_map.hpp:54-57,
156-160. The standard does not say how `std::sort` works; the originals being different, there is only one sorted order. -/
def sortEntries (size : Nat) (es : List (Id × Id)) : List (Id × Id) :=
  if es.length = size then es.insertionSort (fun a b => a.1 ≤ b.1) else es

/-- `find(node)`: copy_map.hpp:108-113, with the binary search of `std::lower_bound`. -/
def CopyMap.find (m : CopyMap) (x : Id) : Option Id :=
  if x = m.hdOrg then some m.hdCpy
  else (m.entries[Ser.lowerBound (fun k => decide ((m.entries.getD k (0, 0)).1 < x)) m.entries.length 0 m.entries.length]?).map (·.2)

namespace Seq

/-- The loop of `copy_`: sequenced_index.hpp:726-734. -/
def copyLoop (f : Id → Option Id) (h : Heap) (hd : Id) : Nat → Id → Id → Heap → Option Heap
  | 0, _, _, _ => none
  | n + 1, org, cpy, c =>
    let nextOrg := h.next org
    match f nextOrg with
    | none => none
    | some nextCpy =>
      let c := c.setNext cpy nextCpy
      let c := c.setPrior nextCpy cpy
      if nextOrg = hd then some c else copyLoop f h hd n nextOrg nextCpy c

/-- `copy_`: sequenced_index.hpp:721-737. -/
def copy (f : Id → Option Id) (n : Nat) (h : Heap) (hd : Id) (c : Heap) (hd' : Id) : Option Heap := copyLoop f h hd n hd hd' c

end Seq

namespace Rnd

/-- Constructor of the pointer array: rnd_index_ptr_array.hpp:50-58. `junk`, `up`: what the memory holds beforehand. -/
def newArr (junk : Nat → Id) (up : Id → Nat) (hd : Id) (sz : Nat) : Arr where
  arr := upd junk sz hd
  up := upd up hd sz
  size := sz
  cap := sz

/-- The loop of `copy_`: random_access_index.hpp:811-821. `k`: slots left, `p`: the current slot. -/
def copyLoop (f : Id → Option Id) (s : Arr) : Nat → Nat → Arr → Option Arr
  | 0, _, c => some c
  | k + 1, p, c =>
    match f (s.arr p) with
    | none => none
    | some y => copyLoop f s k (p + 1) (c.put p y)

/-- `copy_` (random_access_index.hpp:808-824) into the array made by the copy constructor (767-778), whose size is `x.size()`. -/
def copy (f : Id → Option Id) (s : Arr) (count : Nat) (junk : Nat → Id) (up : Id → Nat) (hd' : Id) : Option Arr :=
  copyLoop f s s.size 0 (newArr junk up hd' count)

end Rnd

namespace Ord

/-- Body of the loop of `copy_` for one entry of the map: ord_index_impl.hpp:810-836. -/
def copyEntry (f : Id → Option Id) (h c : Heap) (org cpy : Id) : Option Heap :=
  let c := c.setColor cpy (h.color org)
  let c := c.setSize cpy (h.size org)
  let parentOrg := h.parent org
  let c' : Option Heap :=
    if parentOrg = 0 then some (c.setParent cpy 0)
    else
      match f parentOrg with
      | none => none
      | some parentCpy =>
        let c := c.setParent cpy parentCpy
        if h.left parentOrg = org then some (c.setLeft parentCpy cpy)
        else if h.right parentOrg = org then some (c.setRight parentCpy cpy)
        else some c
  match c' with
  | none => none
  | some c =>
    let c := if h.left org = 0 then c.setLeft cpy 0 else c
    some (if h.right org = 0 then c.setRight cpy 0 else c)

/-- The loop of `copy_`: ord_index_impl.hpp:809-836. -/
def copyEntries (f : Id → Option Id) (h : Heap) : List (Id × Id) → Heap → Option Heap
  | [], c => some c
  | e :: es, c =>
    match copyEntry f h c e.1 e.2 with
    | none => none
    | some c => copyEntries f h es c

/-- `copy_`: ord_index_impl.hpp:784-840. `AugmentPolicy::copy` (ranked_index.hpp:314-318) copies `size`. -/
def copy (f : Id → Option Id) (es : List (Id × Id)) (h : Heap) (hd : Id) (c : Heap) (hd' : Id) : Option Heap :=
  if h.parent hd = 0 then some (emptyInit c hd')
  else
    let c := c.setColor hd' (h.color hd)
    let c := c.setSize hd' (h.size hd)
    match f (h.parent hd), f (h.left hd), f (h.right hd) with
    | some root, some leftmost, some rightmost =>
      let c := c.setParent hd' root
      let c := c.setLeft hd' leftmost
      let c := c.setRight hd' rightmost
      copyEntries f h es c
    | _, _, _ => none

end Ord

namespace Hash

/-- The loop of `copy_` for unique indices, which goes backwards: hashed_index.hpp:857-875. -/
def copyLoopU (f : Id → Option Id) (h : Heap) (a b : Arr) (hd : Id) : Nat → Id → Id → Heap → Option Heap
  | 0, _, _, _ => none
  | n + 1, org, cpy, c =>
    let prevOrg := h.prior org
    match f prevOrg with
    | none => none
    | some prevCpy =>
      let c := c.setPrior cpy prevCpy
      let c :=
        if U.isFirstOfBucket h org then
          let bucCpy := b.base + (h.next prevOrg - a.base)
          let c := c.setNext prevCpy bucCpy
          c.setPrior bucCpy cpy
        else c.setNext prevCpy cpy
      if prevOrg = hd then some c else copyLoopU f h a b hd n prevOrg prevCpy c

/-- The loop of `copy_` for non-unique indices: hashed_index.hpp:889-927. -/
def copyLoopN (f : Id → Option Id) (h : Heap) (a b : Arr) (hd : Id) : Nat → Id → Id → Heap → Option Heap
  | 0, _, _, _ => none
  | n + 1, org, cpy, c =>
    let nextOrg := N.after h org
    match f nextOrg with
    | none => none
    | some nextCpy =>
      let c' : Option Heap :=
        if N.isFirstOfBucket h nextOrg then
          let bucCpy := b.base + (h.next org - a.base)
          let c := c.setNext cpy bucCpy
          let c := c.setPrior bucCpy nextCpy
          some (c.setPrior nextCpy cpy)
        else
          let c' : Option Heap :=
            if h.next org = nextOrg then some (c.setNext cpy nextCpy)
            else
              match f (h.next org) with
              | none => none
              | some y => some (c.setNext cpy y)
          match c' with
          | none => none
          | some c =>
            if h.prior nextOrg ≠ org then
              match f (h.prior nextOrg) with
              | none => none
              | some y => some (c.setPrior nextCpy y)
            else some (c.setPrior nextCpy cpy)
      match c' with
      | none => none
      | some c => if nextOrg = hd then some c else copyLoopN f h a b hd n nextOrg nextCpy c

/-- `copy_` (hashed_index.hpp:842-931) into the bucket array `b` made by the copy constructor (767-785; bucket_array.hpp:142-147), `count`
being `x.size()`. -/
def copy (ct : Cat) (f : Id → Option Id) (n : Nat) (h : Heap) (a : Arr) (count : Nat) (hd : Id) (c : Heap) (b : Arr) (hd' : Id) : Option Heap :=
  let c := clear c b hd'
  if count ≠ 0 then
    match ct with
    | .uniq => copyLoopU f h a b hd n hd hd' c
    | .multi => copyLoopN f h a b hd n hd hd' c
  else some c

end Hash
end MI
