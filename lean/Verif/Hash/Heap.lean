import Verif.Prelude
/-!
# Hashed indices: node links

Models detail/hash_index_node.hpp: the pointer manipulation of hashed indices, for unique (`U.…`) and non-unique
(`N.…`) indices. Node addresses and bucket addresses are identifiers of one common space, the null pointer is 0:
`base_pointer` ranges over both, `pointer` over nodes, and the conversions `pointer_from` / `base_pointer_from`
(hash_index_node.hpp:140-151) are the identity. Buckets have only a `prior` field; the theorems state that no operation writes
the `next` field of a bucket.
-/
namespace MI.Hash
open MI

/-- The link fields of all nodes and buckets: hash_index_node.hpp:99-121 (`prior`), 125-155 (`next`). -/
structure Heap where
  prior : Id → Id
  next : Id → Id

def Heap.setPrior (h : Heap) (x v : Id) : Heap := { h with prior := upd h.prior x v }
def Heap.setNext (h : Heap) (x v : Id) : Heap := { h with next := upd h.next x v }

/-! ## Assigners -/

/-- The state of `unlink_undo_assigner`: the tracked assignments, latest first. hash_index_node.hpp:205-216.
The arrays of the code have 3 and 2 entries; see `Log.fits`. -/
structure Log where
  ptrs : List (Id × Id) := []
  bptrs : List (Id × Id) := []
deriving Repr, DecidableEq

/-- The tracked assignments fit in `pointer_tracks[3]` and `base_pointer_tracks[2]`: hash_index_node.hpp:213-215.
A further assignment would write out of bounds. -/
def Log.fits (l : Log) : Prop := l.ptrs.length ≤ 3 ∧ l.bptrs.length ≤ 2

/-- What `assign` works on: the links and the log of the assigner. For `default_assigner` (hash_index_node.hpp:164-167) the
log is not used. -/
structure St where
  h : Heap
  log : Log := {}

/-- `assign(a->prior(),v)`: hash_index_node.hpp:177-182. -/
def St.asgP (s : St) (a v : Id) : St :=
  { h := s.h.setPrior a v, log := { s.log with ptrs := (a, s.h.prior a) :: s.log.ptrs } }

/-- `assign(a->next(),v)`: hash_index_node.hpp:184-189. -/
def St.asgN (s : St) (a v : Id) : St :=
  { h := s.h.setNext a v, log := { s.log with bptrs := (a, s.h.next a) :: s.log.bptrs } }

/-- First loop of the undo operation: hash_index_node.hpp:195-198. -/
def undoP : List (Id × Id) → Heap → Heap
  | [], h => h
  | (a, v) :: r, h => undoP r (h.setPrior a v)

/-- Second loop of the undo operation: hash_index_node.hpp:199-202. -/
def undoN : List (Id × Id) → Heap → Heap
  | [], h => h
  | (a, v) :: r, h => undoN r (h.setNext a v)

/-- `unlink_undo_assigner::operator()()`: hash_index_node.hpp:191-203. -/
def St.undo (s : St) : Heap := undoN s.log.bptrs (undoP s.log.ptrs s.h)

/-! ## Unique indices -/
namespace U

/-- `is_first_of_bucket(x)`: hash_index_node.hpp:235-238. -/
def isFirstOfBucket (h : Heap) (x : Id) : Bool := h.next (h.prior x) != x

/-- `is_last_of_bucket(x)`: hash_index_node.hpp:343-346. -/
def isLastOfBucket (h : Heap) (x : Id) : Bool := h.prior (h.next x) != x

/-- `after(x)`: hash_index_node.hpp:240-243. -/
def after (h : Heap) (x : Id) : Id := if isLastOfBucket h x then h.prior (h.next x) else h.next x

/-- `after_local(x)`: hash_index_node.hpp:245-248. -/
def afterLocal (h : Heap) (x : Id) : Id := if isLastOfBucket h x then 0 else h.next x

/-- `next_to_inspect(x)`: hash_index_node.hpp:250-253. -/
def nextToInspect (h : Heap) (x : Id) : Id := if isLastOfBucket h x then 0 else h.next x

/-- `link(x,buc,end)`: hash_index_node.hpp:255-270. -/
def link (h : Heap) (x buc hd : Id) : Heap :=
  if h.prior buc = 0 then
    let h := h.setPrior x (h.prior hd)
    let h := h.setNext x (h.next (h.prior hd))
    let h := h.setNext (h.prior x) buc
    let h := h.setPrior buc x
    h.setPrior hd x
  else
    let h := h.setPrior x (h.prior (h.prior buc))
    let h := h.setNext x (h.prior buc)
    let h := h.setPrior buc x
    h.setPrior (h.next x) x

/-- `unlink(x,assign)`: hash_index_node.hpp:280-302. -/
def unlinkA (s : St) (x : Id) : St :=
  if isFirstOfBucket s.h x then
    if isLastOfBucket s.h x then
      let s := s.asgP (s.h.next (s.h.prior x)) 0
      let s := s.asgN (s.h.prior x) (s.h.next x)
      s.asgP (s.h.prior (s.h.next x)) (s.h.prior x)
    else
      let s := s.asgP (s.h.next (s.h.prior x)) (s.h.next x)
      s.asgP (s.h.next x) (s.h.prior x)
  else if isLastOfBucket s.h x then
    let s := s.asgN (s.h.prior x) (s.h.next x)
    s.asgP (s.h.prior (s.h.next x)) (s.h.prior x)
  else
    let s := s.asgN (s.h.prior x) (s.h.next x)
    s.asgP (s.h.next x) (s.h.prior x)

/-- `unlink(x)`: hash_index_node.hpp:272-276. -/
def unlink (h : Heap) (x : Id) : Heap := (unlinkA { h := h } x).h

/-- `append(x,end)`: hash_index_node.hpp:306-312. -/
def append (h : Heap) (x hd : Id) : Heap :=
  let h := h.setPrior x (h.prior hd)
  let h := h.setNext x (h.next (h.prior hd))
  let h := h.setNext (h.prior x) x
  h.setPrior hd x

/-- `unlink_last(end)`: hash_index_node.hpp:314-330. -/
def unlinkLast (h : Heap) (hd : Id) : Heap × Bool :=
  let x := h.prior hd
  if h.next (h.prior x) = x then
    let h := h.setNext (h.prior x) (h.next x)
    (h.setPrior hd (h.prior x), false)
  else
    let h := h.setPrior (h.next (h.prior x)) 0
    let h := h.setNext (h.prior x) (h.next x)
    (h.setPrior hd (h.prior x), true)

end U

/-! ## Non-unique indices -/
namespace N

/-- `is_first_of_bucket(x)`: hash_index_node.hpp:357-360. -/
def isFirstOfBucket (h : Heap) (x : Id) : Bool := h.prior (h.next (h.prior x)) == x

/-- `is_last_of_bucket(x)`: hash_index_node.hpp:593-596. -/
def isLastOfBucket (h : Heap) (x : Id) : Bool := h.prior (h.prior (h.next x)) == x

/-- `is_first_of_group(x)`: hash_index_node.hpp:362-367. -/
def isFirstOfGroup (h : Heap) (x : Id) : Bool :=
  h.prior (h.next x) != x && h.next (h.prior (h.prior (h.next x))) == x

/-- `after(x)`: hash_index_node.hpp:369-376. -/
def after (h : Heap) (x : Id) : Id :=
  if h.prior (h.next x) = x then h.next x
  else if h.prior (h.prior (h.next x)) = x then h.prior (h.next x)
  else if h.next (h.prior (h.prior (h.next x))) = x then h.next x
  else h.prior (h.next (h.next x))

/-- `after_local(x)`: hash_index_node.hpp:378-385. -/
def afterLocal (h : Heap) (x : Id) : Id :=
  if h.prior (h.next x) = x then h.next x
  else if h.prior (h.prior (h.next x)) = x then 0
  else if h.next (h.prior (h.prior (h.next x))) = x then h.next x
  else h.prior (h.next (h.next x))

/-- `next_to_inspect(x)`: hash_index_node.hpp:387-394. -/
def nextToInspect (h : Heap) (x : Id) : Id :=
  if h.prior (h.next x) = x then h.next x
  else if h.prior (h.prior (h.next x)) = x then 0
  else if h.prior (h.next (h.prior (h.next x))) ≠ h.prior (h.next x) then 0
  else h.next (h.prior (h.next x))

/-- `link(x,buc,end)`: hash_index_node.hpp:396-411. -/
def link (h : Heap) (x buc hd : Id) : Heap :=
  if h.prior buc = 0 then
    let h := h.setPrior x (h.prior hd)
    let h := h.setNext x (h.next (h.prior hd))
    let h := h.setNext (h.prior x) buc
    let h := h.setPrior buc x
    h.setPrior hd x
  else
    let h := h.setPrior x (h.prior (h.prior buc))
    let h := h.setNext x (h.prior buc)
    let h := h.setPrior buc x
    h.setPrior (h.next x) x

/-- First part of `link(x,first,last)`: hash_index_node.hpp:415-422. -/
def linkLeft (h : Heap) (x first : Id) : Heap :=
  let h := h.setPrior x (h.prior first)
  let h := h.setNext x first
  if isFirstOfBucket h first then h.setPrior (h.next (h.prior x)) x
  else h.setNext (h.prior x) x

/-- Second part of `link(x,first,last)`: hash_index_node.hpp:424-437. -/
def linkRight (h : Heap) (x first last : Id) : Heap :=
  if first = last then h.setPrior last x
  else if h.next first = last then
    let h := h.setPrior first last
    h.setNext first x
  else
    let second := h.next first
    let lastbutone := h.prior last
    let h := h.setPrior second first
    let h := h.setPrior first last
    h.setNext lastbutone x

/-- `link(x,first,last)`: hash_index_node.hpp:413-438. -/
def linkGroup (h : Heap) (x first last : Id) : Heap := linkRight (linkLeft h x first) x first last

/-- `left_unlink(x,assign)`: hash_index_node.hpp:598-602. -/
def leftUnlink (s : St) (x : Id) : St := s.asgN (s.h.prior x) (s.h.next x)

/-- `right_unlink(x,assign)`: hash_index_node.hpp:604-608. -/
def rightUnlink (s : St) (x : Id) : St := s.asgP (s.h.next x) (s.h.prior x)

/-- `left_unlink_first_of_bucket(x,assign)`: hash_index_node.hpp:610-614. -/
def leftUnlinkFirstOfBucket (s : St) (x : Id) : St := s.asgP (s.h.next (s.h.prior x)) (s.h.next x)

/-- `right_unlink_last_of_bucket(x,assign)`: hash_index_node.hpp:616-620. -/
def rightUnlinkLastOfBucket (s : St) (x : Id) : St := s.asgP (s.h.prior (s.h.next x)) (s.h.prior x)

/-- `right_unlink_first_of_group(x,assign)`: hash_index_node.hpp:622-637. -/
def rightUnlinkFirstOfGroup (s : St) (x : Id) : St :=
  let second := s.h.next x
  let last := s.h.prior second
  let lastbutone := s.h.prior last
  if second = lastbutone then
    let s := s.asgN second last
    s.asgP second (s.h.prior x)
  else
    let s := s.asgN lastbutone second
    let s := s.asgP (s.h.next second) last
    s.asgP second (s.h.prior x)

/-- `left_unlink_last_of_group(x,assign)`: hash_index_node.hpp:639-654. -/
def leftUnlinkLastOfGroup (s : St) (x : Id) : St :=
  let lastbutone := s.h.prior x
  let first := s.h.next lastbutone
  let second := s.h.next first
  if lastbutone = second then
    let s := s.asgP lastbutone first
    s.asgN lastbutone (s.h.next x)
  else
    let s := s.asgP second lastbutone
    let s := s.asgN (s.h.prior lastbutone) first
    s.asgN lastbutone (s.h.next x)

/-- `unlink_last_but_one_of_group(x,assign)`: hash_index_node.hpp:656-670. -/
def unlinkLastButOneOfGroup (s : St) (x : Id) : St :=
  let first := s.h.next x
  let second := s.h.next first
  let last := s.h.prior second
  if second = x then
    let s := s.asgP last first
    s.asgN first last
  else
    let s := s.asgP last (s.h.prior x)
    s.asgN (s.h.prior x) first

/-- `unlink_second_of_group(x,assign)`: hash_index_node.hpp:672-686. -/
def unlinkSecondOfGroup (s : St) (x : Id) : St :=
  let last := s.h.prior x
  let lastbutone := s.h.prior last
  let first := s.h.next lastbutone
  if lastbutone = x then
    let s := s.asgN first last
    s.asgP last first
  else
    let s := s.asgN first (s.h.next x)
    s.asgP (s.h.next x) last

/-- `unlink(x,assign)`: hash_index_node.hpp:448-496. -/
def unlinkA (s : St) (x : Id) : St :=
  if s.h.next (s.h.prior x) = x then
    if s.h.prior (s.h.next x) = x then
      rightUnlink (leftUnlink s x) x
    else if s.h.prior (s.h.prior (s.h.next x)) = x then
      rightUnlinkLastOfBucket (leftUnlink s x) x
    else if s.h.next (s.h.prior (s.h.prior (s.h.next x))) = x then
      rightUnlinkFirstOfGroup (leftUnlink s x) x
    else unlinkLastButOneOfGroup s x
  else if s.h.prior (s.h.next (s.h.prior x)) = x then
    if s.h.prior (s.h.next x) = x then
      rightUnlink (leftUnlinkFirstOfBucket s x) x
    else if s.h.prior (s.h.prior (s.h.next x)) = x then
      let s := s.asgP (s.h.next (s.h.prior x)) 0
      let s := s.asgN (s.h.prior x) (s.h.next x)
      s.asgP (s.h.prior (s.h.next x)) (s.h.prior x)
    else
      rightUnlinkFirstOfGroup (leftUnlinkFirstOfBucket s x) x
  else if s.h.prior (s.h.prior (s.h.next x)) = x then
    rightUnlinkLastOfBucket (leftUnlinkLastOfGroup s x) x
  else if s.h.next (s.h.next (s.h.prior (s.h.prior x))) = x then
    unlinkSecondOfGroup s x
  else
    rightUnlink (leftUnlinkLastOfGroup s x) x

/-- `unlink(x)`: hash_index_node.hpp:440-444. -/
def unlink (h : Heap) (x : Id) : Heap := (unlinkA { h := h } x).h

/-- `link_range(first,last,buc,cend)`: hash_index_node.hpp:500-516. -/
def linkRange (h : Heap) (first last buc hd : Id) : Heap :=
  if h.prior buc = 0 then
    let h := h.setPrior first (h.prior hd)
    let h := h.setNext last (h.next (h.prior hd))
    let h := h.setNext (h.prior first) buc
    let h := h.setPrior buc first
    h.setPrior hd last
  else
    let h := h.setPrior first (h.prior (h.prior buc))
    let h := h.setNext last (h.prior buc)
    let h := h.setPrior buc first
    h.setPrior (h.next last) last

/-- `append_range(first,last,cend)`: hash_index_node.hpp:518-524. -/
def appendRange (h : Heap) (first last hd : Id) : Heap :=
  let h := h.setPrior first (h.prior hd)
  let h := h.setNext last (h.next (h.prior hd))
  let h := h.setNext (h.prior first) first
  h.setPrior hd last

/-- `unlink_last_group(end)`: hash_index_node.hpp:526-557. -/
def unlinkLastGroup (h : Heap) (hd : Id) : Heap × Id × Bool :=
  let x := h.prior hd
  if h.next (h.prior x) = x then
    let h := h.setNext (h.prior x) (h.next x)
    (h.setPrior hd (h.prior x), x, false)
  else if h.prior (h.next (h.prior x)) = x then
    let h := h.setPrior (h.next (h.prior x)) 0
    let h := h.setNext (h.prior x) (h.next x)
    (h.setPrior hd (h.prior x), x, true)
  else
    let y := h.next (h.prior x)
    if h.next (h.prior y) = y then
      let h := h.setNext (h.prior y) (h.next x)
      (h.setPrior hd (h.prior y), y, false)
    else
      let h := h.setPrior (h.next (h.prior y)) 0
      let h := h.setNext (h.prior y) (h.next x)
      (h.setPrior hd (h.prior y), y, true)

/-- `unlink_range(first,last)`: hash_index_node.hpp:559-580. -/
def unlinkRange (h : Heap) (first last : Id) : Heap :=
  if isFirstOfBucket h first then
    if isLastOfBucket h last then
      let h := h.setPrior (h.next (h.prior first)) 0
      let h := h.setNext (h.prior first) (h.next last)
      h.setPrior (h.prior (h.next last)) (h.prior first)
    else
      let h := h.setPrior (h.next (h.prior first)) (h.next last)
      h.setPrior (h.next last) (h.prior first)
  else if isLastOfBucket h last then
    let h := h.setNext (h.prior first) (h.next last)
    h.setPrior (h.prior (h.next last)) (h.prior first)
  else
    let h := h.setNext (h.prior first) (h.next last)
    h.setPrior (h.next last) (h.prior first)

end N
end MI.Hash
