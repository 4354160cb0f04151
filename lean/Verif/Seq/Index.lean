import Verif.Seq.Sort
/-!
# Sequenced index: member functions over the pointer structure

Models the public and private members of `sequenced_index` (sequenced_index.hpp) as far as they act on the
list. What the rest of the container decides (whether an insertion or transfer is accepted, whether it throws)
is a parameter here; the container cascade is modelled in `Verif.Cascade`.
-/
namespace MI.Seq
open MI

/-- `insert(position,x)` after the container accepted node `x`: `insert_` links it at the end
(sequenced_index.hpp:739-746), then `insert` relinks it before `position` unless that is `end()`
(sequenced_index.hpp:311-321; same code at 323-333, 356-367, 1009-1022). `acc = false`: rejected. -/
def insertAt (h : Heap) (header position x : Id) (acc : Bool) : Heap :=
  if acc then
    let h := h.link x header
    if position ≠ header then h.relink position x else h
  else h

/-- `insert(position,first,last)`: sequenced_index.hpp:972-984 (and `insert(position,n,x)`, 335-341):
a sequence of insertions, each with its acceptance. -/
def insertIter (h : Heap) (header position : Id) : List (Id × Bool) → Heap
  | [] => h
  | (x, acc) :: r => insertIter (insertAt h header position x acc) header position r

/-- `erase(position)`: sequenced_index.hpp:379-387; `extract_` unlinks the node (758-762).
Returns the heap and the returned iterator. -/
def eraseAt (h : Heap) (x : Id) : Heap × Id := (h.unlink x, h.next x)

/-- `erase(first,last)`: sequenced_index.hpp:389-401. First argument: iteration budget.
Returns also the list of erased nodes. -/
def eraseRange : Nat → Heap → Id → Id → Out (Heap × List Id)
  | n, h, first, last =>
    if first ≠ last then
      match n with
      | 0 => .hang
      | n + 1 =>
        let r := eraseAt h first
        match eraseRange n r.1 r.2 last with
        | .ok (h, l) => .ok (h, first :: l)
        | .threw (h, l) => .threw (h, first :: l)
        | .ub => .ub
        | .hang => .hang
    else .ok (h, [])

/-- `pop_back()` repeated `m` times: the shrinking branch of `resize`, sequenced_index.hpp:271,278,306.
`--end()` is `prior` of the header. Returns the heap and the erased nodes, last first. -/
def popBackN (header : Id) : Nat → Heap → Heap × List Id
  | 0, h => (h, [])
  | m + 1, h =>
    let x := h.prior header
    let r := popBackN header m (eraseAt h x).1
    (r.1, x :: r.2)

/-- `assign(first,last)`: sequenced_index.hpp:957-963 (and 207-212, 965-970): `clear_` empties the list
(779-782) and every accepted value is linked at the end. -/
def assign (h : Heap) (header : Id) (vs : List (Id × Bool)) : Heap :=
  insertIter (h.emptyInit header) header header vs

/-- `relocate(position,i)`: sequenced_index.hpp:633-642 (same code in `splice`, 517-522). -/
def relocate (h : Heap) (position i : Id) : Heap := if position ≠ i then h.relink position i else h

/-- `relocate(position,first,last)`: sequenced_index.hpp:644-657 (same code in `internal_splice`, 1065-1071). -/
def relocateRange (h : Heap) (position first last : Id) : Heap :=
  if position ≠ last then h.relinkRange position first last else h

/-- `rearrange(first)`: sequenced_index.hpp:659-668. `vs` are the nodes of the elements in the range. -/
def rearrange (h : Heap) (header : Id) : List Id → Heap
  | [] => h
  | v :: vs => rearrange (h.relink header v) header vs

/-- Same-container `splice` of a range given by another index: sequenced_index.hpp:1056-1063.
`vs` are the nodes the range traverses (in another index, so relinking does not affect them). -/
def internalSplice (h : Heap) (pn : Id) : List Id → Heap
  | [] => h
  | v :: vs => internalSplice (h.relink pn v) pn vs

/-- `rearranger(position,x)` (loading): sequenced_index.hpp:934-939; `none` is the null position. -/
def rearranger (h : Heap) (header : Id) (position : Option Id) (x : Id) : Heap :=
  let position := h.next (position.getD header)
  if position ≠ x then h.relink position x else h

/-- `copy_(x,map)`: sequenced_index.hpp:721-737; `hx` is the heap of the source, `map` the copy map.
First argument: iteration budget. -/
def copyGo (hx : Heap) (map : Id → Id) (xheader : Id) : Nat → Heap → Id → Id → Option Heap
  | 0, _, _, _ => none
  | n + 1, h, org, cpy =>
    let nextOrg := hx.next org
    let nextCpy := map nextOrg
    let h := h.setNext cpy nextCpy
    let h := h.setPrior nextCpy cpy
    if nextOrg ≠ xheader then copyGo hx map xheader n h nextOrg nextCpy else some h

/-- `delete_all_nodes_()`: sequenced_index.hpp:769-777: the nodes deleted, in order. -/
def deleteAllGo (h : Heap) (header : Id) : Nat → Id → Option (List Id)
  | n, x =>
    if x ≠ header then
      match n with
      | 0 => none
      | n + 1 => (deleteAllGo h header n (h.next x)).map (x :: ·)
    else some []

/-- Traversal from `begin()` to `end()` with `++` (sequenced_index.hpp:221-228, seq_index_node.hpp:47). -/
def traverse (h : Heap) (header : Id) (n : Nat) : Option (List Id) := deleteAllGo h header n (h.next header)

/-- One `transfer_` of node `x` from another list to the end of the list of `header`
(multi_index_container.hpp:771-782): on acceptance the source unlinks it
(index_base.hpp:138-145, sequenced_index.hpp:758-762) and the destination links it
(sequenced_index.hpp:743-744). Outcome of the decision: `none` a user call threw before anything changed,
`some false` rejected, `some true` accepted. -/
def transfer (h : Heap) (header x : Id) (acc : Bool) : Heap :=
  if acc then (h.unlink x).link x header else h

/-- `transfer_range_`: multi_index_container.hpp:976-985. `vs`: nodes of the range;
`dec x` the decision for node `x`. -/
def transferRange (h : Heap) (header : Id) (dec : Id → Option Bool) : List Id → Out Heap
  | [] => .ok h
  | x :: vs =>
    match dec x with
    | none => .threw h
    | some acc => transferRange (transfer h header x acc) header dec vs

/-- `splice(position,x,i)` from another container: `external_splice`, sequenced_index.hpp:1042-1054. -/
def externalSplice1 (h : Heap) (header position x : Id) (dec : Option Bool) : Out Heap :=
  match dec with
  | none => .threw h
  | some acc =>
    let h := transfer h header x acc
    .ok (if acc ∧ position ≠ header then h.relink position x else h)

/-- `splice(position,x,first,last)` from another container: `external_splice`,
sequenced_index.hpp:1093-1118. Note the catch clause: it does not rethrow. -/
def externalSplice (h : Heap) (header position : Id) (dec : Id → Option Bool) (vs : List Id) : Out Heap :=
  if position = header then transferRange h header dec vs
  else
    let firstToRelink := h.prior header
    match transferRange h header dec vs with
    | .ok h =>
      let firstToRelink := h.next firstToRelink
      .ok (h.relinkRange position firstToRelink header)
    | .threw h =>
      -- catch clause (1110-1113)
      let firstToRelink := h.next firstToRelink
      let h := h.relinkRange position firstToRelink header
      -- execution continues after the try block (1115-1116)
      let firstToRelink := h.next firstToRelink
      .ok (h.relinkRange position firstToRelink header)
    | .ub => .ub
    | .hang => .hang

/-- `sequenced_index_remove`: seq_index_ops.hpp:34-43. `pred k x`: outcome of the `k`-th call of the
predicate, on node `x` (`none`: throws). Returns the heap and the erased nodes. -/
def removeGo (pred : Nat → Id → Option Bool) (last : Id) : Nat → Heap → Nat → Id → Out (Heap × List Id)
  | n, h, k, first =>
    if first ≠ last then
      match n with
      | 0 => .hang
      | n + 1 =>
        match pred k first with
        | none => .threw (h, [])
        | some true =>
          match removeGo pred last n (eraseAt h first).1 (k + 1) (h.next first) with
          | .ok (h, l) => .ok (h, first :: l)
          | .threw (h, l) => .threw (h, first :: l)
          | .ub => .ub
          | .hang => .hang
        | some false => removeGo pred last n h (k + 1) (h.next first)
    else .ok (h, [])

/-- `remove_if(pred)`: sequenced_index.hpp:584-588. -/
def removeIf (pred : Nat → Id → Option Bool) (N : Nat) (h : Heap) (header : Id) : Out (Heap × List Id) :=
  removeGo pred header N h 0 (h.next header)

/-- The loop of `sequenced_index_unique`: seq_index_ops.hpp:51-56. -/
def uniqueGo (pred : Nat → Id → Id → Option Bool) (last : Id) : Nat → Heap → Nat → Id → Out (Heap × List Id)
  | n, h, k, first =>
    let middle := h.next first
    if middle ≠ last then
      match n with
      | 0 => .hang
      | n + 1 =>
        match pred k middle first with
        | none => .threw (h, [])
        | some true =>
          match uniqueGo pred last n (eraseAt h middle).1 (k + 1) first with
          | .ok (h, l) => .ok (h, middle :: l)
          | .threw (h, l) => .threw (h, middle :: l)
          | .ub => .ub
          | .hang => .hang
        | some false => uniqueGo pred last n h (k + 1) middle
    else .ok (h, [])

/-- `unique(pred)`: sequenced_index.hpp:595-599, seq_index_ops.hpp:45-57. -/
def unique (pred : Nat → Id → Id → Option Bool) (N : Nat) (h : Heap) (header : Id) : Out (Heap × List Id) :=
  if h.next header ≠ header then uniqueGo pred header N h 0 (h.next header) else .ok (h, [])

/-- The loop of `sequenced_index_merge`: seq_index_ops.hpp:66-70. `dec x`: whether the transfer of node `x`
is accepted, rejected or throws. -/
def mergeGo (cmp : Cmp) (dec : Id → Option Bool) (last0 last1 : Id) :
    Nat → Heap → Nat → Id → Id → Out Heap
  | n, h, k, first0, first1 =>
    if first0 ≠ last0 ∧ first1 ≠ last1 then
      match n with
      | 0 => .hang
      | n + 1 =>
        match cmp k first1 first0 with
        | none => .threw h
        | some true =>
          let nxt := h.next first1
          match externalSplice1 h last0 first0 first1 (dec first1) with
          | .ok h => mergeGo cmp dec last0 last1 n h (k + 1) first0 nxt
          | .threw h => .threw h
          | .ub => .ub
          | .hang => .hang
        | some false => mergeGo cmp dec last0 last1 n h (k + 1) (h.next first0) first1
    else
      match deleteAllGo h last1 n first1 with   -- the nodes of [first1,last1)
      | none => .hang
      | some vs => externalSplice h last0 last0 dec vs

/-- `merge(x,comp)`, `x` another container's index: sequenced_index.hpp:606-610. -/
def merge (cmp : Cmp) (dec : Id → Option Bool) (N : Nat) (h : Heap) (header header1 : Id) : Out Heap :=
  if header ≠ header1 then mergeGo cmp dec header header1 N h 0 (h.next header) (h.next header1)
  else .ok h

end MI.Seq
