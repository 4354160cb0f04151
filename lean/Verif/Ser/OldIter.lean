import Verif.Ser.Archive
/-! Model of reading iterators of hashed indices from archives of version 0, in which an iterator was saved as two pointers: to its node, and to the bucket array. -/
namespace MI.Ser
open MI MI.Cont

/-- `load` of a local iterator after the pointer `node` to the node was read (hash_index_iterator.hpp:101–116): the second pointer is to the bucket array `a`, or null. The test is whether
the node is the one that the end bucket leads to. -/
def oldLocal (h : Hash.Heap) (node : Option Id) : Option Hash.Arr → Option Id
  | none => node
  | some a =>
    match node with
    | none => none
    | some x => if x = h.prior a.endB then none else some x

/-- `ar>>it` for version 0 (hash_index_iterator.hpp:89–116), where `h` and `a` are the memory and the bucket array of the index. `loc`: a local iterator; `arr`: the second pointer is not
null. Iterators that are not local ignore it. See `loadIt` for the first pointer. -/
def loadOld (loc arr : Bool) (h : Hash.Heap) (a : Hash.Arr) (es : List Id) (hd : Id) (p : Ref) : Out (Option Id) :=
  match loadIt es hd p with
  | .ok x => .ok (if loc then oldLocal h x (if arr then some a else none) else x)
  | .threw x => .threw x
  | .ub => .ub
  | .hang => .hang

end MI.Ser
