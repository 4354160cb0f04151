import Verif.Prelude

/-!
# Sequenced index: pointer level model

Models `include/boost/multi_index/detail/seq_index_node.hpp` lines 30-130.
A heap holds the two pointer fields of every node; nodes (and headers) are identified by `Id`s.
-/
namespace MI.Seq
open MI

/-- The `prior_`/`next_` fields of all nodes (seq_index_node.hpp:40-43,127-129). -/
structure Heap where
  next : Id → Id
  prior : Id → Id

namespace Heap

/-- `p->next()=q`. -/
def setNext (h : Heap) (p q : Id) : Heap := { h with next := upd h.next p q }

/-- `p->prior()=q`. -/
def setPrior (h : Heap) (p q : Id) : Heap := { h with prior := upd h.prior p q }

/-- `increment(x)`: seq_index_node.hpp:47. -/
def increment (h : Heap) (x : Id) : Id := h.next x

/-- `decrement(x)`: seq_index_node.hpp:48. -/
def decrement (h : Heap) (x : Id) : Id := h.prior x

/-- `empty_initialize()`: sequenced_index.hpp:906-909. -/
def emptyInit (h : Heap) (header : Id) : Heap := (h.setNext header header).setPrior header header

/-- `link(x,header)`: seq_index_node.hpp:52-57.
`x->prior()->next()=x->next()->prior()=x` assigns the right one first. -/
def link (h : Heap) (x header : Id) : Heap :=
  let h := h.setPrior x (h.prior header)
  let h := h.setNext x header
  let h := h.setPrior (h.next x) x
  h.setNext (h.prior x) x

/-- `unlink(x)`: seq_index_node.hpp:59-63. -/
def unlink (h : Heap) (x : Id) : Heap :=
  let h := h.setNext (h.prior x) (h.next x)
  h.setPrior (h.next x) (h.prior x)

/-- `relink(position,x)`: seq_index_node.hpp:65-71. -/
def relink (h : Heap) (position x : Id) : Heap :=
  let h := h.unlink x
  let h := h.setPrior x (h.prior position)
  let h := h.setNext x position
  let h := h.setPrior (h.next x) x
  h.setNext (h.prior x) x

/-- `relink(position,x,y)`: seq_index_node.hpp:73-86. -/
def relinkRange (h : Heap) (position x y : Id) : Heap :=
  if x ≠ y then
    let z := h.prior y
    let h := h.setNext (h.prior x) y
    let h := h.setPrior y (h.prior x)
    let h := h.setPrior x (h.prior position)
    let h := h.setNext z position
    let h := h.setNext (h.prior x) x
    h.setPrior (h.next z) z
  else h

/-- `reverse(header)`: seq_index_node.hpp:88-96, a do-while loop stopping when `header` is met again.
`fuel` bounds the iterations; `none` when the loop did not stop within `fuel` iterations. -/
def reverse (fuel : Nat) (h : Heap) (header : Id) : Option Heap :=
  go fuel h header
where
  go : Nat → Heap → Id → Option Heap
  | 0, _, _ => none
  | n + 1, h, x =>
    let y := h.next x
    let h := ⟨upd h.next x (h.prior x), upd h.prior x (h.next x)⟩
    if y = header then some h else go n h y

/-- `swap(x,y)`: seq_index_node.hpp:98-125 (exchanges the lists hanging from two headers). -/
def swapHeaders (h : Heap) (x y : Id) : Heap :=
  if h.next x ≠ x then
    if h.next y ≠ y then
      let nx := h.next x; let ny := h.next y
      let h := (h.setNext x ny).setNext y nx
      let px := h.prior x; let py := h.prior y
      let h := (h.setPrior x py).setPrior y px
      let h := h.setNext (h.prior x) x
      let h := h.setPrior (h.next x) x
      let h := h.setNext (h.prior y) y
      h.setPrior (h.next y) y
    else
      let h := h.setNext y (h.next x)
      let h := h.setPrior y (h.prior x)
      let h := h.setPrior x x
      let h := h.setNext x x
      let h := h.setNext (h.prior y) y
      h.setPrior (h.next y) y
  else if h.next y ≠ y then
    let h := h.setNext x (h.next y)
    let h := h.setPrior x (h.prior y)
    let h := h.setPrior y y
    let h := h.setNext y y
    let h := h.setNext (h.prior x) x
    h.setPrior (h.next x) x
  else h

end Heap

end MI.Seq
