import Verif.Ord.Search
import Verif.Hash.Index
import Verif.Seq.Index
import Verif.Rnd.Model
/-!
# One index of a container

A `multi_index_container` is a chain of index classes, each deriving from the next, ending in `index_base`
(multi_index_container.hpp:66-80, detail/base_type.hpp). A `Layer` is one class of that chain: the data members of an index
together with the part of every node that belongs to that index. Simplifications:

* key extractor and comparison, hash and equality of keys are given directly on values: `lt v w` is `comp_(key(v),key(w))`,
  `eq v w` is `eq_(key(v),key(w))`, `hf v` is `hash_(key(v))`;
* the parts of a node belonging to different indices are disjoint memory, so each layer has its own heap;
* the address of the header is the same in all layers (in the code the layers see different subobjects of the one header).

`val x` is the value held by the node `x`. During insertion and replacement the new value, which is then still elsewhere, is
taken to be `val x`, `x` being the node it is meant for; `x` is not linked at the moment `val` is read for link points.
-/
namespace MI.Cont
open MI

/-- The load policy of a hashed index: the bucket count asked for `n` elements (`Hash.bcFor fl mlf` for rounding `fl` and maximum
load factor `mlf`), and `max_load` for a bucket count (`Hash.maxLoad fl mlf`). hashed_index.hpp:1440-1455. -/
structure Pol where
  grow : Nat → Nat
  load : Nat → Nat

/-- One index. -/
inductive Layer (V : Type) where
  /-- ordered (or ranked) index; `u`: unique -/
  | ord (u : Bool) (lt : V → V → Bool) (h : Ord.Heap)
  /-- hashed index: category, equality, hash, load policy, `max_load`, links, bucket array -/
  | hash (c : Hash.Cat) (eq : V → V → Bool) (hf : V → Nat) (pol : Pol) (ml : Nat) (h : Hash.Heap) (a : Hash.Arr)
  /-- sequenced index -/
  | seq (h : Seq.Heap)
  /-- random access index -/
  | rnd (s : Rnd.Arr)

/-- What the environment does to one index during one operation. `allocFail`: the allocation of a bucket array or pointer array
throws. `base`, `junk`: address of the new bucket array, initial contents of the new pointer array. `cpy`: address of the local
node of `unchecked_rehash`. `hashThrow = some t`: in a rehash, the hash function throws after `t` calls. `point`: a user call
(key extraction, comparison, hash, equality) made by `link_point` throws. `place`: the same for `in_place`. Searches change
nothing, so it does not matter at which of its calls a search throws. -/
structure Env where
  allocFail : Bool := false
  base : Id := 0
  junk : Nat → Id := fun _ => 0
  cpy : Id := 0
  hashThrow : Option Nat := none
  point : Bool := false
  place : Bool := false

/-- Where to link. -/
inductive Pt where
  | ord (side : Ord.Side) (pos : Id)
  | hash (pos : Hash.Pos)
  | tail
deriving Repr, DecidableEq

/-- Outcome of the search for a link point. -/
inductive PtRes where
  | accept (p : Pt)
  | reject (y : Id)
  | threw
  | hang
deriving Repr, DecidableEq

/-- What `takeOut` remembers: the following element (ordered indices), the tracked assignments (hashed indices). -/
inductive Saved where
  | next (y : Id)
  | log (l : Hash.Log)
  | none

variable {V : Type}

namespace Layer

/-- The equality of nodes in a hashed index. -/
def eqv (eq : V → V → Bool) (val : Id → V) (x y : Id) : Bool := eq (val x) (val y)

/-- Preparation for one more element. Ordered, sequenced: nothing. Hashed: `reserve_for_insert(size()+1)`, hashed_index.hpp:937,
956, 1447-1455. Random access: `ptrs.room_for_one()`, random_access_index.hpp:830, 841. -/
def reserve (hd : Id) (val : Id → V) (size : Nat) (e : Env) : Layer V → Out (Layer V)
  | .ord u lt h => .ok (.ord u lt h)
  | .hash c eq hf pol ml h a =>
    if size + 1 > ml then
      if e.allocFail then .threw (.hash c eq hf pol ml h a)
      else
        let na : Hash.Arr := ⟨e.base, Hash.sizeFor Hash.sizes (pol.grow (size + 1))⟩
        match Hash.rehash c (fun x => hf (val x)) size e.hashThrow h a na hd e.cpy with
        | .ok (h, true) => .threw (.hash c eq hf pol ml h a)
        | .ok (h, false) => .ok (.hash c eq hf pol (pol.load na.size) h na)
        | .threw _ => .hang
        | .ub => .ub
        | .hang => .hang
    else .ok (.hash c eq hf pol ml h a)
  | .seq h => .ok (.seq h)
  | .rnd s =>
    if s.size = s.cap ∧ e.allocFail = true then .threw (.rnd s)
    else .ok (.rnd (Rnd.roomForOne e.junk s))

/-- `link_point` for the value of `x` (`hint = none`) or `hinted_link_point` (`hint = some position`). Ordered:
ord_index_impl.hpp:847, 867, 1159-1299. Hashed: hashed_index.hpp:939-944, 1312-1342, hints are ignored. Sequenced and random access
indices have no link point: elements go to the end. -/
def point (n : Nat) (hd : Id) (val : Id → V) (e : Env) (hint : Option Id) (x : Id) : Layer V → PtRes
  | .ord u lt h =>
    if e.point then .threw
    else
      match (if u then Ord.pointU val lt n h hd (val x) hint else Ord.pointN val lt n h hd (val x) hint) with
      | none => .hang
      | some (.reject y) => .reject y
      | some (.accept side pos) => .accept (.ord side pos)
  | .hash c eq hf _ _ h a =>
    if e.point then .threw
    else
      match Hash.linkPoint n c (eqv eq val) (eqv eq val x) (hf (val x)) h a with
      | .ok (.reject y) => .reject y
      | .ok (.accept pos) => .accept (.hash pos)
      | _ => .hang
  | .seq _ => .accept .tail
  | .rnd _ => .accept .tail

/-- `link` at a link point. Ordered: ord_index_impl.hpp:853-857. Hashed: hashed_index.hpp:947, 1404-1426. Sequenced: `link(x)`,
sequenced_index.hpp:744. Random access: `ptrs.push_back(x)`, random_access_index.hpp:832. `none`: a loop exceeded its budget, or
the link point is of the wrong kind. -/
def link (n : Nat) (hd x : Id) : Pt → Layer V → Option (Layer V)
  | .ord side pos, .ord u lt h => (Ord.link n h x side pos hd).map (.ord u lt ·)
  | .hash pos, .hash c eq hf pol ml h a => some (.hash c eq hf pol ml (Hash.link c h x pos hd) a)
  | .tail, .seq h => some (.seq (h.link x hd))
  | .tail, .rnd s => (Rnd.pushBack s x).map .rnd
  | _, _ => none

/-- Removal of `x` from this index: `rebalance_for_extract` (ord_index_impl.hpp:884-885), `unlink(x)` (hashed_index.hpp:973,
sequenced_index.hpp:761), `ptrs.erase(x)` (random_access_index.hpp:850). -/
def unlink (n : Nat) (hd x : Id) : Layer V → Option (Layer V)
  | .ord u lt h => (Ord.extract n h hd x).map (.ord u lt ·)
  | .hash c eq hf pol ml h a => some (.hash c eq hf pol ml (Hash.unlink c h x) a)
  | .seq h => some (.seq (h.unlink x))
  | .rnd s => some (.rnd (Rnd.erase s x))

/-- `in_place` for the value of `x`: ord_index_impl.hpp:1310-1337, hashed_index.hpp:1090-1091, 1572-1645. Sequenced and random access
indices have no such test. `threw` when a user call throws. -/
def inPlace (n : Nat) (hd : Id) (val : Id → V) (e : Env) (x : Id) : Layer V → Out Bool
  | .ord u lt h =>
    if e.place then .threw false
    else
      match (if u then Ord.inPlaceU val lt n h hd (val x) x else Ord.inPlaceN val lt n h hd (val x) x) with
      | none => .hang
      | some b => .ok b
  | .hash c eq hf _ _ h a =>
    if e.place then .threw false else Hash.inPlace n c (eqv eq val x) (hf (val x)) h a x
  | .seq _ => .ok true
  | .rnd _ => .ok true

/-- The test with which `replace_` decides that `x` can stay where it is. Ordered: `in_place(v,x)`, ord_index_impl.hpp:938. Hashed:
`eq_(key(v),key(x->value()))`, hashed_index.hpp:1061; `old` is the value `x` holds. -/
def keeps (n : Nat) (hd : Id) (val : Id → V) (old : V) (e : Env) (x : Id) : Layer V → Out Bool
  | .hash _ eq _ _ _ _ _ => if e.place then .threw false else .ok (eq (val x) old)
  | L => L.inPlace n hd val e x

/-- Removal of `x` in such a way that it can be put back. Ordered: `increment(next)` and `rebalance_for_extract`,
ord_index_impl.hpp:942-946. Hashed: `unlink(x,undo)`, hashed_index.hpp:1065-1066. Not used for the other indices. -/
def takeOut (n : Nat) (hd x : Id) : Layer V → Option (Layer V × Saved)
  | .ord u lt h =>
    match Ord.increment h n x with
    | none => none
    | some y => (Ord.extract n h hd x).map (fun h => (.ord u lt h, .next y))
  | .hash c eq hf pol ml h a =>
    let s := Hash.unlinkA c h x
    some (.hash c eq hf pol ml s.h a, .log s.log)
  | .seq _ => none
  | .rnd _ => none

/-- `restore(x,next,header)`, ord_index_impl.hpp:954, 958; `undo()`, hashed_index.hpp:1075, 1079. -/
def putBack (n : Nat) (hd x : Id) : Saved → Layer V → Option (Layer V)
  | .next y, .ord u lt h => (Ord.restore n h x y hd).map (.ord u lt ·)
  | .log l, .hash c eq hf pol ml h a => some (.hash c eq hf pol ml (Hash.St.undo ⟨h, l⟩) a)
  | _, _ => none

/-- Does `replace_`/`modify_rollback_` move elements in this index? (Sequenced and random access indices only forward:
sequenced_index.hpp:810-813, 841-844, random_access_index.hpp:901-904, 932-935.) -/
def keyed : Layer V → Bool
  | .ord .. => true
  | .hash .. => true
  | _ => false

/-- `clear_()` of this index: `empty_initialize()` (ord_index_impl.hpp:901, sequenced_index.hpp:782), `buckets.clear(header)`
(hashed_index.hpp:1018), `ptrs.clear()` (random_access_index.hpp:869). -/
def clear (hd : Id) : Layer V → Layer V
  | .ord u lt h => .ord u lt (Ord.emptyInit h hd)
  | .hash c eq hf pol ml h a => .hash c eq hf pol ml (Hash.clear h a hd) a
  | .seq h => .seq (h.emptyInit hd)
  | .rnd s => .rnd (Rnd.clear s)

/-- `begin()`: ord_index_impl.hpp:270-277 (`leftmost()`), hashed_index.hpp:245-255, sequenced_index.hpp:221-224,
random_access_index.hpp:227-230. -/
def first (hd : Id) : Layer V → Id
  | .ord _ _ h => h.left hd
  | .hash _ _ _ _ _ h _ => Hash.begin h hd
  | .seq h => h.next hd
  | .rnd s => s.arr 0

/-- `++it`: ord_index_node.hpp:188-203, hash_index_node.hpp:240-243, 380-383 (through bidir_node_iterator.hpp, hash_index_iterator.hpp),
seq_index_node.hpp:47, rnd_index_node.hpp:51-54. -/
def next (n : Nat) (x : Id) : Layer V → Option Id
  | .ord _ _ h => Ord.increment h n x
  | .hash c _ _ _ _ h _ => some (Hash.after c h x)
  | .seq h => some (h.next x)
  | .rnd s => some (Rnd.increment s x)

/-- `for(it=x;it!=end();++it)`: the elements met. -/
def walkFrom (n : Nat) (hd : Id) (L : Layer V) : Nat → Id → Option (List Id)
  | 0, x => if x = hd then some [] else none
  | m + 1, x =>
    if x = hd then some []
    else
      match L.next n x with
      | none => none
      | some y => (walkFrom n hd L m y).map (x :: ·)

/-- A traversal of the index, from `begin()` to `end()`; `none` if it has not ended after `n` steps. -/
def walk (n : Nat) (hd : Id) (L : Layer V) : Option (List Id) := L.walkFrom n hd n (L.first hd)

end Layer
end MI.Cont
