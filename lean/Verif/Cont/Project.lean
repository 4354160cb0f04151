import Verif.Cont.World
/-!
# Projection of iterators, and iterators from references

A node is one object for all indices (detail/node_type.hpp): its class for an index derives from that for the next one, the last of which derives from `index_node_base`, which has the element
(ord_index_node.hpp:599, hash_index_node.hpp:704, seq_index_node.hpp:150, rnd_index_node.hpp:213, index_node_base.hpp:45-46). The classes have further bases, so that conversions between them may
change the address; where compilers put each base is not known.
-/
namespace MI.Cont
open MI
variable {V : Type}

/-- Where things are in memory. -/
structure Layout where
  /-- the address of each node -/
  at' : Id → Int
  /-- for each class of nodes, from that of the first index on: the offset of the base class for the next index (after the last index: of `index_node_base`) -/
  base : List Int

/-- The offset of the class for index `k` in the whole node, which is that for the first index (`final_node_type`). For `k` the number of indices, that of `index_node_base`. -/
def Layout.off (A : Layout) (k : Nat) : Int := (A.base.take k).sum

/-- `static_cast<final_node_type*>(p)`, `p` a pointer to the class for index `k`: from there to the first index, one class after the other. -/
def Layout.toFinal (A : Layout) (k : Nat) (p : Int) : Int := (A.base.take k).reverse.foldl (· - ·) p

/-- The conversion of a pointer to a node to that for index `k`. -/
def Layout.toIndex (A : Layout) (k : Nat) (p : Int) : Int := (A.base.take k).foldl (· + ·) p

/-- What iterators of index `k` hold if they refer to `x`, an element or, for `end()`, the header (`make_iterator`: ord_index_impl.hpp, `bidir_node_iterator(node)`; header_holder.hpp). -/
def Layout.iter (A : Layout) (k : Nat) (x : Id) : Int := A.toIndex k (A.at' x)

/-- `&*it`, `it` an iterator of index `k` out of `n`: bidir_node_iterator.hpp:47-50, rnd_node_iterator.hpp:45-48, hash_index_iterator.hpp:52-55; `value()` is at the very beginning of `index_node_base`
(index_node_base.hpp:54-62). -/
def Layout.deref (A : Layout) (n k : Nat) (it : Int) : Int := ((A.base.take n).drop k).foldl (· + ·) it

/-- `project<j>(it)`, `it` an iterator of index `i`: multi_index_container.hpp:499-500, 516-517, 548-549, 565-566. -/
def Layout.project (A : Layout) (i j : Nat) (it : Int) : Int := A.toIndex j (A.toFinal i it)

/-- `iterator_to(e)` of index `k` out of `n`, the element being at address `p`: `node_from_value` (index_node_base.hpp:66-71, 89-95), which converts from `index_node_base` to the class of the
index; hashed_index.hpp:262-272, and likewise in the others. -/
def Layout.iteratorTo (A : Layout) (n k : Nat) (p : Int) : Int := ((A.base.take n).drop k).reverse.foldl (· - ·) p
end MI.Cont
