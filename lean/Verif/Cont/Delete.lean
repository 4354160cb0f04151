import Verif.Cont.Layer
/-!
# Destruction of all elements

`delete_all_nodes_()` of the first index destroys and frees every node, reading links while it goes. Each function returns the nodes
in the order in which they are deleted. Reading or writing a field of a node already deleted is the outcome `ub`.
-/
namespace MI.Cont
open MI
variable {V : Type}

/-- `delete_all_nodes(x)`: ord_index_impl.hpp:1301-1308. `fr`: the nodes deleted so far, the last first. The recursion is
bounded by the budget. -/
def deleteOrd (h : Ord.Heap) : Nat → List Id → Id → Out (List Id)
  | n, fr, x =>
    if x = 0 then .ok fr
    else
      match n with
      | 0 => .hang
      | n + 1 =>
        if x ∈ fr then .ub
        else
          match deleteOrd h n fr (h.left x) with
          | .ok fr =>
            if x ∈ fr then .ub
            else
              match deleteOrd h n fr (h.right x) with
              | .ok fr => .ok (x :: fr)
              | r => r
          | r => r

/-- The loops of `delete_all_nodes_(hashed_unique_tag)` and `delete_all_nodes_(hashed_non_unique_tag)`: hashed_index.hpp:986-1013. -/
def deleteHash (c : Hash.Cat) (hd : Id) : Nat → Hash.Heap → List Id → Id → Out (List Id)
  | n, h, fr, x =>
    if x = hd then .ok fr
    else
      match n with
      | 0 => .hang
      | n + 1 =>
        if x ∈ fr then .ub
        else
          let y := h.prior x
          match c with
          | .uniq => deleteHash c hd n h (x :: fr) y
          | .multi =>
            if y ∈ fr then .ub
            else if h.next y ≠ x then
              if h.next y ∈ fr then .ub
              else if h.prior (h.next y) ≠ x then
                let first := h.next y
                if h.next first ∈ fr then .ub
                else deleteHash c hd n (h.setPrior (h.next first) first) (x :: fr) y
              else deleteHash c hd n h (x :: fr) y
            else deleteHash c hd n h (x :: fr) y

/-- The loop of `delete_all_nodes_()` of sequenced indices: sequenced_index.hpp:769-777. -/
def deleteSeq (h : Seq.Heap) (hd : Id) : Nat → List Id → Id → Out (List Id)
  | n, fr, x =>
    if x = hd then .ok fr
    else
      match n with
      | 0 => .hang
      | n + 1 => if x ∈ fr then .ub else deleteSeq h hd n (x :: fr) (h.next x)

/-- `delete_all_nodes_()`, the nodes deleted in the order of deletion: ord_index_impl.hpp:893-896 (`delete_all_nodes(root())`),
hashed_index.hpp:981-1013, sequenced_index.hpp:769-777, random_access_index.hpp:858-864 (reads only the array of pointers). -/
def Layer.deleteAll (n : Nat) (hd : Id) : Layer V → Out (List Id)
  | .ord _ _ h => (match deleteOrd h n [] (h.parent hd) with | .ok fr => .ok fr.reverse | r => r)
  | .hash c _ _ _ _ h _ => (match deleteHash c hd n h [] (h.prior hd) with | .ok fr => .ok fr.reverse | r => r)
  | .seq h => (match deleteSeq h hd n [] (h.next hd) with | .ok fr => .ok fr.reverse | r => r)
  | .rnd s => .ok ((List.range s.size).map s.arr)

end MI.Cont
