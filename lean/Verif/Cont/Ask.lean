import Verif.Cont.RefApi
import Verif.Cont.Compare
import Verif.Safe.Checks
import Verif.Spec.Lookup
import Verif.Spec.Hash
/-!
The questions a program may ask of its containers: sizes, traversals, steps of iterators, lookups, ranks, positions, comparisons. `World.ask` answers them as the
code does, dispatching to the functions of the index concerned.
-/
namespace MI.Cont
open MI
variable {V : Type}

/-- A question about index `k` of container `i`. Positions are `some x` (an iterator to the element `x`) or `none` (`end()`). Lookups of ordered
indices are given what the comparison says about a key and the argument: `below v` is `comp(key(v),x)`, `above v` is `comp(x,key(v))`; those
of hashed indices are given `p v`, that is `eq(x,key(v))`, and `hk`, that is `hash(x)`. -/
inductive Ask (V : Type) where
  | size (i : Nat)
  | value (x : Id)
  | walk (i k : Nat)
  | first (i k : Nat)
  | next (i k : Nat) (x : Id)
  | prior (i k : Nat) (p : Option Id)
  | find (i k : Nat) (below above : V → Bool)
  | contains (i k : Nat) (below above : V → Bool)
  | lower (i k : Nat) (below above : V → Bool)
  | upper (i k : Nat) (below above : V → Bool)
  | count (i k : Nat) (below above : V → Bool)
  | equalRange (i k : Nat) (below above : V → Bool)
  | range (i k : Nat) (lower upper : Option (V → Bool))
  | nth (i k n : Nat)
  | rank (i k : Nat) (p : Option Id)
  | findRank (i k : Nat) (below above : V → Bool)
  | lowerRank (i k : Nat) (below above : V → Bool)
  | upperRank (i k : Nat) (below above : V → Bool)
  | equalRangeRank (i k : Nat) (below above : V → Bool)
  | rangeRank (i k : Nat) (lower upper : Option (V → Bool))
  | countRanked (i k : Nat) (below above : V → Bool)
  | hashFind (i k : Nat) (p : V → Bool) (hk : Nat)
  | hashCount (i k : Nat) (p : V → Bool) (hk : Nat)
  | hashRange (i k : Nat) (p : V → Bool) (hk : Nat)
  | at (i k n : Nat)
  | distance (i k : Nat) (p q : Option Id)
  | equal (eq : V → V → Bool) (i k j l : Nat)
  | less (lt : V → V → Bool) (i k j l : Nat)

/-- An answer. -/
inductive Ans (V : Type) where
  | num (n : Nat)
  | int (n : Int)
  | bool (b : Bool)
  | value (v : V)
  | pos (p : Option Id)
  | pair (p q : Option Id)
  | nums (m n : Nat)
  | list (xs : List Id)
deriving DecidableEq, Repr

/-- The position an iterator stands for. -/
def spot (hd x : Id) : Option Id := if x = hd then none else some x

/-- `for(it=x;it!=last;++it)`: the elements met. -/
def Layer.walkTo (n : Nat) (last : Id) (L : Layer V) : Nat → Id → Option (List Id)
  | 0, x => if x = last then some [] else none
  | m + 1, x =>
    if x = last then some []
    else
      match L.next n x with
      | none => none
      | some y => (L.walkTo n last m y).map (x :: ·)

/-- `get<k>()` of container `i`: multi_index_container.hpp:434-460. -/
def World.layer (w : World V) (i k : Nat) : Option (Container V × Layer V) :=
  match w.cs[i]? with
  | none => none
  | some c => c.ls[k]?.map fun L => (c, L)

/-- What the program gets. `size()`: ord_index_impl.hpp:295 and the like; `*it`: bidir_node_iterator.hpp:47-50 and the like; `begin()`, `++it`, `--it`: `Layer.first`,
`Layer.next`, `Layer.prev`; `find`, `contains`, `lower_bound`, `upper_bound`, `count`, `equal_range`, `range` of ordered indices: `Ord.find` and so on
(Verif/Ord/Search.lean); the functions of ranked indices: `Ord.nth` and so on; `find`, `count`, `equal_range` of hashed indices: `Hash.find` and so on
(Verif/Hash/Index.lean), of the last one the elements met from the first position to the second; `operator[]` and the difference of two iterators of a
random access index: `Rnd.nth`, `Rnd.distance`; `==` and `<` of indices: `World.indexEq`, `World.indexLt`. -/
def World.ask (w : World V) : Ask V → Option (Ans V)
  | .size i => w.cs[i]?.map fun c => .num c.count
  | .value x => (w.read x).map .value
  | .walk i k =>
    match w.layer i k with
    | some (c, L) => (L.walk c.budget c.hd).map .list
    | none => none
  | .first i k =>
    match w.layer i k with
    | some (c, L) => some (.pos (spot c.hd (L.first c.hd)))
    | none => none
  | .next i k x =>
    match w.layer i k with
    | some (c, L) => (L.next c.budget x).map fun y => .pos (spot c.hd y)
    | none => none
  | .prior i k p =>
    match w.layer i k with
    | some (c, L) => (L.prev c.budget (p.getD c.hd)).map fun y => .pos (spot c.hd y)
    | none => none
  | .find i k below above =>
    match w.layer i k with
    | some (c, .ord _ _ h) => (Ord.find w.m.val (fun v (_ : Unit) => below v) (fun _ v => above v) c.budget h c.hd ()).map fun y => .pos (spot c.hd y)
    | _ => none
  | .contains i k below above =>
    match w.layer i k with
    | some (c, .ord _ _ h) => (Ord.contains w.m.val (fun v (_ : Unit) => below v) (fun _ v => above v) c.budget h c.hd ()).map .bool
    | _ => none
  | .lower i k below _ =>
    match w.layer i k with
    | some (c, .ord _ _ h) => (Ord.lowerBound w.m.val (fun v (_ : Unit) => below v) c.budget h c.hd ()).map fun y => .pos (spot c.hd y)
    | _ => none
  | .upper i k _ above =>
    match w.layer i k with
    | some (c, .ord _ _ h) => (Ord.upperBound w.m.val (fun (_ : Unit) v => above v) c.budget h c.hd ()).map fun y => .pos (spot c.hd y)
    | _ => none
  | .count i k below above =>
    match w.layer i k with
    | some (c, .ord _ _ h) => (Ord.count w.m.val (fun v (_ : Unit) => below v) (fun _ v => above v) c.budget h c.hd ()).map .num
    | _ => none
  | .equalRange i k below above =>
    match w.layer i k with
    | some (c, .ord _ _ h) =>
      (Ord.equalRange w.m.val (fun v (_ : Unit) => below v) (fun _ v => above v) c.budget h c.hd ()).map fun y => .pair (spot c.hd y.1) (spot c.hd y.2)
    | _ => none
  | .range i k lower upper =>
    match w.layer i k with
    | some (c, .ord _ _ h) => (Ord.range w.m.val lower upper c.budget h c.hd).map fun y => .pair (spot c.hd y.1) (spot c.hd y.2)
    | _ => none
  | .nth i k n =>
    match w.layer i k with
    | some (c, .ord _ _ h) => (Ord.nth c.budget h c.hd n).map fun y => .pos (spot c.hd y)
    | _ => none
  | .rank i k p =>
    match w.layer i k with
    | some (c, .ord _ _ h) => (Ord.rank c.budget h c.hd (p.getD c.hd)).map .num
    | _ => none
  | .findRank i k below above =>
    match w.layer i k with
    | some (c, .ord _ _ h) => (Ord.findRank w.m.val (fun v (_ : Unit) => below v) (fun _ v => above v) c.budget h c.hd ()).map .num
    | _ => none
  | .lowerRank i k below _ =>
    match w.layer i k with
    | some (c, .ord _ _ h) => (Ord.lowerBoundRank w.m.val (fun v (_ : Unit) => below v) c.budget h c.hd ()).map .num
    | _ => none
  | .upperRank i k _ above =>
    match w.layer i k with
    | some (c, .ord _ _ h) => (Ord.upperBoundRank w.m.val (fun (_ : Unit) v => above v) c.budget h c.hd ()).map .num
    | _ => none
  | .equalRangeRank i k below above =>
    match w.layer i k with
    | some (c, .ord _ _ h) => (Ord.equalRangeRank w.m.val (fun v (_ : Unit) => below v) (fun _ v => above v) c.budget h c.hd ()).map fun y => .nums y.1 y.2
    | _ => none
  | .rangeRank i k lower upper =>
    match w.layer i k with
    | some (c, .ord _ _ h) => (Ord.rangeRank w.m.val lower upper c.budget h c.hd c.count).map fun y => .nums y.1 y.2
    | _ => none
  | .countRanked i k below above =>
    match w.layer i k with
    | some (c, .ord _ _ h) => (Ord.countRanked w.m.val (fun v (_ : Unit) => below v) (fun _ v => above v) c.budget h c.hd ()).map .num
    | _ => none
  | .hashFind i k p hk =>
    match w.layer i k with
    | some (c, .hash g _ _ _ _ h a) =>
      match Hash.find c.budget g (fun y => p (w.m.val y)) hk h a c.hd with
      | .ok y => some (.pos (spot c.hd y))
      | _ => none
    | _ => none
  | .hashCount i k p hk =>
    match w.layer i k with
    | some (c, .hash g eq _ _ _ h a) =>
      match Hash.count c.budget g (fun x y => eq (w.m.val x) (w.m.val y)) (fun y => p (w.m.val y)) hk h a with
      | .ok n => some (.num n)
      | _ => none
    | _ => none
  | .hashRange i k p hk =>
    match w.layer i k with
    | some (c, .hash g eq hf pol ml h a) =>
      match Hash.equalRange c.budget g (fun x y => eq (w.m.val x) (w.m.val y)) (fun y => p (w.m.val y)) hk h a c.hd with
      | .ok (x, y) => (Layer.walkTo c.budget y (.hash g eq hf pol ml h a) c.budget x).map .list
      | _ => none
    | _ => none
  | .at i k n =>
    match w.layer i k with
    | some (c, .rnd s) => some (.pos (spot c.hd (Rnd.nth s n)))
    | _ => none
  | .distance i k p q =>
    match w.layer i k with
    | some (c, .rnd s) => some (.int (Rnd.distance s (p.getD c.hd) (q.getD c.hd)))
    | _ => none
  | .equal eq i k j l => (w.indexEq eq i k j l).map .bool
  | .less lt i k j l => (w.indexLt lt i k j l).map .bool

end MI.Cont
