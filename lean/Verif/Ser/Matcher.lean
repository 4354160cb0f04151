import Mathlib.Data.List.Sort
import Verif.Prelude

/-! Model of `detail/index_matcher.hpp`: while a container is saved, it decides which elements of an index are "in order" with
respect to the sequence in which the elements themselves were saved (the base sequence).

The array of `entry` objects is one function per field; an `entry*` is its index in the array. Fields which the C++ leaves
uninitialized have arbitrary values here. `none` stands for an access beyond the end of the array. -/
namespace MI.Ser

/-- `std::lower_bound` on positions `[first, first+len)`, as the halving loop that the standard library runs; `p k` tells whether
the element at `k` compares less than the value sought. `fuel` bounds the number of rounds; `len` rounds always suffice. -/
def lowerBound (p : Nat → Bool) : (fuel first len : Nat) → Nat
  | 0, first, _ => first
  | fuel + 1, first, len =>
    if len = 0 then first
    else
      let half := len / 2
      if p (first + half) then lowerBound p fuel (first + half + 1) (len - half - 1)
      else lowerBound p fuel first half

/-- `algorithm_base` with its array of `entry` (index_matcher.hpp:68–101, 182–189). -/
structure Alg where
  /-- `size_`: the number of entries allocated -/
  size : Nat
  /-- `n_`: the number of entries added so far -/
  n : Nat
  sorted : Bool
  numPiles : Nat
  /-- `entry::node` -/
  node : Nat → Id
  /-- `entry::pos` -/
  pos : Nat → Nat
  /-- `entry::previous` -/
  previous : Nat → Nat
  /-- `entry::ordered` -/
  ordered : Nat → Bool
  /-- `entry::pile_top` -/
  pileTop : Nat → Nat
  /-- `entry::pile_top_entry` -/
  pileEnt : Nat → Nat

/-- `algorithm_base(al,size)` (index_matcher.hpp:109–112): memory for `size` entries, with whatever contents. -/
def Alg.new (size : Nat) (junk : Alg) : Alg := { junk with size := size, n := 0, sorted := false }

/-- `add(node)` (index_matcher.hpp:114–118). -/
def Alg.add (a : Alg) (x : Id) : Option Alg :=
  if a.n < a.size then some { a with node := upd a.node a.n x, pos := upd a.pos a.n a.n, n := a.n + 1 } else none

/-- The `node` and `pos` fields after `std::sort(entries(),entries()+size_,less_by_node())` (index_matcher.hpp:123): the model
takes an insertion sort. No two entries have the same node, so every sorting algorithm gives this result. The other fields mean
nothing at this point, and are left alone. -/
def Alg.sortedEntries (a : Alg) : List (Id × Nat) :=
  ((List.range a.size).map fun k => (a.node k, a.pos k)).insertionSort fun u v => u.1 ≤ v.1

/-- `begin_algorithm()` (index_matcher.hpp:120–127). -/
def Alg.begin (a : Alg) : Alg :=
  if a.sorted then { a with numPiles := 0 }
  else
    { a with
      node := fun k => ((a.sortedEntries)[k]?.getD (0, 0)).1
      pos := fun k => ((a.sortedEntries)[k]?.getD (0, 0)).2
      sorted := true
      numPiles := 0 }

/-- "localize entry" (index_matcher.hpp:131–134, 177–179). -/
def Alg.localize (a : Alg) (x : Id) : Nat := lowerBound (fun k => decide (a.node k < x)) a.size 0 a.size

/-- "find the first available pile to stack the entry" (index_matcher.hpp:138–144). -/
def Alg.pileFor (a : Alg) (m : Nat) : Nat := lowerBound (fun k => decide (a.pileTop k < m)) a.numPiles 0 a.numPiles

/-- `add_node_to_algorithm(node)` (index_matcher.hpp:129–157). -/
def Alg.addNode (a : Alg) (x : Id) : Option Alg :=
  let ent := a.localize x
  let m := a.pos ent
  let pile := a.pileFor m
  if ent < a.size ∧ pile < a.size then
    some
      { a with
        ordered := upd a.ordered ent false
        pileTop := upd a.pileTop pile m
        pileEnt := upd a.pileEnt pile ent
        previous := if 0 < pile then upd a.previous ent (upd a.pileEnt pile ent (pile - 1)) else a.previous
        numPiles := if pile = a.numPiles then a.numPiles + 1 else a.numPiles }
  else none

/-- The loop of `finish_algorithm()` (index_matcher.hpp:168–171). -/
def Alg.mark (previous : Nat → Nat) : (n ent : Nat) → (Nat → Bool) → Nat → Bool
  | 0, _, o => o
  | n + 1, ent, o => Alg.mark previous n (previous ent) (upd o ent true)

/-- `finish_algorithm()` (index_matcher.hpp:159–173). -/
def Alg.finish (a : Alg) : Alg :=
  if 0 < a.numPiles then { a with ordered := Alg.mark a.previous a.numPiles (a.pileEnt (a.numPiles - 1)) a.ordered } else a

/-- The loop of `execute(first,last)` (index_matcher.hpp:216–218) over the nodes the range visits. -/
def Alg.addNodes (a : Alg) : List Id → Option Alg
  | [] => some a
  | x :: xs =>
    match a.addNode x with
    | some a' => a'.addNodes xs
    | none => none

/-- `execute(first,last)` (index_matcher.hpp:211–221). -/
def Alg.execute (a : Alg) (xs : List Id) : Option Alg :=
  match a.begin.addNodes xs with
  | some a' => some a'.finish
  | none => none

/-- `is_ordered(node)` (index_matcher.hpp:175–180, 223–226). -/
def Alg.isOrdered (a : Alg) (x : Id) : Option Bool := if a.localize x < a.size then some (a.ordered (a.localize x)) else none

/-- The initialization phase: `add` is called for every element of the container, in base order
(multi_index_container.hpp:1129–1132, detail/index_saver.hpp:44–47). -/
def Alg.addAll (a : Alg) : List Id → Option Alg
  | [] => some a
  | x :: xs =>
    match a.add x with
    | some a' => a'.addAll xs
    | none => none

end MI.Ser
