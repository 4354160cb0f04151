import Verif.Safe.Model
/-!
# Safe mode: the checks

Models the checking routines of detail/safe_mode.hpp (lines 149-268), the checked operations of `safe_iterator` (497-539) and the checks that member functions
make of their arguments. Iterators constructed and destroyed inside a check (`it.owner()->end()`, `first`, `last`) are registered and unregistered again; they
are left out here: only the nodes they point to matter. `none` means undefined behaviour: a safe container that is not there, a traversal that goes on for ever.
-/
namespace MI.Cont
variable {V : Type}

/-- `--it`: ord_index_node.hpp:282-299, seq_index_node.hpp:48, rnd_index_node.hpp:56-59. Iterators of hashed indices have no `--`. -/
def Layer.prev (n : Nat) (x : Id) : Layer V → Option Id
  | .ord _ _ h => Ord.decrement h n x
  | .hash _ _ _ _ _ _ _ => none
  | .seq h => some (h.decrement x)
  | .rnd s => some (Rnd.decrement s x)

/-- `y-x` for iterators of a random access index: rnd_index_node.hpp:66-69. -/
def Layer.distance (x y : Id) : Layer V → Option Int
  | .rnd s => some (Rnd.distance s x y)
  | _ => none

/-- `x+=d` for an iterator of a random access index: rnd_index_node.hpp:61-64. -/
def Layer.advance (x : Id) (d : Int) : Layer V → Option Id
  | .rnd s => some (Rnd.advance s x d)
  | _ => none

end MI.Cont

namespace MI.Safe
open MI MI.Cont
variable {V : Type}

/-- The index with the safe container `a`: number of the container and of the index. -/
def locate (a : Nat) : List (List Nat) → Option (Nat × Nat)
  | [] => none
  | r :: rs =>
    match r.idxOf? a with
    | some k => some (0, k)
    | none => (locate a rs).map fun p => (p.1 + 1, p.2)

/-- `it.owner()`: safe_mode.hpp:350, 481-486; the index it is a view of (any_container_view.hpp). -/
def State.owner (s : State V) (it : Nat) : Option (Nat × Nat) := locate (s.reg.cont it) s.sid

/-- Container and index of `it.owner()`. -/
def State.view (s : State V) (it : Nat) : Option (Container V × Layer V) :=
  match s.owner it with
  | none => none
  | some (i, k) =>
    match s.w.cs[i]? with
    | none => none
    | some c => (c.ls[k]?).map fun L => (c, L)

/-- `valid()`: safe_mode.hpp:308. -/
def State.valid (s : State V) (it : Nat) : Bool := decide (s.reg.cont it ≠ 0)

/-- `check_dereferenceable_iterator`, `check_incrementable_iterator`: safe_mode.hpp:155-165. -/
def State.checkDeref (s : State V) (it : Nat) : Option Bool :=
  if s.valid it then (s.view it).map fun p => decide (s.reg.node it ≠ p.1.hd) || s.reg.unchecked it
  else some (s.reg.unchecked it)

/-- `check_decrementable_iterator`: safe_mode.hpp:167-171. -/
def State.checkDecr (s : State V) (it : Nat) : Option Bool :=
  if s.valid it then (s.view it).map fun p => decide (s.reg.node it ≠ p.2.first p.1.hd) || s.reg.unchecked it
  else some (s.reg.unchecked it)

/-- `check_is_owner(it,cont)`, `cont` being index `k` of container `i`: safe_mode.hpp:173-180. -/
def State.checkOwner (s : State V) (it i k : Nat) : Option Bool :=
  if s.valid it then (s.owner it).map fun p => decide (p = (i, k)) || s.reg.unchecked it
  else some (s.reg.unchecked it)

/-- `check_belongs_in_some_index(it,cont)`, `cont` being container `i`: safe_mode.hpp:182-188. The header nodes are compared. -/
def State.checkBelongs (s : State V) (it i : Nat) : Option Bool :=
  if s.valid it then
    match s.view it, s.w.cs[i]? with
    | some p, some c => some (decide (p.1.hd = c.hd) || s.reg.unchecked it)
    | _, _ => none
  else some (s.reg.unchecked it)

/-- `check_same_owner(it0,it1)`: safe_mode.hpp:190-196. -/
def State.checkSame (s : State V) (a b : Nat) : Option Bool :=
  if s.valid a && s.valid b then
    match s.owner a, s.owner b with
    | some p, some q => some (decide (p = q) || s.reg.unchecked a || s.reg.unchecked b)
    | _, _ => none
  else some (s.reg.unchecked a || s.reg.unchecked b)

/-- The loop of `check_valid_range`: `for(first=it0;first!=last;++first)if(first==it1)return true; return false;`: safe_mode.hpp:207-210. -/
def rangeLoop (n : Nat) (L : Layer V) (last it1 : Id) : Nat → Id → Option Bool
  | 0, _ => none
  | m + 1, first =>
    if first = last then some false
    else if first = it1 then some true
    else
      match L.next n first with
      | none => none
      | some y => rangeLoop n L last it1 m y

/-- `check_valid_range(it0,it1)`: safe_mode.hpp:198-213. -/
def State.checkRange (s : State V) (a b : Nat) : Option Bool :=
  match s.checkSame a b with
  | none => none
  | some false => some false
  | some true =>
    if s.valid a then
      match s.view a with
      | none => none
      | some (c, L) =>
        if s.reg.node b = c.hd then some true
        else rangeLoop c.budget L c.hd (s.reg.node b) c.budget (s.reg.node a)
    else some true

/-- The loop of `check_outside_range`, from the node `first`, `found` as it is; it returns where it ended and `found`: safe_mode.hpp:226-232, 248-254. Elements
are identified by their nodes, whether iterators (line 231) or addresses of elements (253) are compared. -/
def outsideLoop (n : Nat) (L : Layer V) (last it1 it : Id) : Nat → Id → Bool → Option (Id × Bool)
  | 0, _, _ => none
  | m + 1, first, found =>
    if first = last then some (first, found)
    else if first = it1 then some (first, found)
    else
      let found := if first = it then true else found
      match L.next n first with
      | none => none
      | some y => outsideLoop n L last it1 it m y found

/-- `check_outside_range(it,it0,it1)` for iterators of the same type: safe_mode.hpp:215-237. -/
def State.checkOutside (s : State V) (it a b : Nat) : Option Bool :=
  match s.checkSame a b with
  | none => none
  | some false => some false
  | some true =>
    if s.valid a then
      match s.view a with
      | none => none
      | some (c, L) =>
        match outsideLoop c.budget L c.hd (s.reg.node b) (s.reg.node it) c.budget (s.reg.node a) false with
        | none => none
        | some (first, found) => if first ≠ s.reg.node b then some false else some (!found)
    else some true

/-- `check_outside_range(it,it0,it1)` for iterators of different types: safe_mode.hpp:239-259. -/
def State.checkOutside2 (s : State V) (it a b : Nat) : Option Bool :=
  if s.valid it then
    match s.view it with
    | none => none
    | some (d, _) =>
      if s.reg.node it ≠ d.hd ∧ s.valid a then
        match s.view a with
        | none => none
        | some (c, L) =>
          match outsideLoop c.budget L c.hd (s.reg.node b) (s.reg.node it) c.budget (s.reg.node a) false with
          | none => none
          | some (first, found) => if first ≠ s.reg.node b then some false else some (!found)
      else some true
  else some true

/-- `check_in_bounds(it,n)`: safe_mode.hpp:261-268. -/
def State.checkBounds (s : State V) (it : Nat) (d : Int) : Option Bool :=
  if s.reg.unchecked it then some true
  else if ¬ s.valid it then some false
  else
    match s.view it with
    | none => none
    | some (c, L) =>
      if 0 < d then (L.distance (s.reg.node it) c.hd).map fun e => decide (d ≤ e)
      else (L.distance (s.reg.node it) (L.first c.hd)).map fun e => decide (e ≤ d)

/-- Error codes: safe_mode_errors.hpp:28-41. -/
inductive Err where
  | invalidIterator | notDereferenceable | notIncrementable | notDecrementable | notOwner | notSameOwner | invalidRange | insideRange | outOfBounds
deriving DecidableEq, Repr

/-- An assertion: safe_mode.hpp:57-116. -/
inductive Check where
  | valid (it : Nat)
  | deref (it : Nat)
  | incr (it : Nat)
  | decr (it : Nat)
  | owner (it i k : Nat)
  | belongs (it i : Nat)
  | same (a b : Nat)
  | range (a b : Nat)
  | outside (it a b : Nat)
  | outside2 (it a b : Nat)
  | bounds (it : Nat) (d : Int)

/-- The condition asserted. -/
def State.holds (s : State V) : Check → Option Bool
  | .valid it => some (s.reg.checkValid it)
  | .deref it => s.checkDeref it
  | .incr it => s.checkDeref it
  | .decr it => s.checkDecr it
  | .owner it i k => s.checkOwner it i k
  | .belongs it i => s.checkBelongs it i
  | .same a b => s.checkSame a b
  | .range a b => s.checkRange a b
  | .outside it a b => s.checkOutside it a b
  | .outside2 it a b => s.checkOutside2 it a b
  | .bounds it d => s.checkBounds it d

/-- The error code of an assertion. -/
def Check.err : Check → Err
  | .valid _ => .invalidIterator
  | .deref _ => .notDereferenceable
  | .incr _ => .notIncrementable
  | .decr _ => .notDecrementable
  | .owner _ _ _ => .notOwner
  | .belongs _ _ => .notOwner
  | .same _ _ => .notSameOwner
  | .range _ _ => .invalidRange
  | .outside _ _ _ => .insideRange
  | .outside2 _ _ _ => .insideRange
  | .bounds _ _ => .outOfBounds

/-- Assertions made one after the other; the error code of the first that fails, if any. -/
def State.guard (s : State V) : List Check → Option (Option Err)
  | [] => some none
  | k :: ks =>
    match s.holds k with
    | none => none
    | some true => s.guard ks
    | some false => some (some k.err)

/-! ## The checked operations of iterators: safe_mode.hpp:497-539

The outcome is an error or a result; `none` is undefined behaviour. -/

/-- `*it`: safe_mode.hpp:497-502. -/
def State.deref (s : State V) (it : Nat) : Option (Except Err V) :=
  match s.guard [.valid it, .deref it] with
  | none => none
  | some (some e) => some (.error e)
  | some none => some (.ok (s.w.m.val (s.reg.node it)))

/-- The base iterator of `it` is set. -/
def State.goTo (s : State V) (it : Nat) (x : Id) : State V := { s with reg := { s.reg with node := upd s.reg.node it x } }

/-- `++it`: safe_mode.hpp:512-517. For an unchecked iterator the index is not known to the model: `none`. -/
def State.incr (s : State V) (it : Nat) : Option (Except Err (State V)) :=
  match s.guard [.valid it, .incr it] with
  | none => none
  | some (some e) => some (.error e)
  | some none =>
    match s.view it with
    | none => none
    | some (c, L) => (L.next c.budget (s.reg.node it)).map fun y => .ok (s.goTo it y)

/-- `--it`: safe_mode.hpp:519-524. -/
def State.decr (s : State V) (it : Nat) : Option (Except Err (State V)) :=
  match s.guard [.valid it, .decr it] with
  | none => none
  | some (some e) => some (.error e)
  | some none =>
    match s.view it with
    | none => none
    | some (c, L) => (L.prev c.budget (s.reg.node it)).map fun y => .ok (s.goTo it y)

/-- `it+=d`: safe_mode.hpp:526-531. -/
def State.advance (s : State V) (it : Nat) (d : Int) : Option (Except Err (State V)) :=
  match s.guard [.valid it, .bounds it d] with
  | none => none
  | some (some e) => some (.error e)
  | some none =>
    match s.view it with
    | none => none
    | some (_, L) => (L.advance (s.reg.node it) d).map fun y => .ok (s.goTo it y)

/-- `a==b`: safe_mode.hpp:504-510. -/
def State.equal (s : State V) (a b : Nat) : Option (Except Err Bool) :=
  match s.guard [.valid a, .valid b, .same a b] with
  | none => none
  | some (some e) => some (.error e)
  | some none => some (.ok (decide (s.reg.node a = s.reg.node b)))

/-- `b-a`: safe_mode.hpp:533-539 (`distance_to`). -/
def State.minus (s : State V) (a b : Nat) : Option (Except Err Int) :=
  match s.guard [.valid a, .valid b, .same a b] with
  | none => none
  | some (some e) => some (.error e)
  | some none =>
    match s.view a with
    | none => none
    | some (_, L) => (L.distance (s.reg.node a) (s.reg.node b)).map .ok

/-! ## The checks of member functions of index `k` of container `i` -/

/-- `erase(position)`, `extract(position)`, `replace(position,x)`, `modify(position,...)`, `modify_key`: ord_index_impl.hpp:375-377, 392-394, 428-430 and so on up
to 504, hashed_index.hpp:351-353 up to 491, sequenced_index.hpp:371-373 up to 449, random_access_index.hpp:420-422 up to 498. -/
def elementGuard (it i k : Nat) : List Check := [.valid it, .deref it, .owner it i k]

/-- Insertion and emplacement with a hint or at a position: ord_index_impl.hpp:322-323, 332-333, 364-365, 1367-1368, hashed_index.hpp:298-299 up to 1676,
sequenced_index.hpp:313-314 up to 1014, random_access_index.hpp:351-352 up to 1102. -/
def positionGuard (it i k : Nat) : List Check := [.valid it, .owner it i k]

/-- `erase(first,last)`, `merge(x,first,last)` (`i`, `k` for `x`): ord_index_impl.hpp:414-418, 574-578, hashed_index.hpp:401-405, 557-561, sequenced_index.hpp:391-395,
random_access_index.hpp:440-444. -/
def rangeGuard (a b i k : Nat) : List Check := [.valid a, .valid b, .owner a i k, .owner b i k, .range a b]

/-- `relocate(position,i)`: sequenced_index.hpp:635-639, random_access_index.hpp:715-719. -/
def relocateGuard (pos it i k : Nat) : List Check := [.valid pos, .owner pos i k, .valid it, .deref it, .owner it i k]

/-- `relocate(position,first,last)`: sequenced_index.hpp:646-653, random_access_index.hpp:726-733. -/
def relocateRangeGuard (pos a b i k : Nat) : List Check :=
  [.valid pos, .owner pos i k, .valid a, .valid b, .owner a i k, .owner b i k, .range a b, .outside pos a b]

/-- `splice(position,x,first,last)` with `x` another index (`k'`) of the same container, of another type: sequenced_index.hpp:548-557, random_access_index.hpp:597-606. -/
def spliceGuard (pos a b i k k' : Nat) : List Check :=
  [.valid pos, .owner pos i k, .valid a, .valid b, .owner a i k', .owner b i k', .range a b, .outside2 pos a b]

/-- `project<N>(it)`: multi_index_container.hpp:497-498, 514-515, 546-547, 563-564, 1383-1384 up to 1486. -/
def projectGuard (it i : Nat) : List Check := [.valid it, .belongs it i]

end MI.Safe
