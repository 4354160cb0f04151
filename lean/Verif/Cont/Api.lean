import Verif.Cont.World
/-!
# Operations made of several steps

Erasure through an index (by position, by range, by key), extraction by key, `merge`, range insertion and range construction:
loops of the index classes around the operations of `World.step`. `i`, `j` number containers, `k` indices.
-/
namespace MI.Cont
open MI
variable {V : Type}

/-- What allocations return and which calls throw during a long operation: `node w t` is the address returned by the allocation of a
node in the `t`-th step, which starts in state `w`; `fault w t`, `env w t`: the rest of the environment of that step. -/
structure Host (V : Type) where
  node : World V → Nat → Id
  fault : World V → Nat → Fault
  env : World V → Nat → Nat → Env

/-- A lookup key `x`, as an index sees it: `lt v` is `comp(key(v),x)`, `gt v` is `comp(x,key(v))` (ordered indices), `eq v` is
`eq(x,key(v))` and `hash` is `hash(x)` (hashed indices). -/
structure Probe (V : Type) where
  lt : V → Bool
  gt : V → Bool
  eq : V → Bool
  hash : Nat

/-- `++it` for an iterator pointing to `x`, of index `k` of container `i`. -/
def World.nextOf (w : World V) (i k : Nat) (x : Id) : Option Id :=
  match w.cs[i]? with
  | none => none
  | some c =>
    match c.ls[k]? with
    | none => none
    | some L => L.next c.budget x

/-- `erase(position)` through index `k`: `final_erase_(position++.get_node()); return position;`. ord_index_impl.hpp:390-398,
hashed_index.hpp:366-374, sequenced_index.hpp:379-387, random_access_index.hpp:428-436. -/
def World.eraseIt (w : World V) (i k : Nat) (x : Id) : Out (World V × Id) :=
  match w.nextOf i k x with
  | none => .hang
  | some y =>
    match w.step (.erase i x) with
    | .ok (w, _) => .ok (w, y)
    | .threw (w, _) => .threw (w, y)
    | .ub => .ub
    | .hang => .hang

/-- `while(first!=last){first=erase(first);++s;}`: ord_index_impl.hpp:404-409, 420-423, hashed_index.hpp:407-410, sequenced_index.hpp:397-400. The
result has `first` and the count. First argument: budget. -/
def World.eraseLoop (i k : Nat) (last : Id) : Nat → World V → Id → Nat → Out (World V × Id × Nat)
  | 0, _, _, _ => .hang
  | n + 1, w, first, s =>
    if first = last then .ok (w, first, s)
    else
      match w.eraseIt i k first with
      | .ok (w, y) => World.eraseLoop i k last n w y (s + 1)
      | .threw (w, y) => .threw (w, y, s)
      | .ub => .ub
      | .hang => .hang

/-- `while(n--)pop_back();`: random_access_index.hpp:344, 448; `pop_back()` is `erase(--end())`. -/
def World.popLoop (i k : Nat) : Nat → World V → Out (World V)
  | 0, w => .ok w
  | n + 1, w =>
    match w.cs[i]? with
    | none => .ub
    | some c =>
      match c.ls[k]? with
      | some (.rnd s) =>
        match w.eraseIt i k (s.arr (s.size - 1)) with
        | .ok (w, _) => World.popLoop i k n w
        | .threw (w, _) => .threw w
        | .ub => .ub
        | .hang => .hang
      | _ => .ub

/-- `erase(first,last)`: ord_index_impl.hpp:412-424, hashed_index.hpp:399-411, sequenced_index.hpp:389-401; random_access_index.hpp:438-450
(`relocate(end(),first,last)`, then as many `pop_back()`). -/
def World.eraseRange (w : World V) (i k : Nat) (first last : Id) : Out (World V × Id) :=
  match w.cs[i]? with
  | none => .ub
  | some c =>
    match c.ls[k]? with
    | none => .ub
    | some (.rnd s) =>
      let n := (Rnd.distance s first last).toNat
      match w.step (.rearrange i k (.relocateRange c.hd first last)) with
      | .ok (w, _) =>
        match World.popLoop i k n w with
        | .ok w => .ok (w, last)
        | .threw w => .threw (w, last)
        | .ub => .ub
        | .hang => .hang
      | .threw (w, _) => .threw (w, last)
      | .ub => .ub
      | .hang => .hang
    | some _ =>
      match World.eraseLoop i k last c.budget w first 0 with
      | .ok (w, p, _) => .ok (w, p)
      | .threw (w, p, _) => .threw (w, p)
      | .ub => .ub
      | .hang => .hang

/-- `erase(key)`: ord_index_impl.hpp:400-410; hashed_index.hpp:376-397 (there the loop is `do{...}while(x!=y)`). The result has the number of
elements erased. `thr`: a user call of the lookup throws (which happens before anything is erased). -/
def World.eraseKey (w : World V) (i k : Nat) (p : Probe V) (thr : Bool) : Out (World V × Nat) :=
  match w.cs[i]? with
  | none => .ub
  | some c =>
    match c.ls[k]? with
    | some (.ord _ _ h) =>
      if thr then .threw (w, 0)
      else
        match Ord.equalRange w.m.val (fun v (_ : Unit) => p.lt v) (fun _ v => p.gt v) c.budget h c.hd () with
        | none => .hang
        | some (first, last) =>
          match World.eraseLoop i k last c.budget w first 0 with
          | .ok (w, _, s) => .ok (w, s)
          | .threw (w, _, s) => .threw (w, s)
          | .ub => .ub
          | .hang => .hang
    | some (.hash g eq _ _ _ h a) =>
      if thr then .threw (w, 0)
      else
        match Hash.findLoop g (fun x => p.eq (w.m.val x)) h c.budget (h.prior (a.at (a.position p.hash))) with
        | .ok none => .ok (w, 0)
        | .ok (some x) =>
          let y := Hash.endOfRange g (Layer.eqv eq w.m.val) h x
          match w.eraseIt i k x with
          | .ok (w, z) =>
            match World.eraseLoop i k y c.budget w z 1 with
            | .ok (w, _, s) => .ok (w, s)
            | .threw (w, _, s) => .threw (w, s)
            | .ub => .ub
            | .hang => .hang
          | .threw (w, _) => .threw (w, 0)
          | .ub => .ub
          | .hang => .hang
        | .threw _ => .hang
        | .ub => .ub
        | .hang => .hang
    | _ => .ub

/-- The second half of `extract(key)`: the handle returned is appended; it is empty if the position is `end()`. -/
def World.extractAt (w : World V) (i : Nat) (hd x : Id) : Out (World V × Option Id) :=
  if x = hd then .ok ({ w with hs := w.hs ++ [none] }, none)
  else
    match w.step (.extract i x) with
    | .ok (w, _) => .ok (w, some x)
    | .threw (w, _) => .threw (w, none)
    | .ub => .ub
    | .hang => .hang

/-- `extract(key)`: ord_index_impl.hpp:383-388; hashed_index.hpp:360-364 (`find`, then `extract`). -/
def World.extractKey (w : World V) (i k : Nat) (p : Probe V) (thr : Bool) : Out (World V × Option Id) :=
  match w.cs[i]? with
  | none => .ub
  | some c =>
    match c.ls[k]? with
    | some (.ord _ _ h) =>
      if thr then .threw (w, none)
      else
        match Ord.lowerBound w.m.val (fun v (_ : Unit) => p.lt v) c.budget h c.hd () with
        | none => .hang
        | some x => if x = c.hd ∨ p.gt (w.m.val x) = true then w.extractAt i c.hd c.hd else w.extractAt i c.hd x
    | some (.hash g _ _ _ _ h a) =>
      if thr then .threw (w, none)
      else
        match Hash.find c.budget g (fun x => p.eq (w.m.val x)) p.hash h a c.hd with
        | .ok x => w.extractAt i c.hd x
        | .threw _ => .hang
        | .ub => .ub
        | .hang => .hang
    | _ => .ub

/-- `transfer_range_(x,first,last)`: multi_index_container.hpp:976-985, `while(first!=last)transfer_(x,(first++).get_node())`; `i` receives
from index `k` of `j`. First argument: budget; `t` numbers the steps. -/
def World.transferLoop (H : Host V) (i j k : Nat) (last : Id) : Nat → World V → Id → Nat → Out (World V)
  | 0, _, _, _ => .hang
  | n + 1, w, first, t =>
    if first = last then .ok w
    else
      match w.nextOf j k first with
      | none => .hang
      | some y =>
        match w.step (.transfer i j first (H.env w t)) with
        | .ok (w, _) => World.transferLoop H i j k last n w y (t + 1)
        | .threw (w, _) => .threw w
        | .ub => .ub
        | .hang => .hang

/-- `merge(x,first,last)`, `merge(x)`: ord_index_impl.hpp:527-594, hashed_index.hpp:512-577. Nothing happens when both are the same container
(recognized by the header). -/
def World.merge (H : Host V) (w : World V) (i j k : Nat) (first last : Id) : Out (World V) :=
  match w.cs[i]?, w.cs[j]? with
  | some c, some d => if d.hd ≠ c.hd then World.transferLoop H i j k last d.budget w first 0 else .ok w
  | _, _ => .ub

/-- `merge(x,it)`: ord_index_impl.hpp:540-563, hashed_index.hpp:525-548. -/
def World.mergeOne (H : Host V) (w : World V) (i j : Nat) (x : Id) : Out (World V × Ret) :=
  match w.cs[i]?, w.cs[j]? with
  | some c, some d => if d.hd = c.hd then .ok (w, ⟨x, true⟩) else w.step (.transfer i j x (H.env w 0))
  | _, _ => .ub

/-- How a value is inserted: the range's elements are of the value type (`insert_`), or of another type from which the value is
constructed in place (`emplace_`). multi_index_container.hpp:714-743. -/
def insertOp (H : Host V) (em : Bool) (i : Nat) (w : World V) (t : Nat) (v : V) (hint : Option Id) : Op V :=
  if em then .emplace i v (H.node w t) (H.fault w t) hint (H.env w t) else .insert i v (H.node w t) (H.fault w t) hint (H.env w t)

/-- `for(;first!=last;++first)final_insert_ref_(*first)`: ord_index_impl.hpp:340-345, hashed_index.hpp:320-325. -/
def World.insertRange (H : Host V) (em : Bool) (i : Nat) : World V → List V → Nat → Out (World V)
  | w, [], _ => .ok w
  | w, v :: vs, t =>
    match w.step (insertOp H em i w t v none) with
    | .ok (w, _) => World.insertRange H em i w vs (t + 1)
    | .threw (w, _) => .threw w
    | .ub => .ub
    | .hang => .hang

/-- The loop of the range constructors: multi_index_container.hpp:241-246, 270-275. Each insertion has as hint the position following, in the first
index, the one returned by the insertion before. -/
def World.hintedRange (H : Host V) (em : Bool) (i : Nat) : World V → List V → Id → Nat → Out (World V)
  | w, [], _, _ => .ok w
  | w, v :: vs, hint, t =>
    match w.step (insertOp H em i w t v (some hint)) with
    | .ok (w, r) =>
      match w.nextOf i 0 r.pos with
      | none => .hang
      | some y => World.hintedRange H em i w vs y (t + 1)
    | .threw (w, _) => .threw w
    | .ub => .ub
    | .hang => .hang

/-- Range constructor, initializer list constructor: multi_index_container.hpp:217-255, 258-282. When an insertion throws, `clear_()` is called and
the bases and members are destroyed (the header is deallocated). -/
def World.construct (H : Host V) (em : Bool) (w : World V) (hd z : Id) (is : List (Init V)) (vs : List V) : Out (World V) :=
  match w.step (.new hd z is) with
  | .ok (w', _) =>
    let i := w.cs.length
    match World.hintedRange H em i w' vs hd 0 with
    | .ok w => .ok w
    | .threw w =>
      match w.step (.clear i) with
      | .ok (w, _) =>
        match w.cs[i]? with
        | none => .ub
        | some c =>
          match w.m.deallocate c.hd with
          | none => .ub
          | some m => .threw { w with m := m, cs := w.cs.eraseIdx i }
      | _ => .ub
    | .ub => .ub
    | .hang => .hang
  | _ => .ub

end MI.Cont
