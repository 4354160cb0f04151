import Verif.Cont.ListApi
/-!
# Arguments that are references to elements

`insert`, `resize` and `assign` take their arguments by reference: the value is read when it is used, and it may be that of an element, of the same
container or of another one. Here the loops read the value anew in each iteration. (Within one insertion the value is read before anything changes, except for
the order of hashed indices.)
-/
namespace MI.Cont
open MI
variable {V : Type}

/-- The value a reference to element `y` refers to: if the element has been destroyed, using it is undefined (`none`). -/
def World.read (w : World V) (y : Id) : Option V := if y ∈ w.m.cons then some (w.m.val y) else none

/-- `for(;first!=last;++first)final_insert_ref_(*first)`, where the range yields references to the elements `ys`: ord_index_impl.hpp:340-345,
hashed_index.hpp:320-325; also `while(n--)final_insert_(x)` with `ys` repeating the element `x`: sequenced_index.hpp:268-271, 207-211, random_access_index.hpp:295-299. -/
def World.insertRefs (H : Host V) (em : Bool) (i : Nat) : World V → List Id → Nat → Out (World V)
  | w, [], _ => .ok w
  | w, y :: ys, t =>
    match w.read y with
    | none => .ub
    | some v =>
      match w.step (insertOp H em i w t v none) with
      | .ok (w, _) => World.insertRefs H em i w ys (t + 1)
      | .threw (w, _) => .threw w
      | .ub => .ub
      | .hang => .hang

/-- `World.insertEach` with references: sequenced_index.hpp:335-341, 972-993. -/
def World.insertEachRef (H : Host V) (em : Bool) (i k : Nat) (pos : Id) : World V → List Id → Nat → Out (World V)
  | w, [], _ => .ok w
  | w, y :: ys, t =>
    match w.read y with
    | none => .ub
    | some v =>
      match World.insertAt H em i k pos w t v with
      | .ok (w, _) => World.insertEachRef H em i k pos w ys (t + 1)
      | .threw (w, _) => .threw w
      | .ub => .ub
      | .hang => .hang

/-- `World.pushEach` with references: random_access_index.hpp:379-382, 1051-1053, 1070-1073. -/
def World.pushEachRef (H : Host V) (em : Bool) (i : Nat) : World V → List Id → Nat → Nat → Out (World V × Nat)
  | w, [], _, s => .ok (w, s)
  | w, y :: ys, t, s =>
    match w.read y with
    | none => .ub
    | some v =>
      match w.step (insertOp H em i w t v none) with
      | .ok (w, r) => World.pushEachRef H em i w ys (t + 1) (if r.b then s + 1 else s)
      | .threw (w, _) => .threw (w, s)
      | .ub => .ub
      | .hang => .hang

/-- `World.insertRangeAt` with references: `insert(position,n,x)` with `ys` repeating `x`, `insert(position,first,last)`. -/
def World.insertRefsAt (H : Host V) (em : Bool) (i k : Nat) (pos : Id) (w : World V) (ys : List Id) : Out (World V) :=
  match w.cs[i]? with
  | none => .ub
  | some c =>
    match c.ls[k]? with
    | some (.seq _) => World.insertEachRef H em i k pos w ys 0
    | some (.rnd _) => World.pushedAt i k pos (World.pushEachRef H em i w ys 0 0)
    | _ => .ub

/-- `resize(n,x)`, `x` a reference to the element `y`: sequenced_index.hpp:264-279, random_access_index.hpp:291-305. -/
def World.resizeRef (H : Host V) (i k : Nat) (w : World V) (n : Nat) (y : Id) : Out (World V) :=
  match w.cs[i]? with
  | none => .ub
  | some c =>
    if c.count < n then World.insertRefs H false i w (List.replicate (n - c.count) y) 0
    else if n < c.count then
      match c.ls[k]? with
      | some (.seq _) => World.popBacks i k (c.count - n) w
      | some (.rnd a) =>
        match w.eraseRange i k (a.arr n) c.hd with
        | .ok (w, _) => .ok w
        | .threw (w, _) => .threw w
        | .ub => .ub
        | .hang => .hang
      | _ => .ub
    else .ok w

/-- `assign(n,x)`, `assign(first,last)`: sequenced_index.hpp:207-212, 957-970; random_access_index.hpp:221-226, 1029-1042. -/
def World.assignRefs (H : Host V) (em : Bool) (i : Nat) (w : World V) (ys : List Id) : Out (World V) :=
  match w.step (.clear i) with
  | .ok (w, _) => World.insertRefs H em i w ys 0
  | .threw (w, _) => .threw w
  | .ub => .ub
  | .hang => .hang

/-- `insert(first,last)` where `first` and `last` are iterators of index `l` of container `j`: the iterator is dereferenced and incremented as the loop goes on.
ord_index_impl.hpp:340-345, hashed_index.hpp:320-325. The first number bounds the loop. -/
def World.insertFrom (H : Host V) (em : Bool) (i j l : Nat) (last : Id) : Nat → World V → Id → Nat → Out (World V)
  | 0, w, first, _ => if first = last then .ok w else .hang
  | n + 1, w, first, t =>
    if first = last then .ok w
    else
      match w.read first with
      | none => .ub
      | some v =>
        match w.step (insertOp H em i w t v none) with
        | .ok (w, _) =>
          match w.nextOf j l first with
          | none => .ub
          | some first => World.insertFrom H em i j l last n w first (t + 1)
        | .threw (w, _) => .threw w
        | .ub => .ub
        | .hang => .hang

end MI.Cont
