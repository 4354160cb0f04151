import Verif.Cont.ListApi
/-!
# `remove`, `remove_if`, `unique` and `merge` of sequenced and random access indices

In containers that may have other indices of any kind. `i`, `j` number containers, `k` indices. `pred t v`, `cmp t v v'` are call number `t` of the function object
(`none`: it throws). `remove(v)`, `unique()`, `merge(x)` are the cases of `bind(equal_to,_1,v)` (which has a copy of `v`), `equal_to` and `less`.
-/
namespace MI.Cont
open MI
variable {V : Type}

/-- The loop of `sequenced_index_remove`: seq_index_ops.hpp:39-42. First argument: budget. -/
def World.removeLoop (pred : Nat → V → Option Bool) (i k : Nat) (last : Id) : Nat → World V → Id → Nat → Out (World V)
  | 0, _, _, _ => .hang
  | n + 1, w, first, t =>
    if first = last then .ok w
    else
      match pred t (w.m.val first) with
      | none => .threw w
      | some true =>
        match w.eraseIt i k first with
        | .ok (w, y) => World.removeLoop pred i k last n w y (t + 1)
        | .threw (w, _) => .threw w
        | .ub => .ub
        | .hang => .hang
      | some false =>
        match w.nextOf i k first with
        | none => .hang
        | some y => World.removeLoop pred i k last n w y (t + 1)

/-- The loop of `sequenced_index_unique`, `first` not being `end()`: seq_index_ops.hpp:52-55. First argument: budget. -/
def World.uniqueLoop (pred : Nat → V → V → Option Bool) (i k : Nat) (last : Id) : Nat → World V → Id → Nat → Out (World V)
  | 0, _, _, _ => .hang
  | n + 1, w, first, t =>
    match w.nextOf i k first with
    | none => .hang
    | some middle =>
      if middle = last then .ok w
      else
        match pred t (w.m.val middle) (w.m.val first) with
        | none => .threw w
        | some true =>
          match w.eraseIt i k middle with
          | .ok (w, _) => World.uniqueLoop pred i k last n w first (t + 1)
          | .threw (w, _) => .threw w
          | .ub => .ub
          | .hang => .hang
        | some false => World.uniqueLoop pred i k last n w middle (t + 1)

/-- `difference_type n=end()-make_iterator(r);while(n--)pop_back();`, `o` being the outcome of the function that has returned `r=*res` with the array in the state `a`:
random_access_index.hpp:627-633, 640-644, 650-653, 660-664. The array as it is in the container is in the state that `o` has. -/
def World.popFrom (i k : Nat) (hd : Id) (o : Out (World V × Ret)) (a : Out (Rnd.Arr × Nat)) : Out (World V) :=
  match o, a with
  | .ok (w, _), .ok (s, res) => World.popBacks i k (Rnd.distance s (s.arr res) hd).toNat w
  | .threw (w, _), _ => .threw w
  | .hang, _ => .hang
  | _, _ => .ub

/-- `remove_if(pred)`, `remove(value)`: sequenced_index.hpp:576-588, seq_index_ops.hpp:34-43; random_access_index.hpp:624-645, rnd_index_ops.hpp:30-51. -/
def World.removeIf (pred : Nat → V → Option Bool) (i k : Nat) (w : World V) : Out (World V) :=
  match w.cs[i]? with
  | none => .ub
  | some c =>
    match c.ls[k]? with
    | some (.seq h) => World.removeLoop pred i k c.hd c.budget w (h.next c.hd) 0
    | some (.rnd s) => World.popFrom i k c.hd (w.step (.rearrange i k (.remove pred))) (Rnd.removeGo (fun t x => pred t (w.m.val x)) s.size s 0 0 0)
    | _ => .ub

/-- `unique(binary_pred)`, `unique()`: sequenced_index.hpp:590-599, seq_index_ops.hpp:45-57; random_access_index.hpp:647-665, rnd_index_ops.hpp:53-80. -/
def World.unique (pred : Nat → V → V → Option Bool) (i k : Nat) (w : World V) : Out (World V) :=
  match w.cs[i]? with
  | none => .ub
  | some c =>
    match c.ls[k]? with
    | some (.seq h) => if h.next c.hd = c.hd then .ok w else World.uniqueLoop pred i k c.hd c.budget w (h.next c.hd) 0
    | some (.rnd s) => World.popFrom i k c.hd (w.step (.rearrange i k (.unique pred))) (Rnd.uniqueAll (fun t x y => pred t (w.m.val x) (w.m.val y)) s)
    | _ => .ub

/-- The loop of `sequenced_index_merge`: seq_index_ops.hpp:66-69; the result has `first1`. First argument: budget. -/
def World.mergeLoop (cmp : Nat → V → V → Option Bool) (H : Host V) (eqAl : Bool) (i j k : Nat) (last0 last1 : Id) :
    Nat → World V → Id → Id → Nat → Out (World V × Id)
  | 0, _, _, _, _ => .hang
  | n + 1, w, first0, first1, t =>
    if first0 = last0 ∨ first1 = last1 then .ok (w, first1)
    else
      match cmp t (w.m.val first1) (w.m.val first0) with
      | none => .threw (w, first1)
      | some true =>
        match w.nextOf j k first1 with
        | none => .hang
        | some y =>
          match World.spliceOne H eqAl i j k first0 w first1 with
          | .ok (w, _) => World.mergeLoop cmp H eqAl i j k last0 last1 n w first0 y (t + 1)
          | .threw (w, _) => .threw (w, y)
          | .ub => .ub
          | .hang => .hang
      | some false =>
        match w.nextOf i k first0 with
        | none => .hang
        | some y => World.mergeLoop cmp H eqAl i j k last0 last1 n w y first1 (t + 1)

/-- `merge(x,comp)`, `merge(x)`: sequenced_index.hpp:601-610, seq_index_ops.hpp:59-72; random_access_index.hpp:667-688, rnd_index_ops.hpp:82-118. Nothing happens when both
are the same container. `fail`: the allocation of the auxiliary array throws (random access). -/
def World.mergeList (cmp : Nat → V → V → Option Bool) (fail : Bool) (H : Host V) (eqAl : Bool) (i j k : Nat) (w : World V) : Out (World V) :=
  if i = j then .ok w
  else
    match w.cs[i]?, w.cs[j]? with
    | some c, some d =>
      match c.ls[k]?, d.ls[k]? with
      | some (.seq h), some (.seq g) =>
        match World.mergeLoop cmp H eqAl i j k c.hd d.hd (c.budget + d.budget) w (h.next c.hd) (g.next d.hd) 0 with
        | .ok (w, first1) => World.spliceRange H eqAl i j k k c.hd w first1 d.hd
        | .threw (w, _) => .threw w
        | .ub => .ub
        | .hang => .hang
      | some (.rnd a), some (.rnd b) =>
        match World.spliceRange H eqAl i j k k c.hd w (b.arr 0) d.hd with
        | .ok w =>
          match w.step (.rearrange i k (.merge a.size cmp fail)) with
          | .ok (w, _) => .ok w
          | .threw (w, _) => .threw w
          | .ub => .ub
          | .hang => .hang
        | o => o
      | _, _ => .ub
    | _, _ => .ub

end MI.Cont
