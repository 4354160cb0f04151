import Verif.Cont.Api
/-!
# List operations of sequenced and random access indices

Insertion at a position, `resize`, `assign`, `pop_front`, `pop_back` and `splice` between containers: compositions of the operations of `World.step`, in
containers that may have other indices of any kind. `i`, `j` number containers, `k`, `l` indices.
-/
namespace MI.Cont
open MI
variable {V : Type}

/-- `if(p.second&&position.get_node()!=header())relink(position.get_node(),p.first)` (sequenced), the same with `relocate` (random access), after
an insertion with outcome `o`: sequenced_index.hpp:317-319, 329-331, 363-365, 980-982, 1018-1020, 1050-1052; random_access_index.hpp:355-357, 367-369,
412-414, 1106-1108, 1138-1140. (`World.step` of `relocate` compares `position` and the element first, which differ here as the element is new.) -/
def World.thenPlace (i k : Nat) (hd pos : Id) : Out (World V × Ret) → Out (World V × Ret)
  | .ok (w, r) => if r.b = true ∧ pos ≠ hd then w.step (.relocate i k pos r.pos) else .ok (w, r)
  | .threw r => .threw r
  | .ub => .ub
  | .hang => .hang

/-- `insert(position,v)`, `emplace(position,...)`: sequenced_index.hpp:311-333, 1009-1022; random_access_index.hpp:349-371, 1097-1110. `push_front`, `push_back`,
`emplace_front`, `emplace_back` (290-305, 995-1007; 328-343, 1083-1095) are the cases `position=begin()`, `position=end()`. `t` numbers the steps of the host. -/
def World.insertAt (H : Host V) (em : Bool) (i k : Nat) (pos : Id) (w : World V) (t : Nat) (v : V) : Out (World V × Ret) :=
  match w.cs[i]? with
  | none => .ub
  | some c => World.thenPlace i k c.hd pos (w.step (insertOp H em i w t v none))

/-- `insert(position,std::move(nh))`: sequenced_index.hpp:356-368, random_access_index.hpp:405-417. -/
def World.insertNhAt (H : Host V) (i k : Nat) (pos : Id) (w : World V) (h : Nat) : Out (World V × Ret) :=
  match w.cs[i]? with
  | none => .ub
  | some c => World.thenPlace i k c.hd pos (w.step (.insertNh i h none (H.env w 0)))

/-- The loop of `insert(position,n,v)`, `insert(position,first,last)` of sequenced indices: sequenced_index.hpp:335-341, 972-993. -/
def World.insertEach (H : Host V) (em : Bool) (i k : Nat) (pos : Id) : World V → List V → Nat → Out (World V)
  | w, [], _ => .ok w
  | w, v :: vs, t =>
    match World.insertAt H em i k pos w t v with
    | .ok (w, _) => World.insertEach H em i k pos w vs (t + 1)
    | .threw (w, _) => .threw w
    | .ub => .ub
    | .hang => .hang

/-- `if(final_insert_ref_(*first).second)++s` in a loop: random_access_index.hpp:379-382, 1051-1053, 1070-1073 (`push_back` being `insert(end(),·)`). The result
has `s`, also when an exception is thrown. -/
def World.pushEach (H : Host V) (em : Bool) (i : Nat) : World V → List V → Nat → Nat → Out (World V × Nat)
  | w, [], _, s => .ok (w, s)
  | w, v :: vs, t, s =>
    match w.step (insertOp H em i w t v none) with
    | .ok (w, r) => World.pushEach H em i w vs (t + 1) (if r.b then s + 1 else s)
    | .threw (w, _) => .threw (w, s)
    | .ub => .ub
    | .hang => .hang

/-- `relocate(position,begin()+n,end())` of random access index `k`: random_access_index.hpp:724-737. -/
def World.gather (i k : Nat) (pos : Id) (n : Nat) (w : World V) : Out (World V) :=
  match w.cs[i]? with
  | none => .ub
  | some c =>
    match c.ls[k]? with
    | some (.rnd a) =>
      match w.step (.rearrange i k (.relocateRange pos (a.arr n) c.hd)) with
      | .ok (w, _) => .ok w
      | .threw (w, _) => .threw w
      | .ub => .ub
      | .hang => .hang
    | _ => .ub

/-- `BOOST_CATCH(...){f;BOOST_RETHROW;}BOOST_CATCH_END f;`, after a block with outcome `o`. -/
def World.afterAll (f : World V → Out (World V)) : Out (World V) → Out (World V)
  | .ok w => f w
  | .threw w =>
    match f w with
    | .ok w => .threw w
    | .threw w => .threw w
    | .ub => .ub
    | .hang => .hang
  | .ub => .ub
  | .hang => .hang

/-- `relocate(position,end()-s,end())` in the normal and in the exceptional path: random_access_index.hpp:384-389, 1055-1060, 1075-1080. -/
def World.pushedAt (i k : Nat) (pos : Id) : Out (World V × Nat) → Out (World V)
  | .ok (w, s) =>
    match w.cs[i]? with
    | none => .ub
    | some c => World.gather i k pos (c.count - s) w
  | .threw (w, s) =>
    match w.cs[i]? with
    | none => .ub
    | some c => World.afterAll (World.gather i k pos (c.count - s)) (.threw w)
  | .ub => .ub
  | .hang => .hang

/-- `insert(position,first,last)`, `insert(position,n,v)`, `insert(position,list)`: sequenced_index.hpp:335-352, 972-993; random_access_index.hpp:373-402, 1043-1081. -/
def World.insertRangeAt (H : Host V) (em : Bool) (i k : Nat) (pos : Id) (w : World V) (vs : List V) : Out (World V) :=
  match w.cs[i]? with
  | none => .ub
  | some c =>
    match c.ls[k]? with
    | some (.seq _) => World.insertEach H em i k pos w vs 0
    | some (.rnd _) => World.pushedAt i k pos (World.pushEach H em i w vs 0 0)
    | _ => .ub

/-- `--end()`: seq_index_node.hpp:48, 203-208; rnd_index_node.hpp:56-59, 266-271. -/
def World.lastOf (w : World V) (i k : Nat) : Option Id :=
  match w.cs[i]? with
  | none => none
  | some c =>
    match c.ls[k]? with
    | some (.seq h) => some (h.prior c.hd)
    | some (.rnd a) => some (Rnd.decrement a c.hd)
    | _ => none

/-- `pop_back()`: `erase(--end())`. sequenced_index.hpp:306, random_access_index.hpp:344. -/
def World.popBack (w : World V) (i k : Nat) : Out (World V) :=
  match w.lastOf i k with
  | none => .ub
  | some x =>
    match w.eraseIt i k x with
    | .ok (w, _) => .ok w
    | .threw (w, _) => .threw w
    | .ub => .ub
    | .hang => .hang

/-- `m` times `pop_back()`: sequenced_index.hpp:271, 278. -/
def World.popBacks (i k : Nat) : Nat → World V → Out (World V)
  | 0, w => .ok w
  | m + 1, w =>
    match w.popBack i k with
    | .ok w => World.popBacks i k m w
    | .threw w => .threw w
    | .ub => .ub
    | .hang => .hang

/-- `resize(n,v)`, and `resize(n)` (`v` is then the value default-constructed in place, `em = true`): sequenced_index.hpp:264-279, random_access_index.hpp:291-305. -/
def World.resize (H : Host V) (em : Bool) (i k : Nat) (w : World V) (n : Nat) (v : V) : Out (World V) :=
  match w.cs[i]? with
  | none => .ub
  | some c =>
    if c.count < n then World.insertRange H em i w (List.replicate (n - c.count) v) 0
    else if n < c.count then
      match c.ls[k]? with
      | some (.seq _) => World.popBacks i k (c.count - n) w
      | some (.rnd a) =>
        match w.eraseRange i k (a.arr n) c.hd with
        | .ok (w, _) => .ok w
        | .threw (w, _) => .threw w
        | .ub => .ub
        | .hang => .hang
      | _ => .ub
    else .ok w

/-- `assign(first,last)`, `assign(n,v)`, `operator=(list)` of the index: sequenced_index.hpp:957-970, random_access_index.hpp:1029-1042. -/
def World.assignRange (H : Host V) (em : Bool) (i : Nat) (w : World V) (vs : List V) : Out (World V) :=
  match w.step (.clear i) with
  | .ok (w, _) => World.insertRange H em i w vs 0
  | .threw (w, _) => .threw w
  | .ub => .ub
  | .hang => .hang

/-! ## `splice` between different containers -/

/-- `external_splice(position,x,i)`: sequenced_index.hpp:1024-1054, random_access_index.hpp:1112-1142. `eqAl`: the allocators are equal (or the value type is not
copy constructible); otherwise a copy of the element is inserted and the element erased. -/
def World.spliceOne (H : Host V) (eqAl : Bool) (i j k : Nat) (pos : Id) (w : World V) (x : Id) : Out (World V × Ret) :=
  match w.cs[i]? with
  | none => .ub
  | some c =>
    if eqAl then World.thenPlace i k c.hd pos (w.step (.transfer i j x (H.env w 0)))
    else
      match World.insertAt H false i k pos w 0 (w.m.val x) with
      | .ok (w, r) =>
        if r.b then
          match w.step (.erase j x) with
          | .ok (w, _) => .ok (w, r)
          | .threw (w, _) => .threw (w, r)
          | .ub => .ub
          | .hang => .hang
        else .ok (w, r)
      | o => o

/-- `while(first!=last){if(insert(position,*first).second)first=x.erase(first);else ++first;}`: sequenced_index.hpp:1086-1089; random_access_index.hpp:1188-1191
(with `push_back`, which is `insert(end(),·)`). `l`: the index of `j` iterated over. First argument: budget. -/
def World.copyLoop (H : Host V) (i j k l : Nat) (pos last : Id) : Nat → World V → Id → Nat → Out (World V)
  | 0, _, _, _ => .hang
  | n + 1, w, first, t =>
    if first = last then .ok w
    else
      match World.insertAt H false i k pos w t (w.m.val first) with
      | .ok (w, r) =>
        if r.b then
          match w.eraseIt j l first with
          | .ok (w, y) => World.copyLoop H i j k l pos last n w y (t + 1)
          | .threw (w, _) => .threw w
          | .ub => .ub
          | .hang => .hang
        else
          match w.nextOf j l first with
          | none => .hang
          | some y => World.copyLoop H i j k l pos last n w y (t + 1)
      | .threw (w, _) => .threw w
      | .ub => .ub
      | .hang => .hang

/-- `++first_to_relink;relink(position.get_node(),first_to_relink.get_node(),header());`: sequenced_index.hpp:1111-1112, 1115-1116. The result has the new
`first_to_relink`. -/
def World.relinkTail (i k : Nat) (hd pos f : Id) (w : World V) : Out (World V × Id) :=
  match w.nextOf i k f with
  | none => .hang
  | some f =>
    match w.step (.rearrange i k (.relocateRange pos f hd)) with
    | .ok (w, _) => .ok (w, f)
    | .threw (w, _) => .threw (w, f)
    | .ub => .ub
    | .hang => .hang

/-- The end of `external_splice` for sequenced indices, after `final_transfer_range_`: sequenced_index.hpp:1105-1117. The exception is not rethrown, and control
continues after the handler. -/
def World.relinked (i k : Nat) (hd pos f : Id) : Out (World V) → Out (World V)
  | .ok w =>
    match World.relinkTail i k hd pos f w with
    | .ok (w, _) => .ok w
    | .threw (w, _) => .threw w
    | .ub => .ub
    | .hang => .hang
  | .threw w =>
    match World.relinkTail i k hd pos f w with
    | .ok (w, f) =>
      match World.relinkTail i k hd pos f w with
      | .ok (w, _) => .ok w
      | .threw (w, _) => .threw w
      | .ub => .ub
      | .hang => .hang
    | .threw (w, _) => .threw w
    | .ub => .ub
    | .hang => .hang
  | .ub => .ub
  | .hang => .hang

/-- `external_splice(position,x,first,last)`: sequenced_index.hpp:1073-1118, random_access_index.hpp:1173-1220; `[first,last)` is a range of index `l` of
container `j`. `splice(position,x)` is the case of all the elements. -/
def World.spliceRange (H : Host V) (eqAl : Bool) (i j k l : Nat) (pos : Id) (w : World V) (first last : Id) : Out (World V) :=
  match w.cs[i]?, w.cs[j]? with
  | some c, some d =>
    match c.ls[k]? with
    | some (.seq h) =>
      if eqAl then
        if pos = c.hd then World.transferLoop H i j l last d.budget w first 0
        else World.relinked i k c.hd pos (h.prior c.hd) (World.transferLoop H i j l last d.budget w first 0)
      else World.copyLoop H i j k l pos last d.budget w first 0
    | some (.rnd _) =>
      World.afterAll (World.gather i k pos c.count)
        (if eqAl then World.transferLoop H i j l last d.budget w first 0
         else World.copyLoop H i j k l c.hd last d.budget w first 0)
    | _ => .ub
  | _, _ => .ub

end MI.Cont
