import Verif.Cont.World
/-!
# Arguments given as rvalues

`insert(value_type&&)` and `replace(position,value_type&&)` pass the argument down the chain of indices by reference, together with a tag; `index_base` moves from it.
Here the argument is a cell: `some v`, or `none` once it has been moved from. Reading its key after that is taken to be undefined behaviour (the key of an object
that has been moved from is unspecified). With `lvalue_tag` (`rv = false`) the value is copied.
-/
namespace MI.Cont
open MI
variable {V : Type}

/-- The values of elements, and that of the argument at the address of the new node. -/
def seen (val : Id → V) (node : Id) : Option V → Id → V
  | some v => upd val node v
  | none => val

/-- `index_base::insert_(v,x,lvalue_tag)` and `rvalue_tag`: index_base.hpp:105-131. `left` is what a move constructor that throws leaves of its argument. -/
def baseMove (rv : Bool) (left : Option V) (f : Fault) (x : Id) (s : Mem V × Option V) : Out (Mem V × Option V) :=
  match s.2 with
  | none => .ub
  | some v =>
    if f.alloc then .threw s
    else
      if f.construct then
        match (s.1.allocate x).deallocate x with
        | none => .ub
        | some m => .threw (m, if rv then left else s.2)
      else .ok ((s.1.allocate x).construct x v, if rv then none else s.2)

section
variable (n : Nat) (hd : Id) (hint : Option Id) (size : Nat) (rv : Bool) (left : Option V) (f : Fault) (node : Id)

/-- `insert_(v,x,variant)`: ord_index_impl.hpp:842-879, hashed_index.hpp:933-968, sequenced_index.hpp:739-756, random_access_index.hpp:826-845, as `insertC`
(Verif/Cont/Cascade.lean), with the argument as a cell: indices with keys read it before they call `super::insert_`. (`reserve` reads the keys of elements only.) -/
def insertM : (Nat → Env) → Id → Mem V × Option V → List (Layer V) → Out (Ins V (Mem V × Option V))
  | _, xr, s, [] =>
    match baseMove rv left f node s with
    | .ok m => .ok ⟨[], m, node, node⟩
    | .threw m => .threw ⟨[], m, 0, xr⟩
    | .ub => .ub
    | .hang => .hang
  | e, xr, s, L :: Ls =>
    match L.reserve hd (seen s.1.val node s.2) size (e 0) with
    | .threw L => .threw ⟨L :: Ls, s, 0, xr⟩
    | .ub => .ub
    | .hang => .hang
    | .ok L =>
      if L.keyed = true ∧ s.2 = none then .ub
      else
        match L.point n hd (seen s.1.val node s.2) (e 0) hint node with
        | .threw => .threw ⟨L :: Ls, s, 0, xr⟩
        | .hang => .hang
        | .reject y => .ok ⟨L :: Ls, s, y, xr⟩
        | .accept pt =>
          match insertM (tl e) xr s Ls with
          | .ok r =>
            if r.res = r.xr then
              match L.link n hd r.xr pt with
              | none => .hang
              | some L => .ok { r with ls := L :: r.ls }
            else .ok { r with ls := L :: r.ls }
          | .threw r => .threw { r with ls := L :: r.ls }
          | .ub => .ub
          | .hang => .hang

end

/-- `insert_(v)`, `insert_rv_(v)`, also with a position: multi_index_container.hpp:690-712, 816-843, as `Container.insert`. The argument afterwards is
returned too. -/
def Container.insertM (m : Mem V) (c : Container V) (rv : Bool) (left : Option V) (arg : Option V) (x : Id) (f : Fault) (hint : Option Id) (e : Nat → Env) :
    Out (Res V × Option V) :=
  match Cont.insertM c.budget c.hd hint c.count rv left f x e 0 (m, arg) c.ls with
  | .ok r =>
    if r.res = r.xr then .ok (⟨r.m.1, { c with ls := r.ls, count := c.count + 1 }, r.res, true⟩, r.m.2)
    else .ok (⟨r.m.1, { c with ls := r.ls }, r.res, false⟩, r.m.2)
  | .threw r => .threw (⟨r.m.1, { c with ls := r.ls }, 0, false⟩, r.m.2)
  | .ub => .ub
  | .hang => .hang

/-- `replace_(v,x,variant)`: ord_index_impl.hpp:935-962, hashed_index.hpp:1058-1083, sequenced_index.hpp:810-813, random_access_index.hpp:901-904,
index_base.hpp:178-188, as `replaceC` (Verif/Cont/Cascade.lean), with the argument as a cell. `left` is what a move assignment that throws leaves of its argument. -/
def replaceM (n : Nat) (hd : Id) (val : Id → V) (x : Id) (rv : Bool) (left : Option V) (arg : Option V) (assignThrows : Bool) :
    (Nat → Env) → List (Layer V) → Out (List (Layer V) × (Id → V) × Bool × Option V)
  | _, [] =>
    match arg with
    | none => .ub
    | some v => if assignThrows then .threw ([], val, false, if rv then left else arg) else .ok ([], upd val x v, true, if rv then none else arg)
  | e, L :: Ls =>
    if L.keyed = false then
      match replaceM n hd val x rv left arg assignThrows (tl e) Ls with
      | .ok r => .ok (L :: r.1, r.2)
      | .threw r => .threw (L :: r.1, r.2)
      | .ub => .ub
      | .hang => .hang
    else
      match arg with
      | none => .ub
      | some v =>
        match L.keeps n hd (upd val x v) (val x) (e 0) x with
        | .ub => .ub
        | .hang => .hang
        | .threw _ => .threw (L :: Ls, val, false, arg)
        | .ok true =>
          match replaceM n hd val x rv left arg assignThrows (tl e) Ls with
          | .ok r => .ok (L :: r.1, r.2)
          | .threw r => .threw (L :: r.1, r.2)
          | .ub => .ub
          | .hang => .hang
        | .ok false =>
          match L.takeOut n hd x with
          | none => .hang
          | some (L, sv) =>
            match L.point n hd (upd val x v) (e 0) none x with
            | .hang => .hang
            | .threw =>
              match L.putBack n hd x sv with
              | none => .hang
              | some L => .threw (L :: Ls, val, false, arg)
            | .reject _ =>
              match L.putBack n hd x sv with
              | none => .hang
              | some L => .ok (L :: Ls, val, false, arg)
            | .accept pt =>
              match replaceM n hd val x rv left arg assignThrows (tl e) Ls with
              | .ub => .ub
              | .hang => .hang
              | .ok (Ls, val, true, arg) =>
                match L.link n hd x pt with
                | none => .hang
                | some L => .ok (L :: Ls, val, true, arg)
              | .ok (Ls, val, false, arg) =>
                match L.putBack n hd x sv with
                | none => .hang
                | some L => .ok (L :: Ls, val, false, arg)
              | .threw (Ls, val, _, arg) =>
                match L.putBack n hd x sv with
                | none => .hang
                | some L => .threw (L :: Ls, val, false, arg)

/-- `replace_(k,x)`, `replace_rv_(k,x)`: multi_index_container.hpp:1021-1030, as `Container.replace`. -/
def Container.replaceM (m : Mem V) (c : Container V) (x : Id) (rv : Bool) (left : Option V) (arg : Option V) (assignThrows : Bool) (e : Nat → Env) : Out (Res V × Option V) :=
  match Cont.replaceM c.budget c.hd m.val x rv left arg assignThrows e c.ls with
  | .ok r => .ok (⟨{ m with val := r.2.1 }, { c with ls := r.1 }, x, r.2.2.1⟩, r.2.2.2)
  | .threw r => .threw (⟨{ m with val := r.2.1 }, { c with ls := r.1 }, x, false⟩, r.2.2.2)
  | .ub => .ub
  | .hang => .hang

/-- The container and the memory are put back; the argument is passed on. -/
def World.putM (w : World V) (i : Nat) : Out (Res V × Option V) → Out (World V × Ret × Option V)
  | .ok (r, a) => .ok ({ w with m := r.m, cs := w.cs.set i r.c }, ⟨r.pos, r.b⟩, a)
  | .threw (r, a) => .threw ({ w with m := r.m, cs := w.cs.set i r.c }, ⟨r.pos, r.b⟩, a)
  | .ub => .ub
  | .hang => .hang

/-- `insert(v)` and `insert(std::move(v))`, `insert(hint,…)` likewise, of container `i`: the state, what the call returns, and the argument afterwards. -/
def World.insertM (w : World V) (i : Nat) (rv : Bool) (left : Option V) (v : V) (x : Id) (f : Fault) (hint : Option Id) (e : Nat → Env) : Out (World V × Ret × Option V) :=
  match w.cs[i]? with
  | none => .ub
  | some c => w.putM i (c.insertM w.m rv left (some v) x f hint e)

/-- `replace(position,v)` and `replace(position,std::move(v))`. -/
def World.replaceM (w : World V) (i : Nat) (x : Id) (rv : Bool) (left : Option V) (v : V) (assignThrows : Bool) (e : Nat → Env) : Out (World V × Ret × Option V) :=
  match w.cs[i]? with
  | none => .ub
  | some c => w.putM i (c.replaceM w.m x rv left (some v) assignThrows e)

end MI.Cont
