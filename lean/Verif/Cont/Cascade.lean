import Verif.Cont.Layer
/-!
# The chain of indices

Models the `insert_`, `extract_`, `replace_`, `modify_`, `modify_rollback_` and `check_rollback_` member functions of the index
classes, each of which does its part and calls the function of the same name of the class below it (`super::`), down to
`index_base`. A chain is a list of layers, outermost first. Functions take the environment of the operation as `e`, `e 0` being that
of the first layer. `n` is the budget of loops.
-/
namespace MI.Cont
open MI
variable {V : Type}

/-- The environment seen by the layers below the first. -/
def tl (e : Nat → Env) : Nat → Env := fun i => e (i + 1)

/-- `super::extract_(x,…)` chain: ord_index_impl.hpp:881-891, hashed_index.hpp:970-979, sequenced_index.hpp:758-767,
random_access_index.hpp:847-856, index_base.hpp:165-166. -/
def extractC (n : Nat) (hd x : Id) : List (Layer V) → Option (List (Layer V))
  | [] => some []
  | L :: Ls =>
    match L.unlink n hd x with
    | none => none
    | some L =>
      match extractC n hd x Ls with
      | none => none
      | some Ls => some (L :: Ls)

/-- Result of the `insert_` chain: layers, the state `index_base::insert_` works on (`M`), the node returned, and the value of the
reference parameter `x`. -/
structure Ins (V M : Type) where
  ls : List (Layer V)
  m : M
  res : Id
  xr : Id

section
variable {M : Type} (n : Nat) (hd : Id) (val : Id → V) (hint : Option Id) (size : Nat) (m0 : M) (base : Out M) (node : Id)

/-- `insert_(v,x,variant)` (`hint = none`) and `insert_(v,position,x,variant)`: ord_index_impl.hpp:842-879, hashed_index.hpp:933-968,
sequenced_index.hpp:739-756, random_access_index.hpp:826-845. `base` is what `index_base::insert_` (index_base.hpp:105-163) does to
the state `m0`, leaving `x` at `node`; `xr` is the value of the reference parameter `x` on entry. The inserted value is `val node`. -/
def insertC : (Nat → Env) → Id → List (Layer V) → Out (Ins V M)
  | _, xr, [] =>
    match base with
    | .ok m => .ok ⟨[], m, node, node⟩
    | .threw m => .threw ⟨[], m, 0, xr⟩
    | .ub => .ub
    | .hang => .hang
  | e, xr, L :: Ls =>
    match L.reserve hd val size (e 0) with
    | .threw L => .threw ⟨L :: Ls, m0, 0, xr⟩
    | .ub => .ub
    | .hang => .hang
    | .ok L =>
      match L.point n hd val (e 0) hint node with
      | .threw => .threw ⟨L :: Ls, m0, 0, xr⟩
      | .hang => .hang
      | .reject y => .ok ⟨L :: Ls, m0, y, xr⟩
      | .accept pt =>
        match insertC (tl e) xr Ls with
        | .ok r =>
          if r.res = r.xr then
            match L.link n hd r.xr pt with
            | none => .hang
            | some L => .ok { r with ls := L :: r.ls }
          else .ok { r with ls := L :: r.ls }
        | .threw r => .threw { r with ls := L :: r.ls }
        | .ub => .ub
        | .hang => .hang

end

section
variable (n : Nat) (hd : Id) (val : Id → V) (x : Id)

/-- `modify_(x)`, the value of `x` having been changed to `val x`: ord_index_impl.hpp:964-1026, hashed_index.hpp:1085-1145,
sequenced_index.hpp:815-839, random_access_index.hpp:906-930, index_base.hpp:190. Returns false, or throws, after removing `x` from all
layers. (For sequenced and random access indices `in_place` is constantly true, so only the second half applies.) -/
def modifyC : (Nat → Env) → List (Layer V) → Out (List (Layer V) × Bool)
  | _, [] => .ok ([], true)
  | e, L :: Ls =>
    match L.inPlace n hd val (e 0) x with
    | .ub => .ub
    | .hang => .hang
    | .threw _ =>
      match extractC n hd x (L :: Ls) with
      | none => .hang
      | some Ls => .threw (Ls, false)
    | .ok b =>
      -- the layer after the first half, or how the first half leaves the function
      match (if b then some (L, PtRes.accept .tail)
        else (L.unlink n hd x).map (fun L => (L, L.point n hd val (e 0) none x))) with
      | none => .hang
      | some (_, .hang) => .hang
      | some (L, .threw) =>
        match extractC n hd x Ls with
        | none => .hang
        | some Ls => .threw (L :: Ls, false)
      | some (L, .reject _) =>
        match extractC n hd x Ls with
        | none => .hang
        | some Ls => .ok (L :: Ls, false)
      | some (L, .accept pt) =>
        match (if b then some L else L.link n hd x pt) with
        | none => .hang
        | some L =>
          match modifyC (tl e) Ls with
          | .ub => .ub
          | .hang => .hang
          | .ok (Ls, true) => .ok (L :: Ls, true)
          | .ok (Ls, false) =>
            match L.unlink n hd x with
            | none => .hang
            | some L => .ok (L :: Ls, false)
          | .threw (Ls, _) =>
            match L.unlink n hd x with
            | none => .hang
            | some L => .threw (L :: Ls, false)

/-- `modify_rollback_(x)`: ord_index_impl.hpp:1028-1055, hashed_index.hpp:1147-1171, sequenced_index.hpp:841-844,
random_access_index.hpp:932-935, index_base.hpp:192. -/
def rollbackC : (Nat → Env) → List (Layer V) → Out (List (Layer V) × Bool)
  | _, [] => .ok ([], true)
  | e, L :: Ls =>
    match L.inPlace n hd val (e 0) x with
    | .ub => .ub
    | .hang => .hang
    | .threw _ => .threw (L :: Ls, false)
    | .ok true =>
      match rollbackC (tl e) Ls with
      | .ok r => .ok (L :: r.1, r.2)
      | .threw r => .threw (L :: r.1, false)
      | .ub => .ub
      | .hang => .hang
    | .ok false =>
      match L.takeOut n hd x with
      | none => .hang
      | some (L, sv) =>
        match L.point n hd val (e 0) none x with
        | .hang => .hang
        | .threw =>
          match L.putBack n hd x sv with
          | none => .hang
          | some L => .threw (L :: Ls, false)
        | .reject _ =>
          match L.putBack n hd x sv with
          | none => .hang
          | some L => .ok (L :: Ls, false)
        | .accept pt =>
          match rollbackC (tl e) Ls with
          | .ub => .ub
          | .hang => .hang
          | .ok (Ls, true) =>
            match L.link n hd x pt with
            | none => .hang
            | some L => .ok (L :: Ls, true)
          | .ok (Ls, false) =>
            match L.putBack n hd x sv with
            | none => .hang
            | some L => .ok (L :: Ls, false)
          | .threw (Ls, _) =>
            match L.putBack n hd x sv with
            | none => .hang
            | some L => .threw (L :: Ls, false)

/-- `check_rollback_(x)`: ord_index_impl.hpp:1057-1060, hashed_index.hpp:1173-1177, sequenced_index.hpp:846-849,
random_access_index.hpp:937-940, index_base.hpp:194. -/
def checkC : (Nat → Env) → List (Layer V) → Out Bool
  | _, [] => .ok true
  | e, L :: Ls =>
    match L.inPlace n hd val (e 0) x with
    | .ok true => checkC (tl e) Ls
    | r => r

end

/-- `replace_(v,x,variant)`: ord_index_impl.hpp:935-962, hashed_index.hpp:1058-1083, sequenced_index.hpp:810-813,
random_access_index.hpp:901-904; `index_base::replace_` (index_base.hpp:178-188) assigns `v` to the value of `x`. The state threaded
through is the values of the nodes. `assignThrows`: the assignment throws (it is taken to leave the value unchanged then). -/
def replaceC (n : Nat) (hd : Id) (val : Id → V) (x : Id) (v : V) (assignThrows : Bool) :
    (Nat → Env) → List (Layer V) → Out (List (Layer V) × (Id → V) × Bool)
  | _, [] => if assignThrows then .threw ([], val, false) else .ok ([], upd val x v, true)
  | e, L :: Ls =>
    if L.keyed = false then
      match replaceC n hd val x v assignThrows (tl e) Ls with
      | .ok r => .ok (L :: r.1, r.2)
      | .threw r => .threw (L :: r.1, r.2)
      | .ub => .ub
      | .hang => .hang
    else
      match L.keeps n hd (upd val x v) (val x) (e 0) x with
      | .ub => .ub
      | .hang => .hang
      | .threw _ => .threw (L :: Ls, val, false)
      | .ok true =>
        match replaceC n hd val x v assignThrows (tl e) Ls with
        | .ok r => .ok (L :: r.1, r.2)
        | .threw r => .threw (L :: r.1, r.2)
        | .ub => .ub
        | .hang => .hang
      | .ok false =>
        match L.takeOut n hd x with
        | none => .hang
        | some (L, sv) =>
          match L.point n hd (upd val x v) (e 0) none x with
          | .hang => .hang
          | .threw =>
            match L.putBack n hd x sv with
            | none => .hang
            | some L => .threw (L :: Ls, val, false)
          | .reject _ =>
            match L.putBack n hd x sv with
            | none => .hang
            | some L => .ok (L :: Ls, val, false)
          | .accept pt =>
            match replaceC n hd val x v assignThrows (tl e) Ls with
            | .ub => .ub
            | .hang => .hang
            | .ok (Ls, val, true) =>
              match L.link n hd x pt with
              | none => .hang
              | some L => .ok (L :: Ls, val, true)
            | .ok (Ls, val, false) =>
              match L.putBack n hd x sv with
              | none => .hang
              | some L => .ok (L :: Ls, val, false)
            | .threw (Ls, val, _) =>
              match L.putBack n hd x sv with
              | none => .hang
              | some L => .threw (L :: Ls, val, false)

/-- `super::clear_()` chain: ord_index_impl.hpp:898-906, hashed_index.hpp:1015-1023, sequenced_index.hpp:779-787,
random_access_index.hpp:866-874, index_base.hpp:168. -/
def clearC (hd : Id) : List (Layer V) → List (Layer V)
  | [] => []
  | L :: Ls => L.clear hd :: clearC hd Ls

end MI.Cont
