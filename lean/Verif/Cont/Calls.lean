import Verif.Cont.World
import Verif.Ord.Calls
import Verif.Hash.Calls
import Verif.Spec.Runs
/-!
# Containers: where user functions are called, and where they may throw

The operations of `Verif/Cont/Cascade.lean` and `Verif/Cont/Container.lean` once more, with every call of a comparison object, equality predicate, hash
function or key extractor explicit, so that each of them may throw. The lines cited there are modelled here too. What is left in `Env` of the failures is
that of allocations (`allocFail`); `hashThrow`, `point` and `place` are not looked at. `Verif/Cont/CallsLemmas.lean` compares the two versions.

Simplification: extraction of a key is part of the call for which the key is extracted, except in `link_point(key(v),…)` of ordered indices,
where the key is extracted before the first comparison.
-/
namespace MI.Cont
open MI
variable {V : Type}

/-- A call of a function of index number `k`. -/
inductive UserCall (V : Type) where
  /-- the comparison object: `comp_(key(a),key(b))` -/
  | less (k : Nat) (a b : V)
  /-- the equality predicate: `eq_(key(a),key(b))` -/
  | same (k : Nat) (a b : V)
  /-- the hash function -/
  | hash (k : Nat)
  /-- the key extractor -/
  | key (k : Nat)

/-- The index whose function is called. -/
def UserCall.index : UserCall V → Nat
  | .less k _ _ | .same k _ _ | .hash k | .key k => k

/-- The kinds of calls. -/
inductive CallKind where
  | less | same | hash | key
deriving DecidableEq

/-- Is this a call of kind `κ` made by index `k`? -/
def UserCall.is (κ : CallKind) (k : Nat) : UserCall V → Bool
  | .less j _ _ => κ == .less && k == j
  | .same j _ _ => κ == .same && k == j
  | .hash j => κ == .hash && k == j
  | .key j => κ == .key && k == j

/-- A comparison made by an ordered index. -/
def UserCall.ofCmp (k : Nat) (p : V × V) : UserCall V := .less k p.1 p.2
/-- A comparison made by a hashed index. -/
def UserCall.ofEq (k : Nat) : Hash.EqCall V V → UserCall V
  | .found a b => .same k a b
  | .same a b => .same k a b

/-- A call whose value does not matter here; `false` if it throws. -/
def note (q : UserCall V) : Runs (UserCall V) Bool := .call q (fun _ => .done true) (.done false)

/-- The same, if `b`. -/
def noteIf (b : Bool) (q : UserCall V) : Runs (UserCall V) Bool := if b then note q else .done true

/-- `m` calls of the hash function: the number of the first that throws. -/
def hashCalls (k : Nat) : Nat → Nat → Runs (UserCall V) (Option Nat)
  | 0, _ => .done none
  | m + 1, j => .call (.hash k) (fun _ => hashCalls k m (j + 1)) (.done (some j))

namespace Layer

/-- `Layer.reserve` with its calls of the hash function: hashed_index.hpp:937, 956, 1447-1455, 1457-1570. -/
def reserveR (k : Nat) (hd : Id) (val : Id → V) (size : Nat) (e : Env) : Layer V → Runs (UserCall V) (Out (Layer V))
  | .hash c eq hf pol ml h a =>
    if size + 1 > ml ∧ e.allocFail = false then do
      let na : Hash.Arr := ⟨e.base, Hash.sizeFor Hash.sizes (pol.grow (size + 1))⟩
      let t ← hashCalls k (Hash.rehashCalls c (fun x => hf (val x)) size none h na hd e.cpy) 0
      return reserve hd val size { e with hashThrow := t } (.hash c eq hf pol ml h a)
    else return reserve hd val size e (.hash c eq hf pol ml h a)
  | L => return reserve hd val size e L

/-- `Layer.rehash` with its calls of the hash function: hashed_index.hpp:731-744, 1457-1570. -/
def rehashR (k : Nat) (hd : Id) (val : Id → V) (size n : Nat) (e : Env) : Layer V → Runs (UserCall V) (Out (Layer V))
  | .hash c eq hf pol ml h a =>
    if ¬ (size ≤ ml ∧ n ≤ a.size) ∧ e.allocFail = false then do
      let na : Hash.Arr := ⟨e.base, Hash.sizeFor Hash.sizes (max (pol.grow size) n)⟩
      let t ← hashCalls k (Hash.rehashCalls c (fun x => hf (val x)) size none h na hd e.cpy) 0
      return rehash hd val size n { e with hashThrow := t } (.hash c eq hf pol ml h a)
    else return rehash hd val size n e (.hash c eq hf pol ml h a)
  | L => return rehash hd val size n e L

/-- The search of an ordered index. -/
def ordPointA (u : Bool) (n : Nat) (hd : Id) (val : Id → V) (hint : Option Id) (v : V) (h : Ord.Heap) : Asks (Ord.Cmp2 V) (Option Ord.Point) :=
  match u, hint with
  | true, none => Ord.linkPointUA val n h hd v
  | true, some p => Ord.hintedPointUA val n h hd v p
  | false, none => Ord.linkPointNA val n h hd v
  | false, some p => Ord.hintedPointNA val n h hd v p

/-- `Layer.point` with its calls. `hashed`: the hash value is computed here (`find_bucket(v)` in `insert_` and `replace_`, hashed_index.hpp:939, 1069), not before
(`modify_` and `modify_rollback_`, hashed_index.hpp:1090, 1149). -/
def pointR (k n : Nat) (hd : Id) (val : Id → V) (hashed : Bool) (hint : Option Id) (x : Id) : Layer V → Runs (UserCall V) PtRes
  | .ord u _ h => do
    if !(← note (.key k)) then return .threw
    match ← Runs.attempt (.ofCmp k) (ordPointA u n hd val hint (val x) h) with
    | none => return .threw
    | some none => return .hang
    | some (some (.reject y)) => return .reject y
    | some (some (.accept side pos)) => return .accept (.ord side pos)
  | .hash c _ hf _ _ h a => do
    if !(← noteIf hashed (.hash k)) then return .threw
    match ← Runs.attempt (.ofEq k) (Hash.linkPointA n c (Hash.isSame V val) (Hash.isFound val (val x)) (hf (val x)) h a) with
    | none => return .threw
    | some (.ok (.reject y)) => return .reject y
    | some (.ok (.accept pos)) => return .accept (.hash pos)
    | some _ => return .hang
  | .seq _ => return .accept .tail
  | .rnd _ => return .accept .tail

/-- `Layer.inPlace` with its calls. -/
def inPlaceR (k n : Nat) (hd : Id) (val : Id → V) (x : Id) : Layer V → Runs (UserCall V) (Out Bool)
  | .ord u _ h => do
    match ← Runs.attempt (.ofCmp k) (if u then Ord.inPlaceUA val n h hd (val x) x else Ord.inPlaceNA val n h hd (val x) x) with
    | none => return .threw false
    | some none => return .hang
    | some (some b) => return .ok b
  | .hash c _ hf _ _ h a => do
    if !(← note (.hash k)) then return .threw false
    match ← Runs.attempt (.ofEq k) (Hash.inPlaceA n c (Hash.isFound val (val x)) (hf (val x)) h a x) with
    | none => return .threw false
    | some r => return r
  | .seq _ => return .ok true
  | .rnd _ => return .ok true

/-- `Layer.keeps` with its calls. -/
def keepsR (k n : Nat) (hd : Id) (val : Id → V) (old : V) (x : Id) : Layer V → Runs (UserCall V) (Out Bool)
  | .hash _ _ _ _ _ _ _ => .call (.same k (val x) old) (fun b => .done (.ok b)) (.done (.threw false))
  | L => L.inPlaceR k n hd val x

end Layer

section
variable {M : Type} (n : Nat) (hd : Id) (val : Id → V) (hint : Option Id) (size : Nat) (m0 : M) (base : Out M) (node : Id)

/-- `insertC` with its calls; `k`: number of the first index. -/
def insertCR : Nat → (Nat → Env) → Id → List (Layer V) → Runs (UserCall V) (Out (Ins V M))
  | _, _, xr, [] =>
    match base with
    | .ok m => return .ok ⟨[], m, node, node⟩
    | .threw m => return .threw ⟨[], m, 0, xr⟩
    | .ub => return .ub
    | .hang => return .hang
  | k, e, xr, L :: Ls => do
    match ← L.reserveR k hd val size (e 0) with
    | .threw L => return .threw ⟨L :: Ls, m0, 0, xr⟩
    | .ub => return .ub
    | .hang => return .hang
    | .ok L =>
      match ← L.pointR k n hd val true hint node with
      | .threw => return .threw ⟨L :: Ls, m0, 0, xr⟩
      | .hang => return .hang
      | .reject y => return .ok ⟨L :: Ls, m0, y, xr⟩
      | .accept pt =>
        match ← insertCR (k + 1) (tl e) xr Ls with
        | .ok r =>
          if r.res = r.xr then
            match L.link n hd r.xr pt with
            | none => return .hang
            | some L => return .ok { r with ls := L :: r.ls }
          else return .ok { r with ls := L :: r.ls }
        | .threw r => return .threw { r with ls := L :: r.ls }
        | .ub => return .ub
        | .hang => return .hang

end

section
variable (n : Nat) (hd : Id) (val : Id → V) (x : Id)

/-- `modify_` when `in_place` does not return. -/
def modifyFail (Ls : List (Layer V)) : Out Bool → Out (List (Layer V) × Bool)
  | .threw _ =>
    match extractC n hd x Ls with
    | none => .hang
    | some Ls => .threw (Ls, false)
  | .ub => .ub
  | _ => .hang

/-- `modify_` when there is no place for `x`: `Ls` are the indices below. -/
def modifyStop (L : Layer V) (Ls : List (Layer V)) : PtRes → Out (List (Layer V) × Bool)
  | .threw =>
    match extractC n hd x Ls with
    | none => .hang
    | some Ls => .threw (L :: Ls, false)
  | .reject _ =>
    match extractC n hd x Ls with
    | none => .hang
    | some Ls => .ok (L :: Ls, false)
  | _ => .hang

/-- The second half of `modify_`, given the outcome of `super::modify_`. -/
def modifyEnd (L : Layer V) : Out (List (Layer V) × Bool) → Out (List (Layer V) × Bool)
  | .ub => .ub
  | .hang => .hang
  | .ok (Ls, true) => .ok (L :: Ls, true)
  | .ok (Ls, false) =>
    match L.unlink n hd x with
    | none => .hang
    | some L => .ok (L :: Ls, false)
  | .threw (Ls, _) =>
    match L.unlink n hd x with
    | none => .hang
    | some L => .threw (L :: Ls, false)

/-- `modifyC` with its calls. -/
def modifyCR : Nat → List (Layer V) → Runs (UserCall V) (Out (List (Layer V) × Bool))
  | _, [] => return .ok ([], true)
  | k, L :: Ls => do
    match ← L.inPlaceR k n hd val x with
    | .ok true => return modifyEnd n hd x L (← modifyCR (k + 1) Ls)
    | .ok false =>
      match L.unlink n hd x with
      | none => return .hang
      | some L =>
        match ← L.pointR k n hd val false none x with
        | .accept pt =>
          match L.link n hd x pt with
          | none => return .hang
          | some L => return modifyEnd n hd x L (← modifyCR (k + 1) Ls)
        | r => return modifyStop n hd x L Ls r
    | r => return modifyFail n hd x (L :: Ls) r

/-- `modify_rollback_` when `in_place` does not return. -/
def rollFail (Ls : List (Layer V)) : Out Bool → Out (List (Layer V) × Bool)
  | .threw _ => .threw (Ls, false)
  | .ub => .ub
  | _ => .hang

/-- `modify_rollback_` when `x` stays, given the outcome of `super::modify_rollback_`. -/
def rollKeep (L : Layer V) : Out (List (Layer V) × Bool) → Out (List (Layer V) × Bool)
  | .ok r => .ok (L :: r.1, r.2)
  | .threw r => .threw (L :: r.1, false)
  | .ub => .ub
  | .hang => .hang

/-- `modify_rollback_` when there is no place for `x`: `Ls` are the indices below. -/
def rollStop (L : Layer V) (sv : Saved) (Ls : List (Layer V)) : PtRes → Out (List (Layer V) × Bool)
  | .threw =>
    match L.putBack n hd x sv with
    | none => .hang
    | some L => .threw (L :: Ls, false)
  | .reject _ =>
    match L.putBack n hd x sv with
    | none => .hang
    | some L => .ok (L :: Ls, false)
  | _ => .hang

/-- `modify_rollback_` when `x` moves, given the outcome of `super::modify_rollback_`. -/
def rollEnd (L : Layer V) (sv : Saved) (pt : Pt) : Out (List (Layer V) × Bool) → Out (List (Layer V) × Bool)
  | .ub => .ub
  | .hang => .hang
  | .ok (Ls, true) =>
    match L.link n hd x pt with
    | none => .hang
    | some L => .ok (L :: Ls, true)
  | .ok (Ls, false) =>
    match L.putBack n hd x sv with
    | none => .hang
    | some L => .ok (L :: Ls, false)
  | .threw (Ls, _) =>
    match L.putBack n hd x sv with
    | none => .hang
    | some L => .threw (L :: Ls, false)

/-- `rollbackC` with its calls. -/
def rollbackCR : Nat → List (Layer V) → Runs (UserCall V) (Out (List (Layer V) × Bool))
  | _, [] => return .ok ([], true)
  | k, L :: Ls => do
    match ← L.inPlaceR k n hd val x with
    | .ok true => return rollKeep L (← rollbackCR (k + 1) Ls)
    | .ok false =>
      match L.takeOut n hd x with
      | none => return .hang
      | some (L, sv) =>
        match ← L.pointR k n hd val false none x with
        | .accept pt => return rollEnd n hd x L sv pt (← rollbackCR (k + 1) Ls)
        | r => return rollStop n hd x L sv Ls r
    | r => return rollFail (L :: Ls) r

/-- `checkC` with its calls. -/
def checkCR : Nat → List (Layer V) → Runs (UserCall V) (Out Bool)
  | _, [] => return .ok true
  | k, L :: Ls => do
    match ← L.inPlaceR k n hd val x with
    | .ok true => checkCR (k + 1) Ls
    | r => return r

end

/-- `replace_` when the test whether `x` stays does not return. -/
def replFail (val : Id → V) (Ls : List (Layer V)) : Out Bool → Out (List (Layer V) × (Id → V) × Bool)
  | .threw _ => .threw (Ls, val, false)
  | .ub => .ub
  | _ => .hang

/-- `replace_` when `x` stays, given the outcome of `super::replace_`. -/
def replKeep (L : Layer V) : Out (List (Layer V) × (Id → V) × Bool) → Out (List (Layer V) × (Id → V) × Bool)
  | .ok r => .ok (L :: r.1, r.2)
  | .threw r => .threw (L :: r.1, r.2)
  | .ub => .ub
  | .hang => .hang

/-- `replace_` when there is no place for `x`: `Ls` are the indices below. -/
def replStop (n : Nat) (hd : Id) (val : Id → V) (x : Id) (L : Layer V) (sv : Saved) (Ls : List (Layer V)) : PtRes → Out (List (Layer V) × (Id → V) × Bool)
  | .threw =>
    match L.putBack n hd x sv with
    | none => .hang
    | some L => .threw (L :: Ls, val, false)
  | .reject _ =>
    match L.putBack n hd x sv with
    | none => .hang
    | some L => .ok (L :: Ls, val, false)
  | _ => .hang

/-- `replace_` when `x` moves, given the outcome of `super::replace_`. -/
def replEnd (n : Nat) (hd x : Id) (L : Layer V) (sv : Saved) (pt : Pt) :
    Out (List (Layer V) × (Id → V) × Bool) → Out (List (Layer V) × (Id → V) × Bool)
  | .ub => .ub
  | .hang => .hang
  | .ok (Ls, val, true) =>
    match L.link n hd x pt with
    | none => .hang
    | some L => .ok (L :: Ls, val, true)
  | .ok (Ls, val, false) =>
    match L.putBack n hd x sv with
    | none => .hang
    | some L => .ok (L :: Ls, val, false)
  | .threw (Ls, val, _) =>
    match L.putBack n hd x sv with
    | none => .hang
    | some L => .threw (L :: Ls, val, false)

/-- `replaceC` with its calls. -/
def replaceCR (n : Nat) (hd : Id) (val : Id → V) (x : Id) (v : V) (assignThrows : Bool) :
    Nat → List (Layer V) → Runs (UserCall V) (Out (List (Layer V) × (Id → V) × Bool))
  | _, [] => if assignThrows then return .threw ([], val, false) else return .ok ([], upd val x v, true)
  | k, L :: Ls =>
    if L.keyed = false then do return replKeep L (← replaceCR n hd val x v assignThrows (k + 1) Ls)
    else do
      match ← L.keepsR k n hd (upd val x v) (val x) x with
      | .ok true => return replKeep L (← replaceCR n hd val x v assignThrows (k + 1) Ls)
      | .ok false =>
        match L.takeOut n hd x with
        | none => return .hang
        | some (L, sv) =>
          match ← L.pointR k n hd (upd val x v) true none x with
          | .accept pt => return replEnd n hd x L sv pt (← replaceCR n hd val x v assignThrows (k + 1) Ls)
          | r => return replStop n hd val x L sv Ls r
      | r => return replFail val (L :: Ls) r

namespace Container

/-- The end of `Container.insert`, given the outcome of the chain. -/
def insertEnd (c : Container V) : Out (Ins V (Mem V)) → Out (Res V)
  | .ok r =>
    if r.res = r.xr then .ok ⟨r.m, { c with ls := r.ls, count := c.count + 1 }, r.res, true⟩
    else .ok ⟨r.m, { c with ls := r.ls }, r.res, false⟩
  | .threw r => .threw ⟨r.m, { c with ls := r.ls }, 0, false⟩
  | .ub => .ub
  | .hang => .hang

/-- `Container.insert` with its calls. -/
def insertR (m : Mem V) (c : Container V) (v : V) (x : Id) (f : Fault) (hint : Option Id) (e : Nat → Env) : Runs (UserCall V) (Out (Res V)) := do
  return c.insertEnd (← insertCR c.budget c.hd (upd m.val x v) hint c.count m (baseInsert f m x v) x 0 e 0 c.ls)

/-- The end of `Container.emplace`, given the outcome of the chain. -/
def emplaceEnd (c : Container V) (x : Id) : Out (Ins V (Mem V)) → Out (Res V)
  | .ok r =>
    if r.res = r.xr then .ok ⟨r.m, { c with ls := r.ls, count := c.count + 1 }, r.res, true⟩
    else
      match r.m.deleteNode x with
      | none => .ub
      | some m => .ok ⟨m, { c with ls := r.ls }, r.res, false⟩
  | .threw r =>
    match r.m.destroy x with
    | none => .ub
    | some m =>
      match m.deallocate x with
      | none => .ub
      | some m => .threw ⟨m, { c with ls := r.ls }, 0, false⟩
  | .ub => .ub
  | .hang => .hang

/-- `Container.emplace` with its calls. -/
def emplaceR (m : Mem V) (c : Container V) (v : V) (x : Id) (f : Fault) (hint : Option Id) (e : Nat → Env) : Runs (UserCall V) (Out (Res V)) :=
  if f.alloc then return .threw ⟨m, c, 0, false⟩
  else if f.construct then
    match (m.allocate x).deallocate x with
    | none => return .ub
    | some m => return .threw ⟨m, c, 0, false⟩
  else do
    let m := (m.allocate x).construct x v
    return c.emplaceEnd x (← insertCR c.budget c.hd m.val hint c.count m (.ok m) x 0 e x c.ls)

/-- The end of `Container.insertNh`, given the outcome of the chain. -/
def insertNhEnd (c : Container V) (x : Id) : Out (Ins V (Mem V)) → Out (Res V × Option Id)
  | .ok r =>
    if r.res = r.xr then .ok (⟨r.m, { c with ls := r.ls, count := c.count + 1 }, r.res, true⟩, none)
    else .ok (⟨r.m, { c with ls := r.ls }, r.res, false⟩, some x)
  | .threw r => .threw (⟨r.m, { c with ls := r.ls }, 0, false⟩, some x)
  | .ub => .ub
  | .hang => .hang

/-- `Container.insertNh` with its calls. -/
def insertNhR (m : Mem V) (c : Container V) (nh : Option Id) (hint : Option Id) (e : Nat → Env) : Runs (UserCall V) (Out (Res V × Option Id)) :=
  match nh with
  | none => return .ok (⟨m, c, c.hd, false⟩, none)
  | some x => do return c.insertNhEnd x (← insertCR c.budget c.hd m.val hint c.count m (.ok m) x 0 e x c.ls)

/-- The end of `Container.transfer`, given the outcome of the chain. -/
def transferEnd (m : Mem V) (c : Container V) : Out (Ins V (Container V)) → Out (Res V × Container V)
  | .ok r =>
    if r.res = r.xr then .ok (⟨m, { c with ls := r.ls, count := c.count + 1 }, r.res, true⟩, r.m)
    else .ok (⟨m, { c with ls := r.ls }, r.res, false⟩, r.m)
  | .threw r => .threw (⟨m, { c with ls := r.ls }, 0, false⟩, r.m)
  | .ub => .ub
  | .hang => .hang

/-- `Container.transfer` with its calls; all are of functions of the destination. -/
def transferR (m : Mem V) (c d : Container V) (x : Id) (e : Nat → Env) : Runs (UserCall V) (Out (Res V × Container V)) := do
  return c.transferEnd m (← insertCR c.budget c.hd m.val none c.count d (unlinkAll m d x) x 0 e x c.ls)

/-- The end of `Container.replace`, given the outcome of the chain. -/
def replaceEnd (m : Mem V) (c : Container V) (x : Id) : Out (List (Layer V) × (Id → V) × Bool) → Out (Res V)
  | .ok r => .ok ⟨{ m with val := r.2.1 }, { c with ls := r.1 }, x, r.2.2⟩
  | .threw r => .threw ⟨{ m with val := r.2.1 }, { c with ls := r.1 }, x, false⟩
  | .ub => .ub
  | .hang => .hang

/-- `Container.replace` with its calls. -/
def replaceR (m : Mem V) (c : Container V) (x : Id) (v : V) (assignThrows : Bool) : Runs (UserCall V) (Out (Res V)) := do
  return c.replaceEnd m x (← replaceCR c.budget c.hd m.val x v assignThrows 0 c.ls)

/-- The end of `Container.modify`, given the outcome of the chain. -/
def modifyEnd (m : Mem V) (c : Container V) (x : Id) : Out (List (Layer V) × Bool) → Out (Res V)
  | .ok (ls, true) => .ok ⟨m, { c with ls := ls }, x, true⟩
  | .ok (ls, false) =>
    match deleteCount m { c with ls := ls } x with
    | none => .ub
    | some r => .ok r
  | .threw (ls, _) =>
    match deleteCount m { c with ls := ls } x with
    | none => .ub
    | some r => .threw r
  | .ub => .ub
  | .hang => .hang

/-- `Container.modify` with its calls (other than that of the modifier). -/
def modifyR (m : Mem V) (c : Container V) (x : Id) (mod : V → V × Bool) : Runs (UserCall V) (Out (Res V)) :=
  let v := mod (m.val x)
  let m := m.assign x v.1
  if v.2 then return eraseThrow m c x
  else do return c.modifyEnd m x (← modifyCR c.budget c.hd m.val x 0 c.ls)

/-- The end of `Container.modifyRb` when `modify_rollback_` returned false, given the outcome of `check_rollback_`. -/
def checkEnd (m : Mem V) (c : Container V) (x : Id) : Out Bool → Out (Res V)
  | .ub => .ub
  | .hang => .hang
  | .threw _ => eraseThrow m c x
  | .ok true => .ok ⟨m, c, x, false⟩
  | .ok false =>
    match erase m c x with
    | .ok r => .ok { r with b := false }
    | r => r

/-- The same when `modify_rollback_` threw. -/
def checkEndThrew (m : Mem V) (c : Container V) (x : Id) : Out Bool → Out (Res V)
  | .ub => .ub
  | .hang => .hang
  | .threw _ => eraseThrow m c x
  | .ok true => eraseThrow m c x
  | .ok false =>
    match erase m c x with
    | .ok r => eraseThrow r.m r.c x
    | r => r

/-- `Container.modifyRb` with its calls (other than those of the modifiers). -/
def modifyRbR (m : Mem V) (c : Container V) (x : Id) (mod back : V → V × Bool) : Runs (UserCall V) (Out (Res V)) :=
  let v := mod (m.val x)
  let m := m.assign x v.1
  if v.2 then return eraseThrow m c x
  else do
    match ← rollbackCR c.budget c.hd m.val x 0 c.ls with
    | .ub => return .ub
    | .hang => return .hang
    | .ok (ls, true) => return .ok ⟨m, { c with ls := ls }, x, true⟩
    | .ok (ls, false) =>
      let c := { c with ls := ls }
      let v := back (m.val x)
      let m := m.assign x v.1
      if v.2 then return eraseThrow m c x
      else return c.checkEnd m x (← checkCR c.budget c.hd m.val x 0 c.ls)
    | .threw (ls, _) =>
      let c := { c with ls := ls }
      let v := back (m.val x)
      let m := m.assign x v.1
      if v.2 then return eraseThrow m c x
      else return c.checkEndThrew m x (← checkCR c.budget c.hd m.val x 0 c.ls)

end Container

/-- Continue with the memory, the container and the handle of a result. -/
def World.putNh (w : World V) (i h : Nat) : Out (Res V × Option Id) → Out (World V × Ret)
  | .ok (r, nh) => .ok ({ m := r.m, cs := w.cs.set i r.c, hs := w.hs.set h nh }, ⟨r.pos, r.b⟩)
  | .threw (r, nh) => .threw ({ m := r.m, cs := w.cs.set i r.c, hs := w.hs.set h nh }, ⟨r.pos, r.b⟩)
  | .ub => .ub
  | .hang => .hang

/-- Continue with the memory and both containers of a result. -/
def World.putBoth (w : World V) (i j : Nat) : Out (Res V × Container V) → Out (World V × Ret)
  | .ok (r, d) => .ok ({ w with m := r.m, cs := (w.cs.set i r.c).set j d }, ⟨r.pos, r.b⟩)
  | .threw (r, d) => .threw ({ w with m := r.m, cs := (w.cs.set i r.c).set j d }, ⟨r.pos, r.b⟩)
  | .ub => .ub
  | .hang => .hang

/-- Continue with a rehashed index. -/
def World.putLayer (w : World V) (i k : Nat) (c : Container V) : Out (Layer V) → Out (World V × Ret)
  | .ok L => .ok ({ w with cs := w.cs.set i { c with ls := c.ls.set k L } }, ⟨0, true⟩)
  | .threw L => .threw ({ w with cs := w.cs.set i { c with ls := c.ls.set k L } }, ⟨0, true⟩)
  | .ub => .ub
  | .hang => .hang

/-- Execution of one operation with its calls. The other operations call no function of an index, except that `sort`, `unique`, `remove_if` and `merge` of lists call functions that are
passed to them, whose exceptions are in `Rearr`; and that copying a container copies these functions. -/
def World.stepR (w : World V) : Op V → Runs (UserCall V) (Out (World V × Ret))
  | .insert i v x f hint e =>
    match w.cs[i]? with
    | none => return .ub
    | some c => do return w.put i (← c.insertR w.m v x f hint e)
  | .emplace i v x f hint e =>
    match w.cs[i]? with
    | none => return .ub
    | some c => do return w.put i (← c.emplaceR w.m v x f hint e)
  | .insertNh i h hint e =>
    match w.cs[i]?, w.hs[h]? with
    | some c, some nh => do return w.putNh i h (← c.insertNhR w.m nh hint e)
    | _, _ => return .ub
  | .transfer i j x e =>
    match w.cs[i]?, w.cs[j]? with
    | some c, some d => do return w.putBoth i j (← c.transferR w.m d x e)
    | _, _ => return .ub
  | .replace i x v a _ =>
    match w.cs[i]? with
    | none => return .ub
    | some c => do return w.put i (← c.replaceR w.m x v a)
  | .modify i x mod _ =>
    match w.cs[i]? with
    | none => return .ub
    | some c => do return w.put i (← c.modifyR w.m x mod)
  | .modifyRb i x mod back _ _ =>
    match w.cs[i]? with
    | none => return .ub
    | some c => do return w.put i (← c.modifyRbR w.m x mod back)
  | .rehash i k n e =>
    match w.cs[i]? with
    | none => return .ub
    | some c =>
      match c.ls[k]? with
      | none => return .ub
      | some L => do return w.putLayer i k c (← L.rehashR k c.hd w.m.val c.count n e)
  | op => return w.step op

/-- The container whose functions an operation calls. -/
def Op.target : Op V → Nat
  | .insert i .. | .emplace i .. | .insertNh i .. | .transfer i .. | .replace i .. | .modify i .. | .modifyRb i .. | .rehash i .. => i
  | _ => 0

/-- What the functions of container `i` answer. Calls of hash functions and key extractors have no answer that matters here; they count as answered with `true`. -/
def World.answers (w : World V) (i : Nat) : UserCall V → Bool
  | .less k a b =>
    match w.cs[i]?.bind fun c => c.ls[k]?.map Layer.spec with
    | some (.ord _ lt) => lt a b
    | _ => true
  | .same k a b =>
    match w.cs[i]?.bind fun c => c.ls[k]?.map Layer.spec with
    | some (.hash _ eq _) => eq a b
    | _ => true
  | _ => true

/-- `Env`ironments that supply the same memory; they may differ in which user functions throw. -/
def Env.Like (e e' : Env) : Prop := e'.allocFail = e.allocFail ∧ e'.base = e.base ∧ e'.junk = e.junk ∧ e'.cpy = e.cpy

/-- No user function throws. -/
def Env.calm (e : Env) : Env := { e with hashThrow := none, point := false, place := false }

/-- No user function throws. -/
abbrev calmE (e : Nat → Env) : Nat → Env := fun i => (e i).calm

/-- The same operation with other `Env`ironments. -/
def Op.within (e e' : Nat → Env) : Op V → Op V
  | .insert i v x f hint _ => .insert i v x f hint e
  | .emplace i v x f hint _ => .emplace i v x f hint e
  | .insertNh i h hint _ => .insertNh i h hint e
  | .transfer i j x _ => .transfer i j x e
  | .replace i x v a _ => .replace i x v a e
  | .modify i x mod _ => .modify i x mod e
  | .modifyRb i x mod back _ _ => .modifyRb i x mod back e e'
  | .rehash i k n _ => .rehash i k n (e 0)
  | op => op

/-- The environments of an operation. -/
def Op.env : Op V → Nat → Env
  | .insert _ _ _ _ _ e | .emplace _ _ _ _ _ e | .insertNh _ _ _ e | .transfer _ _ _ e | .replace _ _ _ _ e | .modify _ _ _ e | .modifyRb _ _ _ _ e _ => e
  | .rehash _ _ _ e => fun _ => e
  | _ => fun _ => ⟨false, 0, fun _ => 0, 0, none, false, false⟩

/-- The second environment of `modify` with rollback. -/
def Op.env' : Op V → Nat → Env
  | .modifyRb _ _ _ _ _ e => e
  | op => op.env

/-- The operations that call functions of an index. -/
def Op.calls : Op V → Bool
  | .insert .. | .emplace .. | .insertNh .. | .transfer .. | .replace .. | .modify .. | .modifyRb .. | .rehash .. => true
  | _ => false

end MI.Cont
