import Verif.Cont.Cascade
import Verif.Cont.Delete
/-!
# Containers

Models the member functions of `multi_index_container` (multi_index_container.hpp) on top of the chain of indices. `Mem` is the
memory of nodes: which addresses are allocated, which hold a constructed value, and which value. Destroying a value that is not
there, freeing an address that is not allocated and extracting an element that is not allocated are undefined behaviour (`Out.ub`).
An outcome `threw s` carries the state `s` in which the exception leaves the program.
-/
namespace MI.Cont
open MI
variable {V : Type}

/-- Memory of nodes. -/
structure Mem (V : Type) where
  val : Id → V
  alloc : List Id
  cons : List Id

namespace Mem

/-- `allocate_node()`, multi_index_container.hpp:643-646, when it succeeds with address `x`. -/
def allocate (m : Mem V) (x : Id) : Mem V := { m with alloc := x :: m.alloc }

/-- `deallocate_node(x)`, multi_index_container.hpp:648-652. `none`: not allocated. -/
def deallocate (m : Mem V) (x : Id) : Option (Mem V) := if x ∈ m.alloc then some { m with alloc := m.alloc.erase x } else none

/-- `construct_value(x,v)`, multi_index_container.hpp:654-667. -/
def construct (m : Mem V) (x : Id) (v : V) : Mem V := { m with val := upd m.val x v, cons := x :: m.cons }

/-- `destroy_value(x)`, multi_index_container.hpp:669-673. `none`: there is no value. -/
def destroy (m : Mem V) (x : Id) : Option (Mem V) := if x ∈ m.cons then some { m with cons := m.cons.erase x } else none

/-- `delete_node_(x)`, multi_index_container.hpp:958-962. -/
def deleteNode (m : Mem V) (x : Id) : Option (Mem V) :=
  match m.destroy x with
  | none => none
  | some m => m.deallocate x

/-- `final_delete_node_` of each of some nodes. -/
def deleteNodes (m : Mem V) : List Id → Option (Mem V)
  | [] => some m
  | x :: xs =>
    match m.deleteNode x with
    | none => none
    | some m => m.deleteNodes xs

/-- A value is changed in place. -/
def assign (m : Mem V) (x : Id) (v : V) : Mem V := { m with val := upd m.val x v }

end Mem

/-- A container: header, indices, `node_count`. -/
structure Container (V : Type) where
  hd : Id
  ls : List (Layer V)
  count : Nat

/-- Budget of the loops of an operation on `c`; larger than any of them needs (theorems show that no operation on a well-formed
container exceeds it). -/
def Container.budget (c : Container V) : Nat := c.count + 4

/-- Failures of the creation of a node: allocation throws, construction of the value throws. -/
structure Fault where
  alloc : Bool := false
  construct : Bool := false

/-- Result of an operation: memory, container, returned position, returned flag. -/
structure Res (V : Type) where
  m : Mem V
  c : Container V
  pos : Id
  b : Bool

/-- `index_base::insert_(v,x,lvalue_tag)` and `rvalue_tag`: index_base.hpp:105-131. `x`: the address the allocation returns. -/
def baseInsert (f : Fault) (m : Mem V) (x : Id) (v : V) : Out (Mem V) :=
  if f.alloc then .threw m
  else
    if f.construct then
      match (m.allocate x).deallocate x with
      | none => .ub
      | some m => .threw m
    else .ok ((m.allocate x).construct x v)

namespace Container

/-- `insert_(v)`, `insert_rv_(v)` and, with a position, `insert_(v,position)`, `insert_rv_(v,position)`: multi_index_container.hpp:690-712,
816-843. -/
def insert (m : Mem V) (c : Container V) (v : V) (x : Id) (f : Fault) (hint : Option Id) (e : Nat → Env) : Out (Res V) :=
  match insertC c.budget c.hd (upd m.val x v) hint c.count m (baseInsert f m x v) x e 0 c.ls with
  | .ok r =>
    if r.res = r.xr then .ok ⟨r.m, { c with ls := r.ls, count := c.count + 1 }, r.res, true⟩
    else .ok ⟨r.m, { c with ls := r.ls }, r.res, false⟩
  | .threw r => .threw ⟨r.m, { c with ls := r.ls }, 0, false⟩
  | .ub => .ub
  | .hang => .hang

/-- `emplace_(args...)`, `emplace_hint_(position,args...)` and `insert_ref_(t)`, `insert_ref_(t,position)` for other types than the
value type: multi_index_container.hpp:714-743, 784-814, 845-876, 902-935. `v`: the value constructed. -/
def emplace (m : Mem V) (c : Container V) (v : V) (x : Id) (f : Fault) (hint : Option Id) (e : Nat → Env) : Out (Res V) :=
  if f.alloc then .threw ⟨m, c, 0, false⟩
  else
    let m := m.allocate x
    if f.construct then
      match m.deallocate x with
      | none => .ub
      | some m => .threw ⟨m, c, 0, false⟩
    else
      let m := m.construct x v
      match insertC c.budget c.hd m.val hint c.count m (.ok m) x e x c.ls with
      | .ok r =>
        if r.res = r.xr then .ok ⟨r.m, { c with ls := r.ls, count := c.count + 1 }, r.res, true⟩
        else
          match r.m.deleteNode x with
          | none => .ub
          | some m => .ok ⟨m, { c with ls := r.ls }, r.res, false⟩
      | .threw r =>
        match r.m.destroy x with
        | none => .ub
        | some m =>
          match m.deallocate x with
          | none => .ub
          | some m => .threw ⟨m, { c with ls := r.ls }, 0, false⟩
      | .ub => .ub
      | .hang => .hang

/-- `insert_nh_(nh)` and `insert_nh_(nh,position)`: multi_index_container.hpp:755-769, 886-900. The second component is the node the handle
owns afterwards. -/
def insertNh (m : Mem V) (c : Container V) (nh : Option Id) (hint : Option Id) (e : Nat → Env) : Out (Res V × Option Id) :=
  match nh with
  | none => .ok (⟨m, c, c.hd, false⟩, none)
  | some x =>
    match insertC c.budget c.hd m.val hint c.count m (.ok m) x e x c.ls with
    | .ok r =>
      if r.res = r.xr then .ok (⟨r.m, { c with ls := r.ls, count := c.count + 1 }, r.res, true⟩, none)
      else .ok (⟨r.m, { c with ls := r.ls }, r.res, false⟩, some x)
    | .threw r => .threw (⟨r.m, { c with ls := r.ls }, 0, false⟩, some x)
    | .ub => .ub
    | .hang => .hang

/-- `extract_for_transfer_(x,dst)` and the part of `extract_(x)` and `erase_(x)` before the node is disposed of:
multi_index_container.hpp:937-956. -/
def unlinkAll (m : Mem V) (c : Container V) (x : Id) : Out (Container V) :=
  if x ∈ m.alloc then
    match extractC c.budget c.hd x c.ls with
    | none => .hang
    | some ls => .ok { c with ls := ls, count := c.count - 1 }
  else .ub

/-- `extract_(x)`: multi_index_container.hpp:937-942. The handle returned owns `x`. -/
def extract (m : Mem V) (c : Container V) (x : Id) : Out (Res V × Option Id) :=
  match unlinkAll m c x with
  | .ok c => .ok (⟨m, c, x, true⟩, some x)
  | .threw _ => .hang
  | .ub => .ub
  | .hang => .hang

/-- `erase_(x)`: multi_index_container.hpp:951-956. -/
def erase (m : Mem V) (c : Container V) (x : Id) : Out (Res V) :=
  match unlinkAll m c x with
  | .ok c =>
    match m.deleteNode x with
    | none => .ub
    | some m => .ok ⟨m, c, 0, true⟩
  | .threw _ => .hang
  | .ub => .ub
  | .hang => .hang

/-- `delete_all_nodes_()`: multi_index_container.hpp:964-967; done by the first index. -/
def deleteAll (m : Mem V) (c : Container V) : Out (Mem V) :=
  match c.ls with
  | [] => .ok m
  | L :: _ =>
    match L.deleteAll c.budget c.hd with
    | .ok xs =>
      match m.deleteNodes xs with
      | none => .ub
      | some m => .ok m
    | .threw _ => .hang
    | .ub => .ub
    | .hang => .hang

/-- `clear_()`: multi_index_container.hpp:969-974. -/
def clear (m : Mem V) (c : Container V) : Out (Res V) :=
  match deleteAll m c with
  | .ok m => .ok ⟨m, { c with ls := clearC c.hd c.ls, count := 0 }, 0, true⟩
  | .threw _ => .hang
  | .ub => .ub
  | .hang => .hang

/-- `replace_(v,x)`, `replace_rv_(v,x)`: multi_index_container.hpp:1022-1030. -/
def replace (m : Mem V) (c : Container V) (x : Id) (v : V) (assignThrows : Bool) (e : Nat → Env) : Out (Res V) :=
  match replaceC c.budget c.hd m.val x v assignThrows e c.ls with
  | .ok r => .ok ⟨{ m with val := r.2.1 }, { c with ls := r.1 }, x, r.2.2⟩
  | .threw r => .threw ⟨{ m with val := r.2.1 }, { c with ls := r.1 }, x, false⟩
  | .ub => .ub
  | .hang => .hang

/-- The exception in flight leaves through a handler that does `erase_(x)`. -/
def eraseThrow (m : Mem V) (c : Container V) (x : Id) : Out (Res V) :=
  match erase m c x with
  | .ok r => .threw ⟨r.m, r.c, 0, false⟩
  | r => r

/-- `delete_node_(x)` and `--node_count`: multi_index_container.hpp:1046-1047, 1053-1054. -/
def deleteCount (m : Mem V) (c : Container V) (x : Id) : Option (Res V) :=
  match m.deleteNode x with
  | none => none
  | some m => some ⟨m, { c with count := c.count - 1 }, x, false⟩

/-- `modify_(mod,x)`: multi_index_container.hpp:1032-1058. `mod v`: the value `mod` leaves in an element with value `v`, and whether it
throws. -/
def modify (m : Mem V) (c : Container V) (x : Id) (mod : V → V × Bool) (e : Nat → Env) : Out (Res V) :=
  let v := mod (m.val x)
  let m := m.assign x v.1
  if v.2 then eraseThrow m c x
  else
    match modifyC c.budget c.hd m.val x e c.ls with
    | .ok (ls, true) => .ok ⟨m, { c with ls := ls }, x, true⟩
    | .ok (ls, false) =>
      match deleteCount m { c with ls := ls } x with
      | none => .ub
      | some r => .ok r
    | .threw (ls, _) =>
      match deleteCount m { c with ls := ls } x with
      | none => .ub
      | some r => .threw r
    | .ub => .ub
    | .hang => .hang

/-- `modify_(mod,back_,x)`: multi_index_container.hpp:1060-1103. `e`, `e'`: the environment of `modify_rollback_` and of
`check_rollback_`. -/
def modifyRb (m : Mem V) (c : Container V) (x : Id) (mod back : V → V × Bool) (e e' : Nat → Env) : Out (Res V) :=
  let v := mod (m.val x)
  let m := m.assign x v.1
  if v.2 then eraseThrow m c x                              -- 1064-1067
  else
    match rollbackC c.budget c.hd m.val x e c.ls with
    | .ub => .ub
    | .hang => .hang
    | .ok (ls, true) => .ok ⟨m, { c with ls := ls }, x, true⟩  -- 1096
    | .ok (ls, false) =>                                     -- 1090-1095
      let c := { c with ls := ls }
      let v := back (m.val x)
      let m := m.assign x v.1
      if v.2 then eraseThrow m c x                          -- 1098-1101
      else
        match checkC c.budget c.hd m.val x e' c.ls with
        | .ub => .ub
        | .hang => .hang
        | .threw _ => eraseThrow m c x                      -- 1098-1101
        | .ok true => .ok ⟨m, c, x, false⟩
        | .ok false =>
          match erase m c x with
          | .ok r => .ok { r with b := false }
          | r => r
    | .threw (ls, _) =>                                      -- 1075-1087
      let c := { c with ls := ls }
      let v := back (m.val x)
      let m := m.assign x v.1
      if v.2 then eraseThrow m c x
      else
        match checkC c.budget c.hd m.val x e' c.ls with
        | .ub => .ub
        | .hang => .hang
        | .threw _ => eraseThrow m c x
        | .ok true => eraseThrow m c x                      -- BOOST_RETHROW (1079) is caught by the handler at 1081
        | .ok false =>
          match erase m c x with                            -- 1078
          | .ok r => eraseThrow r.m r.c x                   -- and again at 1082
          | r => r

/-- `transfer_(x,n)`: multi_index_container.hpp:771-782, index_base.hpp:136-145; `c` receives the node `x` of `d`. The result has both
containers. Simplification: the links of the two containers are separate; the source's are read and written inside the innermost
call, before the destination links the node, as here. -/
def transfer (m : Mem V) (c d : Container V) (x : Id) (e : Nat → Env) : Out (Res V × Container V) :=
  match insertC c.budget c.hd m.val none c.count d (unlinkAll m d x) x e x c.ls with
  | .ok r =>
    if r.res = r.xr then .ok (⟨m, { c with ls := r.ls, count := c.count + 1 }, r.res, true⟩, r.m)
    else .ok (⟨m, { c with ls := r.ls }, r.res, false⟩, r.m)
  | .threw r => .threw (⟨m, { c with ls := r.ls }, 0, false⟩, r.m)
  | .ub => .ub
  | .hang => .hang

end Container

/-- What a constructor is told about one index: comparison, hash, equality, initial bucket count and load policy, and the memory
its arrays get. -/
inductive Init (V : Type) where
  | ord (u : Bool) (lt : V → V → Bool)
  | hash (c : Hash.Cat) (eq : V → V → Bool) (hf : V → Nat) (pol : Pol) (n : Nat) (base : Id)
  | seq
  | rnd (junk : Nat → Id)

/-- Constructor of an index: ord_index_impl.hpp:726-733 (`empty_initialize`), hashed_index.hpp:747-764 (`buckets(header,n)`,
bucket_array.hpp:142-147), sequenced_index.hpp:675-680, random_access_index.hpp:754-760 (`ptrs(header,0)`,
rnd_index_ptr_array.hpp:50-58). `z`: what the memory holds beforehand is arbitrary, here `z` everywhere. -/
def Init.layer (hd z : Id) : Init V → Layer V
  | .ord u lt => .ord u lt (Ord.emptyInit ⟨fun _ => z, fun _ => z, fun _ => z, fun _ => .red, fun _ => z⟩ hd)
  | .hash c eq hf pol n base =>
    let a : Hash.Arr := ⟨base, Hash.sizeFor Hash.sizes n⟩
    .hash c eq hf pol (pol.load a.size) (Hash.clear ⟨fun _ => z, fun _ => z⟩ a hd) a
  | .seq => .seq (Seq.Heap.emptyInit ⟨fun _ => z, fun _ => z⟩ hd)
  | .rnd junk => .rnd { arr := upd junk 0 hd, up := upd (fun _ => z) hd 0, size := 0, cap := 0 }

/-- Constructors of an empty container: multi_index_container.hpp:185-216. `hd`: address of the header node. -/
def Container.new (hd z : Id) (is : List (Init V)) : Container V := ⟨hd, is.map (·.layer hd z), 0⟩

end MI.Cont
