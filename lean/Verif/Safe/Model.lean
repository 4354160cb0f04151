import Verif.Safe.Registry
import Verif.Cont.World
/-!
# Safe mode: programs with iterators

A `State` is a program (`World`) compiled in safe mode together with its iterator objects: every index of every container has a member `safe`
(a safe container, identified by its address), and the iterators alive are registered with these. What is modelled here are the lines under
`#if defined(BOOST_MULTI_INDEX_ENABLE_SAFE_MODE)` in the indices.
-/
namespace MI.Safe
open MI MI.Cont
variable {V : Type}

/-- Addresses of the iterators local to an operation. -/
structure Tmp where
  a : Nat
  b : Nat
  c : Nat

/-- The safe mode part of `extract_(x,invalidate_iterators())`: ord_index_impl.hpp:881-891, hashed_index.hpp:970-979, sequenced_index.hpp:758-767,
random_access_index.hpp:847-856, invalidate_iterators.hpp:30-36 (an iterator type that is never the same). The list has the safe containers of the
indices, outermost first; an index deals with its iterators after the ones below it. -/
def extractR (n t : Nat) (x : Id) : List Nat → Reg → Option Reg
  | [], r => some r
  | s :: ss, r =>
    match extractR n t x ss r with
    | none => none
    | some r => r.detachIterators n t s x

/-- The safe mode part of `extract_(x,dst)` with the indices of a container with header `hd` as `dst` (index_access_sequence.hpp:36-73). For every index: its safe
container, that of the destination, and whether the iterator types are the same. -/
def transferR (n : Nat) (t : Tmp) (hd x : Id) : List (Nat × Nat × Bool) → Reg → Option Reg
  | [], r => some r
  | (s, d, same) :: ss, r =>
    match transferR n t hd x ss r with
    | none => none
    | some r => r.transferIterators n t.a t.b t.c s d hd x same

/-- The safe mode part of `clear_()`: ord_index_impl.hpp:898-906, hashed_index.hpp:1015-1023, sequenced_index.hpp:779-787,
random_access_index.hpp:866-874. -/
def clearR (n t : Nat) (hd : Id) : List Nat → Reg → Option Reg
  | [], r => some r
  | s :: ss, r =>
    match clearR n t hd ss r with
    | none => none
    | some r => r.detachDereferenceable n t s hd

/-- Destruction of the indices of a container: their `safe` members are destroyed, outermost first. -/
def destroyR (n : Nat) : List Nat → Reg → Option Reg
  | [], r => some r
  | s :: ss, r =>
    match r.destroyContainer n s with
    | none => none
    | some r => destroyR n ss r

/-- Construction of the indices of a container (in any order). -/
def newR : List Nat → Reg → Reg
  | [], r => r
  | s :: ss, r => newR ss (r.newContainer s)

/-- The safe mode part of `swap_` and `swap_elements_`: ord_index_impl.hpp:909-933, hashed_index.hpp:1026-1056, sequenced_index.hpp:790-807,
random_access_index.hpp:877-898. -/
def swapR (n : Nat) : List Nat → List Nat → Reg → Option Reg
  | s :: ss, t :: ts, r =>
    match r.swap n s t with
    | none => none
    | some r => swapR n ss ts r
  | _, _, r => some r

/-- `modify_(x)` with its safe mode part: ord_index_impl.hpp:964-1026, hashed_index.hpp:1085-1145, sequenced_index.hpp:815-839,
random_access_index.hpp:906-930. Without the registry this is `Cont.modifyC`. `nr`: budget of the loops of the registry; `t`: address of local iterators. -/
def modifyS (n nr t : Nat) (hd : Id) (val : Id → V) (x : Id) : (Nat → Env) → List (Layer V) → List Nat → Reg → Out (List (Layer V) × Bool × Reg)
  | _, [], _, r => .ok ([], true, r)
  | _, _ :: _, [], _ => .ub
  | e, L :: Ls, s :: ss, r =>
    match L.inPlace n hd val (e 0) x with
    | .ub => .ub
    | .hang => .hang
    | .threw _ =>
      match extractC n hd x (L :: Ls), extractR nr t x (s :: ss) r with
      | some Ls, some r => .threw (Ls, false, r)
      | _, _ => .hang
    | .ok b =>
      match (if b then some (L, PtRes.accept .tail)
        else (L.unlink n hd x).map (fun L => (L, L.point n hd val (e 0) none x))) with
      | none => .hang
      | some (_, .hang) => .hang
      | some (L, .threw) =>
        match extractC n hd x Ls, extractR nr t x ss r with
        | some Ls, some r =>
          match r.detachIterators nr t s x with
          | none => .hang
          | some r => .threw (L :: Ls, false, r)
        | _, _ => .hang
      | some (L, .reject _) =>
        match extractC n hd x Ls, extractR nr t x ss r with
        | some Ls, some r =>
          match r.detachIterators nr t s x with
          | none => .hang
          | some r => .ok (L :: Ls, false, r)
        | _, _ => .hang
      | some (L, .accept pt) =>
        match (if b then some L else L.link n hd x pt) with
        | none => .hang
        | some L =>
          match modifyS n nr t hd val x (tl e) Ls ss r with
          | .ub => .ub
          | .hang => .hang
          | .ok (Ls, true, r) => .ok (L :: Ls, true, r)
          | .ok (Ls, false, r) =>
            match L.unlink n hd x, r.detachIterators nr t s x with
            | some L, some r => .ok (L :: Ls, false, r)
            | _, _ => .hang
          | .threw (Ls, _, r) =>
            match L.unlink n hd x, r.detachIterators nr t s x with
            | some L, some r => .threw (L :: Ls, false, r)
            | _, _ => .hang

/-- Does `modify_(mod,back_,x)` (multi_index_container.hpp:1060-1103) call `erase_(x)`? The control flow is that of `Container.modifyRb`. -/
def rbErases (m : Mem V) (c : Container V) (x : Id) (mod back : V → V × Bool) (e e' : Nat → Env) : Bool :=
  let v := mod (m.val x)
  let m := m.assign x v.1
  if v.2 then true
  else
    match rollbackC c.budget c.hd m.val x e c.ls with
    | .ok (_, true) => false
    | .ok (ls, false) =>
      let v := back (m.val x)
      let m := m.assign x v.1
      if v.2 then true
      else
        match checkC c.budget c.hd m.val x e' ls with
        | .ok true => false
        | _ => true
    | .threw _ => true
    | _ => false

/-- Have two indices the same iterator type? Iterators of ordered indices do not depend on uniqueness (ord_index_impl.hpp:176-181), those of hashed indices
do (hashed_index.hpp:151-161). (Containers between which elements can be transferred have the same node type; so kinds agree otherwise.) -/
def sameIter : Layer V → Layer V → Bool
  | .ord _ _ _, .ord _ _ _ => true
  | .hash c _ _ _ _ _ _, .hash c' _ _ _ _ _ _ => c = c'
  | .seq _, .seq _ => true
  | .rnd _, .rnd _ => true
  | _, _ => false

/-- State of a program in safe mode: `live` are the iterator objects that exist, `sid` has the safe containers of the indices of each container. -/
structure State (V : Type) where
  w : World V
  reg : Reg
  live : List Nat
  sid : List (List Nat)

/-- Budget of the loops of the registry. -/
def State.budget (s : State V) : Nat := s.live.length + 4

/-- The safe mode part of an operation of the library. `ids`: addresses of the `safe` members of the container constructed. -/
def State.regStep (s : State V) (t : Tmp) (ids : List Nat) : Op V → Option Reg
  | .erase i x | .extract i x => extractR s.budget t.a x (s.sid.getD i []) s.reg
  | .clear i =>
    match s.w.cs[i]? with
    | none => none
    | some c => clearR s.budget t.a c.hd (s.sid.getD i []) s.reg
  | .destroy i => destroyR s.budget (s.sid.getD i []) s.reg
  | .modify i x mod e =>
    match s.w.cs[i]? with
    | none => none
    | some c =>
      let v := mod (s.w.m.val x)
      if v.2 then extractR s.budget t.a x (s.sid.getD i []) s.reg
      else
        match modifyS c.budget s.budget t.a c.hd (s.w.m.assign x v.1).val x e c.ls (s.sid.getD i []) s.reg with
        | .ok (_, _, r) | .threw (_, _, r) => some r
        | _ => none
  | .modifyRb i x mod back e e' =>
    match s.w.cs[i]? with
    | none => none
    | some c => if rbErases s.w.m c x mod back e e' then extractR s.budget t.a x (s.sid.getD i []) s.reg else some s.reg
  | .transfer i j x e =>
    match s.w.cs[i]?, s.w.cs[j]? with
    | some c, some d =>
      match c.transfer s.w.m d x e with
      | .ok (r, _) =>
        if r.b then   -- the node has been accepted by all indices: extract_for_transfer_ has been called, index_base.hpp:136-145
          transferR s.budget t c.hd x ((s.sid.getD j []).zip ((s.sid.getD i []).zip (List.zipWith sameIter d.ls c.ls))) s.reg
        else some s.reg
      | _ => some s.reg
    | _, _ => none
  | .swap i j | .swapElements i j => swapR s.budget (s.sid.getD i []) (s.sid.getD j []) s.reg
  | .new _ _ _ | .copy _ _ _ _ _ _ | .newLike _ _ _ _ _ _ => some (newR ids s.reg)
  | _ => some s.reg

/-- The safe containers after an operation that led to `w'`. -/
def State.sidStep (s : State V) (ids : List Nat) (w' : World V) : Op V → List (List Nat)
  | .destroy i => s.sid.eraseIdx i
  | _ => if s.w.cs.length < w'.cs.length then s.sid ++ [ids] else s.sid

/-- Operations on iterators. -/
inductive ItOp where
  /-- a member function of index `k` of container `i` returns an iterator to the node `x` (an element, or the header: `end()`), which goes to the new object `it` -/
  | make (it i k : Nat) (x : Id)
  /-- default constructor -/
  | blank (it : Nat) (x : Id)
  /-- copy constructor -/
  | copy (it a : Nat)
  /-- `it=a` -/
  | assign (it a : Nat)
  /-- destructor -/
  | drop (it : Nat)
  /-- `++it`, `--it`, `it+=n`…: `x` is where it gets -/
  | move (it : Nat) (x : Id)
  /-- loading from an archive -/
  | load (it : Nat) (x : Id)

/-- A step of a program: an operation of the library, with addresses of local iterators and of new safe containers, or one on an iterator. -/
inductive SOp (V : Type) where
  | lib (o : Op V) (t : Tmp) (ids : List Nat)
  | it (o : ItOp)

/-- Execution of one step. -/
def State.step (s : State V) : SOp V → Out (State V)
  | .lib o t ids =>
    match s.w.step o, s.regStep t ids o with
    | .ok (w', _), some r => .ok ⟨w', r, s.live, s.sidStep ids w' o⟩
    | .threw (w', _), some r => .threw ⟨w', r, s.live, s.sidStep ids w' o⟩
    | .hang, _ => .hang
    | _, _ => .ub
  | .it (.make it i k x) =>
    match (s.sid.getD i [])[k]? with
    | none => .ub
    | some c => .ok { s with reg := s.reg.make it c x, live := it :: s.live }
  | .it (.blank it x) => .ok { s with reg := s.reg.blank it x, live := it :: s.live }
  | .it (.copy it a) => .ok { s with reg := s.reg.copy it a, live := it :: s.live }
  | .it (.assign it a) =>
    match s.reg.assign s.budget it a with
    | none => .ub
    | some r => .ok { s with reg := r }
  | .it (.drop it) =>
    match s.reg.detach s.budget it with
    | none => .ub
    | some r => .ok { s with reg := r, live := s.live.erase it }
  | .it (.move it x) => .ok { s with reg := { s.reg with node := upd s.reg.node it x } }
  | .it (.load it x) =>
    match s.reg.load s.budget it x with
    | none => .ub
    | some r => .ok { s with reg := r }

/-- The address `t` is that of a new object. -/
def State.NewIt (s : State V) (t : Nat) : Prop := t ≠ 0 ∧ t ∉ s.live

/-- The number of indices of the container an operation constructs. -/
def World.newIndices (w : World V) : Op V → Nat
  | .new _ _ is => is.length
  | .copy i _ _ _ _ _ | .newLike i _ _ _ _ _ => ((w.cs[i]?).map (fun c => c.ls.length)).getD 0
  | _ => 0

/-- Containers between which elements are transferred have the same node type, in particular as many indices (node_handle.hpp:248-252). -/
def World.Compatible (w : World V) : Op V → Prop
  | .transfer i j _ _ => ∀ c d, w.cs[i]? = some c → w.cs[j]? = some d → d.ls.length = c.ls.length
  | _ => True

/-- What a program may do, and what may be assumed of addresses. -/
def State.Legal (s : State V) : SOp V → Prop
  | .lib o t ids => s.w.Legal o ∧ World.Compatible s.w o ∧ (∀ a ∈ [t.a, t.b, t.c], s.NewIt a) ∧ [t.a, t.b, t.c].Nodup ∧ ids.length = World.newIndices s.w o ∧
    ids.Nodup ∧ ∀ a ∈ ids, a ≠ 0 ∧ a ∉ s.sid.flatten
  | .it (.make it i k x) => s.NewIt it ∧ ∃ c, s.w.cs[i]? = some c ∧ k < c.ls.length ∧ x ∈ c.hd :: c.elems
  | .it (.blank it _) => s.NewIt it
  | .it (.copy it a) => s.NewIt it ∧ a ∈ s.live
  | .it (.assign it a) => it ∈ s.live ∧ a ∈ s.live ∧ s.reg.checkValid a = true
  | .it (.drop it) => it ∈ s.live
  | .it (.move it x) => it ∈ s.live ∧ ∃ (i k : Nat) (c : Container V), s.w.cs[i]? = some c ∧ (s.sid.getD i [])[k]? = some (s.reg.cont it) ∧ x ∈ c.hd :: c.elems
  | .it (.load it _) => it ∈ s.live

/-- The states a program in safe mode can be in. -/
inductive SReach : State V → Prop where
  | init (val : Id → V) (r : Reg) : (∀ c, r.head c = 0) → SReach ⟨⟨⟨val, [], []⟩, [], []⟩, r, [], []⟩
  | step {s s' : State V} {o : SOp V} : SReach s → s.Legal o → (s.step o = .ok s' ∨ s.step o = .threw s') → SReach s'

end MI.Safe
