import Verif.Mt.Spec
/-!
# Threads and safe mode: the code

The functions of detail/safe_mode.hpp and detail/scoped_bilock.hpp that work on the lists of iterators, as programs whose steps are single accesses to shared memory
or single operations on a mutex (`BOOST_HAS_THREADS` defined). Any number of threads run such programs, their steps interleaved in any way. Iterator objects and safe
containers are addresses, and a safe container stands for its mutex too; 0 is the null pointer. The members of the adapted iterator and `unchecked_` are one memory location (`val`).
Memory of an iterator object before its construction is modelled as holding a null `cont`, which no constructor reads.
-/
namespace MI.Mt
open MI

/-- The shared memory: the members of iterator objects and of safe containers: safe_mode.hpp:365-367, 406-410. -/
structure Mem where
  /-- `cont` -/
  cont : Nat → Nat
  /-- `next` of an iterator -/
  next : Nat → Nat
  /-- the adapted iterator, and `unchecked_` -/
  val : Nat → Id × Bool
  /-- `header.next` of a safe container -/
  head : Nat → Nat
  /-- `mutex`: the thread that has locked it -/
  mtx : Nat → Option Tid

/-- A `next` member: that of an iterator or that of the header of a safe container. -/
inductive Link
  | head (s : Nat)
  | next (y : Nat)
  deriving DecidableEq

/-- `prev_->next` -/
def Mem.link (m : Mem) : Link → Nat
  | .head s => m.head s
  | .next y => m.next y

/-- `prev_->next=v` -/
def Mem.setLink (m : Mem) (p : Link) (v : Nat) : Mem :=
  match p with
  | .head s => { m with head := upd m.head s v }
  | .next y => { m with next := upd m.next y v }

/-- What a thread has still to do. -/
inductive Code
  | done
  /-- a null pointer has been followed, or an assertion of safe mode has failed -/
  | crash
  | rdCont (y : Nat) (k : Nat → Code)
  | wrCont (y v : Nat) (k : Code)
  | rdVal (y : Nat) (k : Id × Bool → Code)
  | wrVal (y : Nat) (v : Id × Bool) (k : Code)
  | rdLink (p : Link) (k : Nat → Code)
  | wrLink (p : Link) (v : Nat) (k : Code)
  | lock (s : Nat) (k : Code)
  | unlock (s : Nat) (k : Code)
  /-- `for(prev_=p;(next_=prev_->next)!=it;prev_=next_){}`, then `k prev_` -/
  | find (it : Nat) (p : Link) (k : Link → Code)
  /-- `for(prev_=p;(next_=prev_->next)!=0;){…}` of the three loops at safe_mode.hpp:599-607, 631-639, 672-682; `neg`: the first of them -/
  | sweep (neg : Bool) (it t : Nat) (p : Link) (k : Code)
  /-- `for(;y;y=y->next)y->cont=v` -/
  | setAll (v y : Nat) (k : Code)
  /-- `std::swap(header.next,x.header.next)`: safe_mode.hpp:403, as one step -/
  | xchg (s d : Nat) (k : Code)

/-- `a==b`, with its checks, for iterators: safe_mode.hpp:502-508, 149-153, 190-196. The safe container stands for the container it belongs to. -/
def testCode (a b : Nat) (k : Bool → Code) : Code :=
  .rdCont a fun c => .rdVal a fun v => .rdCont b fun d => .rdVal b fun w =>
    if (c ≠ 0 ∨ v.2) ∧ (d ≠ 0 ∨ w.2) ∧ ((c ≠ 0 ∧ d ≠ 0 ∧ c = d) ∨ v.2 ∨ w.2) then k (v.1 == w.1) else .crash

/-- The bodies of the loops at safe_mode.hpp:602-606, 634-638, 675-681 with `next_` being `y`. `t`: the safe container iterators are transferred to, or null. -/
def sweepBody (neg : Bool) (it t : Nat) (p : Link) (y : Nat) (k : Code) : Code :=
  let rest := fun q => Code.sweep neg it t q k
  let cut := Code.rdLink (.next y) fun z => .wrLink p z <| .wrCont y t <|
    if t = 0 then rest p else .rdLink (.head t) fun h => .wrLink (.next y) h <| .wrLink (.head t) y <| rest p
  if neg then testCode y it fun b => if b then rest (.next y) else cut
  else if y = it then rest (.next y)
  else testCode y it fun b => if b then cut else rest (.next y)

/-- One step of thread `t`; `none`: it cannot run now (it waits for a mutex), or not any more. -/
def Code.exec (t : Tid) (m : Mem) : Code → Option (Code × Mem)
  | .done => none
  | .crash => none
  | .rdCont y k => some (k (m.cont y), m)
  | .wrCont y v k => some (k, { m with cont := upd m.cont y v })
  | .rdVal y k => some (k (m.val y), m)
  | .wrVal y v k => some (k, { m with val := upd m.val y v })
  | .rdLink p k => some (k (m.link p), m)
  | .wrLink p v k => some (k, m.setLink p v)
  | .lock s k => if m.mtx s = none then some (k, { m with mtx := upd m.mtx s (some t) }) else none
  | .unlock s k => some (k, { m with mtx := upd m.mtx s none })
  | .find it p k =>
    let y := m.link p
    some (if y = it then k p else if y = 0 then .crash else .find it (.next y) k, m)
  | .sweep neg it t p k =>
    let y := m.link p
    some (if y = 0 then k else sweepBody neg it t p y k, m)
  | .setAll v y k =>
    if y = 0 then some (k, m) else some (.rdLink (.next y) fun z => .setAll v z k, { m with cont := upd m.cont y v })
  | .xchg s d k => some (k, { m with head := upd (upd m.head s (m.head d)) d (m.head s) })

/-- `attach(cont_)`: safe_mode.hpp:413-424. -/
def attachCode (it s : Nat) (k : Code) : Code :=
  .wrCont it s <|
    if s = 0 then k
    else .lock s <| .rdLink (.head s) fun h => .wrLink (.next it) h <| .wrLink (.head s) it <| .unlock s k

/-- `detach()`, also the destructor: safe_mode.hpp:426-438, 345-348. -/
def detachCode (it : Nat) (k : Code) : Code :=
  .rdCont it fun s =>
    if s = 0 then k
    else .lock s <| .find it (.head s) fun p => .rdLink (.next it) fun z => .wrLink p z <| .wrCont it 0 <| .unlock s k

/-- Constructor from a node and a safe container: safe_mode.hpp:322-326, 464-466. -/
def makeCode (it s : Nat) (x : Id) (k : Code) : Code := .wrVal it (x, false) <| attachCode it s k

/-- Copy constructor: safe_mode.hpp:328-332, 471. -/
def copyCode (it a : Nat) (k : Code) : Code := .rdVal a fun v => .wrVal it v <| .rdCont a fun s => attachCode it s k

/-- `operator=`: safe_mode.hpp:334-343, 473-479. -/
def assignCode (it a : Nat) (k : Code) : Code :=
  .rdCont a fun c => .rdVal a fun v =>
    if c ≠ 0 ∨ v.2 then
      .wrVal it v <| .rdCont a fun s => .rdCont it fun c => if c = s then k else detachCode it <| attachCode it s k
    else .crash

/-- `load`: safe_mode.hpp:571-576, 313-317. -/
def loadCode (it : Nat) (x : Id) (k : Code) : Code :=
  .rdVal it fun v => .wrVal it (x, v.2) <| detachCode it <| .wrVal it (x, true) k

/-- `*a`: safe_mode.hpp:495-500, 149-159. (`it!=it.owner()->end()` holds or the program is wrong; the comparison with the temporary is made, its outcome not looked at.) -/
def derefCode (a tmp : Nat) (hd : Id) (k : Code) : Code :=
  .rdCont a fun c => .rdVal a fun v =>
    if c ≠ 0 ∨ v.2 then
      if c = 0 then k
      else makeCode tmp c hd <| testCode a tmp fun _ => detachCode tmp k
    else .crash

/-- `detach_equivalent_iterators(it)`: safe_mode.hpp:621-643. -/
def detachEquivalentCode (it : Nat) (k : Code) : Code :=
  .rdCont it fun s =>
    if s = 0 then k
    else .lock s <| .sweep false it 0 (.head s) <| .unlock s <| detachCode it k

/-- `scoped_bilock(mutex1,mutex2)`: scoped_bilock.hpp:36-43. -/
def bilockCode (s d : Nat) (k : Code) : Code :=
  .lock (if s < d then s else d) <| if s = d then k else .lock (if s < d then d else s) k

/-- `~scoped_bilock()`: scoped_bilock.hpp:45-50. -/
def biunlockCode (s d : Nat) (k : Code) : Code :=
  .unlock (if s < d then s else d) <| if s = d then k else .unlock (if s < d then d else s) k

/-- `transfer_equivalent_iterators(dst,it)` for the same iterator type: safe_mode.hpp:658-686. `it` is passed by value and dies at the end. `tmp`: `dst.end()`, `d` the safe
container of `dst`. -/
def transferEquivalentCode (it tmp d : Nat) (hd : Id) (k : Code) : Code :=
  .rdCont it fun s =>
    if s = 0 then detachCode it k
    else makeCode tmp d hd <| .rdCont tmp fun e => detachCode tmp <|
      bilockCode s e <| .sweep false it e (.head s) <| biunlockCode s e <| detachCode it k

/-- The program of an operation. `erase`: `detach_iterators(x)`: ord_index_impl.hpp:1339-1343, hashed_index.hpp:1648-1652, sequenced_index.hpp:943-947,
random_access_index.hpp:1015-1019. `transfer`: `transfer_iterators(dst,x)`: ord_index_impl.hpp:1345-1350, hashed_index.hpp:1654-1659, sequenced_index.hpp:949-954,
random_access_index.hpp:1021-1026. `clear`: `detach_dereferenceable_iterators()`: safe_mode.hpp:595-608. `destroy`: safe_mode.hpp:388-396. `swap`: safe_mode.hpp:398-404. -/
def Op.code : Op → Code
  | .make it s x => makeCode it s x .done
  | .blank it x => .wrVal it (x, false) <| .wrCont it 0 <| .wrLink (.next it) 0 .done
  | .copy it a => copyCode it a .done
  | .assign it a => assignCode it a .done
  | .load it x => loadCode it x .done
  | .drop it => detachCode it .done
  | .compare a b => testCode a b fun _ => .done
  | .deref a tmp hd => derefCode a tmp hd .done
  | .erase it s x => makeCode it s x <| detachEquivalentCode it <| detachCode it .done
  | .clear tmp s hd => makeCode tmp s hd <| .sweep true tmp 0 (.head s) <| detachCode tmp .done
  | .transfer it it2 tmp s d hd x => makeCode it s x <| copyCode it2 it <| transferEquivalentCode it2 tmp d hd <| detachCode it .done
  | .destroy s => .rdLink (.head s) fun y => .setAll 0 y <| .wrLink (.head s) 0 .done
  | .swap s d => .rdLink (.head s) fun y => .setAll d y <| .rdLink (.head d) fun z => .setAll s z <| .xchg s d .done

/-- An operation under way: what it is, and how iterators looked like when it began. -/
structure Thread where
  op : Op
  snap : Nat → View
  code : Code

/-- What an operation under way uses. -/
def Thread.use (th : Thread) : Use := th.op.use th.snap

/-- Memory, the operations under way, and the operations completed, the last one first. -/
structure Sys where
  mem : Mem
  thr : Tid → Option Thread
  hist : List Op

/-- Iterators after operations have been carried out one after the other, from the last one of the list to the first. -/
def after (V : Nat → View) : List Op → Nat → View
  | [] => V
  | o :: os => o.effect (after V os)

/-- Before any iterator exists. -/
def noViews : Nat → View := fun _ => ⟨0, (0, false)⟩

/-- Iterators after the operations completed so far. -/
def Sys.views (σ : Sys) : Nat → View := after noViews σ.hist

/-- No iterators, no locks. -/
def Sys.init : Sys := ⟨⟨fun _ => 0, fun _ => 0, fun _ => (0, false), fun _ => 0, fun _ => none⟩, fun _ => none, []⟩

/-- The thread `t` begins an operation. -/
def Sys.begin (σ : Sys) (t : Tid) (o : Op) : Sys := { σ with thr := upd σ.thr t (some ⟨o, σ.views, o.code⟩) }

/-- The thread `t` makes a step, or finishes its operation. -/
def Sys.run (σ : Sys) (t : Tid) : Option Sys :=
  match σ.thr t with
  | none => none
  | some th =>
    match th.code with
    | .done => some { σ with thr := upd σ.thr t none, hist := th.op :: σ.hist }
    | _ =>
      match th.code.exec t σ.mem with
      | none => none
      | some (c, m) => some { σ with mem := m, thr := upd σ.thr t (some { th with code := c }) }

/-- The states that threads can reach, when `D` says which operations may begin. -/
inductive Reach (D : Sys → Tid → Op → Prop) : Sys → Prop
  | init : Reach D Sys.init
  | begin {σ : Sys} (t : Tid) (o : Op) : Reach D σ → σ.thr t = none → D σ t o → Reach D (σ.begin t o)
  | run {σ σ' : Sys} (t : Tid) : Reach D σ → σ.run t = some σ' → Reach D σ'

/-- The rules for programs with threads: an operation may begin if it is legal and may overlap with all operations under way. -/
def Rules (σ : Sys) (t : Tid) (o : Op) : Prop :=
  o.Legal σ.views ∧ ∀ u th, σ.thr u = some th → u ≠ t → (o.use σ.views).Compat th.use

/-- A memory location. -/
inductive Loc
  | cont (y : Nat)
  | val (y : Nat)
  | link (p : Link)
  deriving DecidableEq

/-- The memory locations the next step of a program accesses, and whether it writes. -/
def Code.access : Code → List (Loc × Bool)
  | .done | .crash | .lock _ _ | .unlock _ _ => []
  | .rdCont y _ => [(.cont y, false)]
  | .wrCont y _ _ => [(.cont y, true)]
  | .rdVal y _ => [(.val y, false)]
  | .wrVal y _ _ => [(.val y, true)]
  | .rdLink p _ => [(.link p, false)]
  | .wrLink p _ _ => [(.link p, true)]
  | .find _ p _ => [(.link p, false)]
  | .sweep _ _ _ p _ => [(.link p, false)]
  | .setAll _ y _ => if y = 0 then [] else [(.cont y, true)]
  | .xchg s d _ => [(.link (.head s), true), (.link (.head d), true)]

end MI.Mt
