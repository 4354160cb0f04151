import Verif.Prelude
/-!
# Safe mode: the registry of iterators

Models `safe_iterator_base`, `safe_container_base`, `safe_iterator` and the functions on them (detail/safe_mode.hpp). Every iterator object is
registered with the `safe_container` of its index, in a singly linked intrusive list. Iterator objects and safe containers are addresses; 0 is the
null pointer. Locking is left out here; threads are the subject of `Verif/Mt`. Loops take a budget `n`; running out of it, or following a null pointer, is `none`.
-/
namespace MI.Safe
open MI

/-- The members of iterator objects and of safe containers. -/
structure Reg where
  /-- `cont` -/
  cont : Nat → Nat
  /-- `next` of an iterator -/
  next : Nat → Nat
  /-- `unchecked_` -/
  unchecked : Nat → Bool
  /-- the node the adapted iterator (`base_reference()`) points to -/
  node : Nat → Id
  /-- `header.next` of a safe container -/
  head : Nat → Nat

namespace Reg

/-- `prev_->next`, `prev_` being an iterator or (`none`) the header of `s`. -/
def nextOf (r : Reg) (s : Nat) : Option Nat → Nat
  | none => r.head s
  | some p => r.next p

/-- `prev_->next=v`. -/
def setNext (r : Reg) (s : Nat) (prev : Option Nat) (v : Nat) : Reg :=
  match prev with
  | none => { r with head := upd r.head s v }
  | some p => { r with next := upd r.next p v }

/-- `attach(cont_)`: safe_mode.hpp:413-424. -/
def attach (r : Reg) (it s : Nat) : Reg :=
  let r := { r with cont := upd r.cont it s }
  if s = 0 then r
  else { r with next := upd r.next it (r.head s), head := upd r.head s it }

/-- The loop of `detach()`: safe_mode.hpp:433-434. Returns `prev_`. -/
def findPrev (r : Reg) (s it : Nat) : Nat → Option Nat → Option (Option Nat)
  | 0, _ => none
  | n + 1, prev =>
    let y := r.nextOf s prev
    if y = it then some prev
    else if y = 0 then none
    else findPrev r s it n (some y)

/-- `detach()` (also the destructor, 345-348): safe_mode.hpp:426-438. -/
def detach (n : Nat) (r : Reg) (it : Nat) : Option Reg :=
  if r.cont it = 0 then some r
  else
    match r.findPrev (r.cont it) it n none with
    | none => none
    | some prev => some { r.setNext (r.cont it) prev (r.next it) with cont := upd r.cont it 0 }

/-- Constructor from a node and a safe container: safe_mode.hpp:322-326, 464-466. -/
def make (r : Reg) (it s : Nat) (x : Id) : Reg :=
  attach { r with node := upd r.node it x, unchecked := upd r.unchecked it false } it s

/-- Default constructor: safe_mode.hpp:320, 461. (The node is uninitialized: `x` is arbitrary.) -/
def blank (r : Reg) (it : Nat) (x : Id) : Reg :=
  { r with cont := upd r.cont it 0, next := upd r.next it 0, unchecked := upd r.unchecked it false, node := upd r.node it x }

/-- Copy constructor: safe_mode.hpp:328-332, 471. -/
def copy (r : Reg) (it a : Nat) : Reg :=
  attach { r with node := upd r.node it (r.node a), unchecked := upd r.unchecked it (r.unchecked a) } it (r.cont a)

/-- `check_valid_iterator(it)`: safe_mode.hpp:149-153. -/
def checkValid (r : Reg) (it : Nat) : Bool := r.cont it != 0 || r.unchecked it

/-- `operator=`: safe_mode.hpp:334-343, 473-479, the check having passed. -/
def assign (n : Nat) (r : Reg) (it a : Nat) : Option Reg :=
  let s := r.cont a
  let r := { r with node := upd r.node it (r.node a), unchecked := upd r.unchecked it (r.unchecked a) }
  if r.cont it = s then some r
  else
    match r.detach n it with
    | none => none
    | some r => some (r.attach it s)

/-- `uncheck()`: safe_mode.hpp:313-317, and `load`: 571-576; `x` is what is read. -/
def load (n : Nat) (r : Reg) (it : Nat) (x : Id) : Option Reg :=
  match { r with node := upd r.node it x }.detach n it with
  | none => none
  | some r => some { r with unchecked := upd r.unchecked it true }

/-- The common part of the loops at safe_mode.hpp:598-607, 630-639 and 671-682: every iterator `y` in the list of `s` with `p y` is taken out of it and
attached to `t` (`t = 0`: to nothing). First argument: budget. -/
def sweep (p : Nat → Bool) (s t : Nat) : Nat → Option Nat → Reg → Option Reg
  | 0, _, _ => none
  | n + 1, prev, r =>
    let y := r.nextOf s prev
    if y = 0 then some r
    else if p y then sweep p s t n prev ((r.setNext s prev (r.next y)).attach y t)
    else sweep p s t n (some y) r

/-- `detach_equivalent_iterators(it)`: safe_mode.hpp:621-643. -/
def detachEquivalent (n : Nat) (r : Reg) (it : Nat) : Option Reg :=
  if r.cont it = 0 then some r
  else
    match sweep (fun y => y != it && r.node y == r.node it) (r.cont it) 0 n none r with
    | none => none
    | some r => r.detach n it

/-- `transfer_equivalent_iterators(dst,it)` for the same iterator type: safe_mode.hpp:658-686. `it` is passed by value, and is destroyed at the end;
`t` is the address of the temporary `dst.end()`, `s` the safe container of `dst`, `hd` its header. -/
def transferEquivalent (n : Nat) (r : Reg) (it t s : Nat) (hd : Id) : Option Reg :=
  if r.cont it = 0 then r.detach n it
  else
    match (r.make t s hd).detach n t with
    | none => none
    | some r =>
      match sweep (fun y => y != it && r.node y == r.node it) (r.cont it) s n none r with
      | none => none
      | some r => r.detach n it

/-- `detach_iterators(x)` of an index with the safe container `s`: ord_index_impl.hpp:1339-1343, hashed_index.hpp:1648-1652,
sequenced_index.hpp:943-947, random_access_index.hpp:1015-1019. `it`: address of the local iterator, which is destroyed at the end. -/
def detachIterators (n : Nat) (r : Reg) (it s : Nat) (x : Id) : Option Reg :=
  match (r.make it s x).detachEquivalent n it with
  | none => none
  | some r => r.detach n it

/-- `transfer_iterators(dst,x)`: ord_index_impl.hpp:1345-1350, hashed_index.hpp:1654-1659, sequenced_index.hpp:949-954, random_access_index.hpp:1021-1026,
safe_mode.hpp:649-654, 688-693.
`same`: `dst` has the same iterator type; `it`, `it2`, `t`: addresses of the local iterator, of the parameter passed by value, of `dst.end()`. -/
def transferIterators (n : Nat) (r : Reg) (it it2 t s d : Nat) (hd x : Id) (same : Bool) : Option Reg :=
  if same then
    match ((r.make it s x).copy it2 it).transferEquivalent n it2 t d hd with
    | none => none
    | some r => r.detach n it
  else r.detachIterators n it s x

/-- `detach_dereferenceable_iterators()`: safe_mode.hpp:595-608. `t`: address of `end_`, `hd`: the node of `end()`. -/
def detachDereferenceable (n : Nat) (r : Reg) (t s : Nat) (hd : Id) : Option Reg :=
  let r := r.make t s hd
  match sweep (fun y => r.node y != r.node t) s 0 n none r with
  | none => none
  | some r => r.detach n t

/-- The loops `for(it=header.next;it;it=it->next)it->cont=v`: safe_mode.hpp:394, 400, 401. -/
def setAll (v : Nat) : Nat → Nat → Reg → Option Reg
  | 0, _, _ => none
  | n + 1, y, r => if y = 0 then some r else setAll v n (r.next y) { r with cont := upd r.cont y v }

/-- `~safe_container_base()`: safe_mode.hpp:388-396. -/
def destroyContainer (n : Nat) (r : Reg) (s : Nat) : Option Reg :=
  match r.setAll 0 n (r.head s) with
  | none => none
  | some r => some { r with head := upd r.head s 0 }

/-- `safe_container_base()`: safe_mode.hpp:375, 320 (the header). -/
def newContainer (r : Reg) (s : Nat) : Reg := { r with head := upd r.head s 0 }

/-- `swap`: safe_mode.hpp:398-404 (`header.cont` is always null). -/
def swap (n : Nat) (r : Reg) (s t : Nat) : Option Reg :=
  match r.setAll t n (r.head s) with
  | none => none
  | some r =>
    match r.setAll s n (r.head t) with
    | none => none
    | some r => some { r with head := upd (upd r.head s (r.head t)) t (r.head s) }

end Reg
end MI.Safe
