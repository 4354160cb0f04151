import Verif.Ser.Archive
/-!
Model of `load` of `multi_index_container` with the temporary object that each element is read into (`archive_constructed`), and with the addresses under which the archive
tracks the objects it has read. Otherwise as in `Verif/Ser/Archive.lean`.
-/
namespace MI.Ser
open MI MI.Cont
variable {V : Type}

/-- Where an object is: in the temporary number `n`, or in the node `x`. -/
inductive Addr where
  | temp (n : Nat)
  | elem (x : Id)
deriving DecidableEq

/-- The temporaries within their lifetime, and where the archive believes the object number `n` to be. The temporaries of the iterations of the loop are different objects, numbered from 0
(they may well share their memory). -/
structure Temps where
  live : Nat → Bool := fun _ => false
  addr : Nat → Option Addr := fun _ => none

/-- A constructor is called on the memory of temporary `n`. `none`: undefined behaviour, as below. -/
def Temps.construct (s : Temps) (n : Nat) : Option Temps := if s.live n then none else some { s with live := upd s.live n true }

/-- The destructor is called. -/
def Temps.destroy (s : Temps) (n : Nat) : Option Temps := if s.live n then some { s with live := upd s.live n false } else none

/-- `ar>>make_nvp(name,get())`: the archive tracks the object under the address it is read to. -/
def Temps.read (s : Temps) (n : Nat) : Option Temps := if s.live n then some { s with addr := upd s.addr n (some (.temp n)) } else none

/-- `ar.reset_object_address(&x,&get())`. -/
def Temps.reset (s : Temps) (n : Nat) (x : Id) : Option Temps := if s.live n then some { s with addr := upd s.addr n (some (.elem x)) } else none

/-- What throws: `load_construct_data`, reading the element, or reading the pointer to its node, for each of the elements. -/
structure Trouble where
  construct : Nat → Bool := fun _ => false
  read : Nat → Bool := fun _ => false
  add : Nat → Bool := fun _ => false

/-- The call `(&get())->~T()` and the exception on: archive_constructed.hpp:46–48, 61–63 and the destructor, 67–70. -/
def unwind (s : Temps) (n : Nat) (out : Temps → Out α) : Out α :=
  match s.destroy n with
  | some s => out s
  | none => .ub

/-- The constructor of `archive_constructed`: archive_constructed.hpp:53–65 (and 38–51). `short`: the archive is at its end. -/
def archiveConstructed (F : Trouble) (short : Bool) (n : Nat) (s : Temps) : Out Temps :=
  if F.construct n then .threw s
  else
    match s.construct n with
    | none => .ub
    | some s =>
      match s.read n with
      | none => .ub
      | some s => if short || F.read n then unwind s n .threw else .ok s

/-- The loop that loads the elements: multi_index_container.hpp:1178–1187, with index_loader.hpp:49–53 for `lm.add`. `t` numbers the iterations. -/
def loadItemsX (H : Host V) (F : Trouble) (i : Nat) (hd : Id) : Nat → World V → List V → List Id → Nat → Temps → Out (World V × List Id × Temps)
  | 0, w, _, es, _, s => .ok (w, es, s)
  | _ + 1, w, [], es, t, s =>
    match archiveConstructed F true t s with
    | .ok _ => .ub
    | .threw s => .threw (w, es, s)
    | .ub => .ub
    | .hang => .hang
  | n + 1, w, v :: vs, es, t, s =>
    match archiveConstructed F false t s with
    | .ok s =>
      if s.live t = false then .ub
      else
        match w.step (.insert i v (H.node w t) (H.fault w t) (some hd) (H.env w t)) with
        | .ok (w, r) =>
          if r.b then
            match s.reset t r.pos with
            | none => .ub
            | some s =>
              if F.add t then unwind s t fun s => .threw (w, es ++ [r.pos], s)
              else unwind s t fun s => loadItemsX H F i hd n w vs (es ++ [r.pos]) (t + 1) s
          else unwind s t fun s => .threw (w, es, s)
        | .threw (w, _) => unwind s t fun s => .threw (w, es, s)
        | .ub => .ub
        | .hang => .hang
    | .threw s => .threw (w, es, s)
    | .ub => .ub
    | .hang => .hang

/-- The outcome, with what else was found out. -/
def tagged (b : β) : Out α → Out (α × β)
  | .ok a => .ok (a, b)
  | .threw a => .threw (a, b)
  | .ub => .ub
  | .hang => .hang

/-- `load(ar,version)`, for the current version: multi_index_container.hpp:1140–1192. Also returns the nodes of the elements read, and the state of the temporaries. -/
def loadX (H : Host V) (F : Trouble) (f : Mishap) (w : World V) (i : Nat) (A : Archive V) : Out (World V × List Id × Temps) :=
  match w.step (.clear i) with
  | .ok (w, _) =>
    match w.cs[i]? with
    | none => .ub
    | some c =>
      match loadItemsX H F i c.hd A.count w A.items [] 0 {} with
      | .ok (w, es, s) => tagged (es, s) (loadIndices f i es c.ls.length 0 w (A.ptrs.map (Option.map fun n => es.getD n c.hd)))
      | .threw r => .threw r
      | .ub => .ub
      | .hang => .hang
  | .threw (w, _) => .threw (w, [], {})
  | .ub => .ub
  | .hang => .hang

end MI.Ser
