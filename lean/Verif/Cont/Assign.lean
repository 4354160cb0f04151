import Verif.Cont.Api
/-!
# Move construction and assignment of containers

These are sequences of the constructors, swaps and destructors of World.lean. A container under construction, or a local one, is the last one
of the program meanwhile.
-/
namespace MI.Cont
open MI
variable {V : Type}

/-- Go on when a step returns; an exception propagates. -/
def andThen (o : Out (World V × Ret)) (f : World V → Out (World V)) : Out (World V) :=
  match o with
  | .ok (w, _) => f w
  | .threw (w, _) => .threw w
  | .ub => .ub
  | .hang => .hang

/-- Do a step that does not throw, and let an exception propagate. -/
def andThrow (o : Out (World V × Ret)) : Out (World V) :=
  match o with
  | .ok (w, _) => .threw w
  | .threw _ => .hang
  | .ub => .ub
  | .hang => .hang

/-- Move constructor, also that with an allocator equal to that of the source: multi_index_container.hpp:297-306, 319-331. -/
def World.moveConstruct (w : World V) (i : Nat) (hd z : Id) (pol : Pol) (e : Nat → Env) (F : CopyFault) : Out (World V) :=
  let n := w.cs.length
  andThen (w.step (.newLike i hd z pol e F)) fun w =>
  andThen (w.step (.swapElements n i)) .ok

/-- What the construction of a container of the elements of another one, with another allocator, is told: see `Op.newLike`, `Op.copy`. -/
structure MoveArgs where
  hd : Id
  z : Id
  pol : Pol
  e : Nat → Env
  F : CopyFault
  hd' : Id
  ns : List Id
  e' : Nat → Env
  F' : CopyFault

/-- Move constructor with an allocator not equal to that of the source: multi_index_container.hpp:319-336, 574-603. The elements are
cloned by moving (`move_clone`, copy_map.hpp:67-71, 106), which differs from copying in what is left in the originals, and these are then destroyed by
`x.clear()`; that is not reached if the exception comes from outside the `BOOST_TRY` block, that is, from the initializers. -/
def World.moveOther (w : World V) (i : Nat) (a : MoveArgs) : Out (World V) :=
  let n := w.cs.length
  andThen (w.step (.newLike i a.hd a.z a.pol a.e a.F)) fun w =>
  match w.step (.copy i a.hd' a.z a.ns a.e' a.F') with
  | .ok (w, _) =>
    andThen (w.step (.clear i)) fun w =>
    andThen (w.step (.swapElements n (n + 1))) fun w =>
    andThen (w.step (.destroy (n + 1))) .ok
  | .threw (w, _) =>
    if a.F'.header || a.F'.index then andThrow (w.step (.destroy n))
    else andThen (w.step (.clear i)) fun w => andThrow (w.step (.destroy n))
  | .ub => .ub
  | .hang => .hang

/-- What the arguments of a move to another allocator must meet. -/
def MoveArgs.Ok (w : World V) (i : Nat) (a : MoveArgs) : Prop :=
  w.Legal (.newLike i a.hd a.z a.pol a.e a.F) ∧
  ∀ w1 r, w.step (.newLike i a.hd a.z a.pol a.e a.F) = .ok (w1, r) → w1.Legal (.copy i a.hd' a.z a.ns a.e' a.F')

/-- Copy assignment, `i=j`: multi_index_container.hpp:360-369. -/
def World.copyAssign (w : World V) (i j : Nat) (hd z : Id) (ns : List Id) (e : Nat → Env) (F : CopyFault) : Out (World V) :=
  let n := w.cs.length
  andThen (w.step (.copy j hd z ns e F)) fun w =>
  andThen (w.step (.swap i n)) fun w =>
  andThen (w.step (.destroy n)) .ok

/-- Move assignment, `i=std::move(j)`, when allocators are propagated or equal: multi_index_container.hpp:371-383. -/
def World.moveAssign (w : World V) (i j : Nat) : Out (World V) := andThen (w.step (.swap i j)) .ok

/-- Move assignment otherwise: multi_index_container.hpp:384-387. -/
def World.moveAssignOther (w : World V) (i j : Nat) (a : MoveArgs) : Out (World V) :=
  let n := w.cs.length
  match w.moveOther j a with
  | .ok w =>
    andThen (w.step (.swap i n)) fun w =>
    andThen (w.step (.destroy n)) .ok
  | .threw w => .threw w
  | .ub => .ub
  | .hang => .hang

/-- Assignment of an initializer list: multi_index_container.hpp:393-409. -/
def World.assignList (H : Host V) (w : World V) (i : Nat) (hd z : Id) (pol : Pol) (e : Nat → Env) (F : CopyFault) (vs : List V) : Out (World V) :=
  let n := w.cs.length
  andThen (w.step (.newLike i hd z pol e F)) fun w =>
  match World.hintedRange H false n w vs hd 0 with
  | .ok w =>
    andThen (w.step (.swapElements n i)) fun w =>
    andThen (w.step (.destroy n)) .ok
  | .threw w => andThrow (w.step (.destroy n))
  | .ub => .ub
  | .hang => .hang

end MI.Cont
