import Verif.Cont.World
/-!
# Key extractors and `modify_key`

Models member.hpp, identity.hpp, mem_fun.hpp, global_fun.hpp and detail/modify_key_adaptor.hpp. Simplified: an element that is a pointer or a
`reference_wrapper` is modelled together with the object it refers to, so an object referred to by two elements of a container is not covered.
-/
namespace MI.Key
open MI MI.Cont
variable {V C K : Type}

/-- What a key extractor for class `C` can be applied to: an object of class `C`, a `reference_wrapper` to one, or a chained pointer (a pointer to
one of these): member.hpp:32-41. -/
inductive Arg (C : Type) where
  | obj (c : C)
  | ref (c : C)
  | ptr (t : Arg C)

/-- A part of an object to which a read/write key extractor gives a reference: `get v` is its value in `v`, `set v k` the object after the assignment of
`k` to it. The laws are those of C++ data members. -/
structure Part (V K : Type) where
  get : V → K
  set : V → K → V
  get_set : ∀ v k, get (set v k) = k
  set_get : ∀ v, set v (get v) = v
  set_set : ∀ v k l, set (set v k) l = set v l

/-- `operator()` of a key extractor of which the overload for `const Class&` computes `f`: const_member_base member.hpp:43-73, non_const_member_base
75-114, identity.hpp:38-126, mem_fun.hpp:56-262, global_fun.hpp:52-163. A chained pointer is dereferenced and the operator applied to the result; a
reference wrapper gives the object. -/
def extract (f : C → K) : Arg C → K
  | .obj c => f c
  | .ref c => f c
  | .ptr t => extract f t

/-- The element after an assignment to the reference that `operator()` of a read/write key extractor returns, which refers to the part `p` of the
object: member.hpp:43-114, identity.hpp:38-126. -/
def assign (p : Part C K) : Arg C → K → Arg C
  | .obj c, k => .obj (p.set c k)
  | .ref c, k => .ref (p.set c k)
  | .ptr t, k => .ptr (assign p t k)

/-- `identity`: the reference is to the object itself: identity.hpp:112-120. -/
def Part.self : Part V V := ⟨fun v => v, fun _ k => k, fun _ _ => rfl, fun _ => rfl, fun _ _ _ => rfl⟩

/-- `modify_key_adaptor<Fun,Value,KeyFromValue>::operator()`, `f(kfv(x))`: modify_key_adaptor.hpp:27-42. `f k`: the key after the call, and whether
the call throws. -/
def adaptor (p : Part V K) (f : K → K × Bool) (v : V) : V × Bool := (p.set v (f (p.get v)).1, (f (p.get v)).2)

end MI.Key

namespace MI.Cont
open MI.Key
variable {V K : Type}

/-- `modify_key(position,mod)`: ord_index_impl.hpp:488-497, hashed_index.hpp:475-484. -/
def World.modifyKey (w : World V) (i : Nat) (x : Id) (p : Part V K) (f : K → K × Bool) (e : Nat → Env) : Out (World V × Ret) :=
  w.step (.modify i x (adaptor p f) e)

/-- `modify_key(position,mod,back)`: ord_index_impl.hpp:499-510, hashed_index.hpp:486-497. -/
def World.modifyKeyRb (w : World V) (i : Nat) (x : Id) (p : Part V K) (f back : K → K × Bool) (e e' : Nat → Env) : Out (World V × Ret) :=
  w.step (.modifyRb i x (adaptor p f) (adaptor p back) e e')

end MI.Cont
