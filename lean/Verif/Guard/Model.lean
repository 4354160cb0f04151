/-!
# Scope guards

Models detail/scope_guard.hpp, which the member functions use to check the invariants of a container when they are left, with
`BOOST_MULTI_INDEX_ENABLE_INVARIANT_CHECKING`. The classes for functions and member functions with 0 to 4 arguments (scope_guard.hpp:126-450) differ in what `execute` calls only,
which is here an action with a number.
-/
namespace MI.Guard

/-- A guard: scope_guard.hpp:60-93, with the call it is to do (scope_guard.hpp:126-139, 301-312). A `null_guard` (scope_guard.hpp:97-118) has none. -/
structure Obj where
  act : Option Nat
  dismissed : Bool

/-- What happens to guards. They are designated by the number of their object. -/
inductive Ev where
  /-- `make_guard`, `make_obj_guard`, and, with a condition, `make_guard_if_c`, `make_obj_guard_if_c` -/
  | make (g a : Nat) (cond : Bool)
  /-- the guard `h` is made as a copy of `g`, as compilers may do when a function returns it -/
  | copy (g h : Nat)
  | dismiss (g : Nat)
  | destroy (g : Nat)

/-- The guards that exist, and the actions run so far, in order. `bad` are the actions that throw, `raised` tells whether an exception left the last destructor. -/
structure St where
  bad : Nat → Bool
  obj : Nat → Option Obj
  log : List Nat
  raised : Bool

/-- No guards. -/
def St.init (bad : Nat → Bool) : St := ⟨bad, fun _ => none, [], false⟩

/-- Object `g` becomes `o`. -/
def St.put (s : St) (g : Nat) (o : Option Obj) : St := { s with obj := fun x => if x = g then o else s.obj x }

/-- `execute` (scope_guard.hpp:132, 307): the call, which may throw. -/
def execute (s : St) (o : Obj) : St :=
  match o.act with
  | some a => { s with log := s.log ++ [a], raised := s.bad a }
  | none => s

/-- `safe_execute` (scope_guard.hpp:80-87). An exception is swallowed. -/
def safeExecute (s : St) (o : Obj) : St := if o.dismissed then s else { execute s o with raised := false }

/-- One event: constructor (scope_guard.hpp:63, 130), copy constructor, which dismisses the original (scope_guard.hpp:74-78), `dismiss` (scope_guard.hpp:64), destructor (scope_guard.hpp:131, 306; that
of `null_guard` does nothing). Events on objects that do not exist have no effect; they are not legal. -/
def step (s : St) : Ev → St
  | .make g a cond => s.put g (some ⟨if cond then some a else none, false⟩)
  | .copy g h =>
    match s.obj g with
    | some o => (s.put g (some { o with dismissed := true })).put h (some ⟨o.act, o.dismissed⟩)
    | none => s
  | .dismiss g =>
    match s.obj g with
    | some o => s.put g (some { o with dismissed := true })
    | none => s
  | .destroy g =>
    match s.obj g with
    | some o => (safeExecute s o).put g none
    | none => s

def run (s : St) (tr : List Ev) : St := tr.foldl step s

/-- What the language guarantees: objects are made where there is none, and used where there is one. -/
def Can (s : St) : Ev → Prop
  | .make g _ _ => s.obj g = none
  | .copy g h => s.obj g ≠ none ∧ s.obj h = none
  | .dismiss g => s.obj g ≠ none
  | .destroy g => s.obj g ≠ none

/-! ## Use by member functions -/

/-- How a function is left. -/
inductive Exit (R E : Type) where
  | returns (r : R)
  | throws (e : E)
  /-- an exception left a destructor -/
  | terminates

/-- The copies of the guard made on its way to the reference `check_invariant_NNN`, the originals of which are destroyed: `n` of them, from guard `g` on. -/
def hand : Nat → Nat → List Ev
  | _, 0 => []
  | g, n + 1 => .copy g (g + 1) :: .destroy g :: hand (g + 1) n

/-- A member function with `BOOST_MULTI_INDEX_CHECK_INVARIANT` (multi_index_container.hpp:72-78, and the same in the indices): the guard is made and handed on in `n` copies, the body is run, and
the guard is destroyed however the body is left. The last component are the states the checks found, in order: the action of the guard is the check of the state at that time (scope_guard.hpp:307). `bad`: the check throws, which it may if `BOOST_MULTI_INDEX_INVARIANT_ASSERT` is defined so (invariant_assert.hpp). -/
def member {σ R E : Type} (bad : Bool) (n : Nat) (body : σ → σ × Exit R E) (s : σ) : σ × Exit R E × List σ :=
  let g := run (.init fun _ => bad) (.make 0 0 true :: hand 0 n)
  let b := body s
  let g' := run g [.destroy n]
  (b.1, if g'.raised then .terminates else b.2, List.replicate g.log.length s ++ List.replicate (g'.log.length - g.log.length) b.1)
end MI.Guard
