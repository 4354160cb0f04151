/-!
# Which calls convert arguments

Model of detail/is_transparent.hpp and detail/promotes_arg.hpp: how the code finds out, at compile time, if a call `f(x,y)` of a function object
converts an argument. Types are elements of `T`; arguments are constant lvalues, as in the code (`declval<const Arg1&>()`).
-/
namespace MI.Meta

/-- How an overload compares with the overload `template<T,Q> operator()(const T&,const Q&)const` that the code adds, if neither converts an argument:
it is no template, or a more special one; it is an equally special one; it is a less special one, such as
`template<T,Q> operator()(T&&,Q&&)const`. Simplified: an equally special one makes the call ambiguous, it is not hidden. -/
inductive Pref
  | special
  | same
  | general
deriving DecidableEq, Repr

/-- An overload of `operator()`. `rank1 t`: the rank of the implicit conversion from an argument of type `t` to the first parameter, 0 if there is
nothing to convert, `none` if there is no conversion. Simplified: ranks are compared as numbers. -/
structure Overload (T : Type) where
  rank1 : T → Option Nat
  rank2 : T → Option Nat
  pref : Pref
  /-- The overload can be called for constant function objects. -/
  const : Bool

/-- A parameter type of a function. -/
inductive Param (T : Type)
  | value (t : T)
  | cref (t : T)
  | other
deriving DecidableEq, Repr

/-- Types of function objects: classes with public `operator()`, functions and pointers to functions, other types. -/
inductive Callee (T : Type)
  | cls (final : Bool) (ops : List (Overload T))
  | fn (p q : Param T)
  | other

variable {T : Type} [DecidableEq T]

/-- The overload of class `F` can be called with the arguments. -/
def Overload.viable (o : Overload T) (a b : T) : Bool := o.const && (o.rank1 a).isSome && (o.rank2 b).isSome

/-- The overload that `is_transparent_class_helper` adds is better than `o`: it converts nothing, so it is if `o` has to convert an argument, or is
more general. detail/is_transparent.hpp:65-71. -/
def Overload.loses (o : Overload T) (a b : T) : Bool := o.rank1 a != some 0 || o.rank2 b != some 0 || o.pref == .general

/-- `is_transparent_class<F,Arg1,Arg2>`: false if the overload resolution selects the overload that was added. If the call is ambiguous, the type in
`decltype` is ill-formed, and the value is that of the primary template, true. detail/is_transparent.hpp:73-89. -/
def transparentClass (ops : List (Overload T)) (a b : T) : Bool := !((ops.filter (·.viable a b)).all (·.loses a b))

/-- `is_same<arg_type,const Arg&>||is_same<arg_type,Arg>`: detail/is_transparent.hpp:110-111, 114-115. -/
def Param.isFor (p : Param T) (a : T) : Bool := p == .cref a || p == .value a

/-- `is_transparent_function<F,Arg1,Arg2>`: detail/is_transparent.hpp:101-118. -/
def transparentFunction (p q : Param T) (a b : T) : Bool := !(!p.isFor a || !q.isFor b)

/-- `is_transparent<F,Arg1,Arg2>`: detail/is_transparent.hpp:31-32 (the default), 91-99 (classes that are not final), 120-126 (functions). -/
def isTransparent : Callee T → T → T → Bool
  | .cls false ops, a, b => transparentClass ops a b
  | .cls true _, _, _ => true
  | .fn p q, a, b => transparentFunction p q a b
  | .other, _, _ => true

/-- `promotes_1st_arg<F,Arg1,Arg2>`: detail/promotes_arg.hpp:58-65. `conv`: `is_convertible`. -/
def promotes1 (conv : T → T → Bool) (f : Callee T) (a b : T) : Bool := !isTransparent f a b && conv a b && isTransparent f b b

/-- `promotes_2nd_arg<F,Arg1,Arg2>`: detail/promotes_arg.hpp:67-74. -/
def promotes2 (conv : T → T → Bool) (f : Callee T) (a b : T) : Bool := !isTransparent f a b && conv b a && isTransparent f a a

end MI.Meta
