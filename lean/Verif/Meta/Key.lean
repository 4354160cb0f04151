/-!
# The alias template `key`

What the compiler computes from `key<&A::x,&A::f,…>`: `none` where it stops with an error.
-/
namespace MI.Meta
variable {T P : Type}

/-- A template argument of `key`, a pointer with its type: `Type Class::*`, `Type (Class::*)()` with qualifiers (`const`, `volatile`, none, `&` or `&&`, `noexcept`), `Type (*)(Value)`. `p` stands for the pointer. -/
inductive Ptr (T P : Type) where
  | data (cls : T) (p : P)
  | memFun (cls : T) (p : P) (c v : Bool) (ref : Option Bool) (noexc : Bool)
  | fn (value : T) (p : P) (noexc : Bool)

/-- Key extractors: `member`, the eight kinds of `mem_fun` named after the qualifiers, `global_fun`; member.hpp, mem_fun.hpp, global_fun.hpp. -/
inductive Extractor (T P : Type) where
  | member (cls : T) (p : P)
  | memFun (cls : T) (p : P)
  | constMemFun (cls : T) (p : P)
  | volatileMemFun (cls : T) (p : P)
  | cvMemFun (cls : T) (p : P)
  | refMemFun (cls : T) (p : P)
  | crefMemFun (cls : T) (p : P)
  | vrefMemFun (cls : T) (p : P)
  | cvrefMemFun (cls : T) (p : P)
  | globalFun (value : T) (p : P)

/-- `remove_noexcept<T>`: key.hpp:80-115. -/
def Ptr.removeNoexcept : Ptr T P → Ptr T P
  | .data a p => .data a p
  | .memFun a p c v r _ => .memFun a p c v r false
  | .fn a p _ => .fn a p false

/-- `typed_key_impl<T,Key>`: key.hpp:39-78. There is no specialization for `noexcept` or for `&&`. `ref`: `some false` is `&`, `some true` is `&&`. -/
def typedKey : Ptr T P → Option (T × Extractor T P)
  | .data a p => some (a, .member a p)
  | .memFun a p false false none false => some (a, .memFun a p)
  | .memFun a p true false none false => some (a, .constMemFun a p)
  | .memFun a p false true none false => some (a, .volatileMemFun a p)
  | .memFun a p true true none false => some (a, .cvMemFun a p)
  | .memFun a p false false (some false) false => some (a, .refMemFun a p)
  | .memFun a p true false (some false) false => some (a, .crefMemFun a p)
  | .memFun a p false true (some false) false => some (a, .vrefMemFun a p)
  | .memFun a p true true (some false) false => some (a, .cvrefMemFun a p)
  | .memFun _ _ _ _ _ _ => none
  | .fn a p false => some (a, .globalFun a p)
  | .fn _ _ true => none

/-- `key_impl<Key>`: key.hpp:120-121. -/
def keyImpl1 (k : Ptr T P) : Option (T × Extractor T P) := typedKey k.removeNoexcept

/-- `least_generic<T0,T1,Ts…>`: key.hpp:123-146. `conv t q`: `std::is_convertible<const t&,const q&>`. -/
def leastGeneric (conv : T → T → Bool) : T → List T → Option T
  | t, [] => some t
  | t, q :: l => if conv t q || conv q t then leastGeneric conv (if conv t q then t else q) l else none

/-- What `key<…>` is: one extractor, or `composite_key<Value,…>`: key.hpp:148-160. -/
inductive KeyType (T P : Type) where
  | single (e : Extractor T P)
  | composite (value : T) (es : List (Extractor T P))

/-- `key_impl<Key>` for all keys: key.hpp:151-160. -/
def keyImpls : List (Ptr T P) → Option (List (T × Extractor T P))
  | [] => some []
  | k :: ks =>
    match keyImpl1 k, keyImpls ks with
    | some e, some es => some (e :: es)
    | _, _ => none

/-- `key<Keys…>`: `limited_size_key_impl` and `key_impl`: key.hpp:148-184. `limit`: the number of extractors `composite_key` can have. `decay`: `std::decay`; the `Value` of a function may be a reference. -/
def key (conv : T → T → Bool) (decay : T → T) (limit : Nat) (ks : List (Ptr T P)) : Option (KeyType T P) :=
  if ks.length ≤ limit then
    match keyImpls ks with
    | none => none
    | some [] => none
    | some [(_, e)] => some (.single e)
    | some ((a, e) :: es) =>
      match leastGeneric conv (decay a) (es.map fun x => decay x.1) with
      | none => none
      | some v => some (.composite v (e :: es.map (·.2)))
  else none

end MI.Meta
