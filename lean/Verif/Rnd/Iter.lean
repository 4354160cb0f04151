import Verif.Rnd.Model
/-!
# Operators of random access iterators

Models detail/rnd_node_iterator.hpp and the random access part of detail/iter_adaptor.hpp, which forwards to the same functions in safe mode. An iterator
is its node. Operators that random_access_iterator_helper (Boost.Operators) derives from the others are modelled as documented there.
-/
namespace MI.Rnd.Iter
open MI

/-- `x==y`: rnd_node_iterator.hpp:113-118, iter_adaptor.hpp:210-213. -/
def eq (x y : Id) : Bool := x == y

/-- `x<y`: rnd_node_iterator.hpp:121-126, iter_adaptor.hpp:215-218. -/
def lt (s : Arr) (x y : Id) : Bool := decide (0 < distance s x y)

/-- `x-y`: rnd_node_iterator.hpp:129-134, iter_adaptor.hpp:244-247. -/
def minus (s : Arr) (x y : Id) : Int := distance s y x

/-- `x+=n`: rnd_node_iterator.hpp:62-66, iter_adaptor.hpp:232-236. -/
def plusEq (s : Arr) (x : Id) (n : Int) : Id := advance s x n

/-- `x-=n`: rnd_node_iterator.hpp:68-72, iter_adaptor.hpp:238-242. -/
def minusEq (s : Arr) (x : Id) (n : Int) : Id := advance s x (-n)

/-- `x!=y`, derived by Boost.Operators: `!(x==y)`. -/
def ne (x y : Id) : Bool := !eq x y

/-- `x>y`, derived by Boost.Operators: `y<x`. -/
def gt (s : Arr) (x y : Id) : Bool := lt s y x

/-- `x<=y`, derived by Boost.Operators: `!(y<x)`. -/
def le (s : Arr) (x y : Id) : Bool := !lt s y x

/-- `x>=y`, derived by Boost.Operators: `!(x<y)`. -/
def ge (s : Arr) (x y : Id) : Bool := !lt s x y

/-- The element `x[n]` refers to, derived by Boost.Operators: `*(x+n)`. -/
def at' (s : Arr) (x : Id) (n : Int) : Id := plusEq s x n

end MI.Rnd.Iter
