import Verif.Key.Composite
/-!
# Composite keys and `std::tuple`

Models detail/cons_stdtuple.hpp: a `std::tuple` dressed as a cons list. The wrapper `cons_stdtuple<T,N>` refers to the whole tuple, and stands for its components from `N` on: the head is
`std::get<N>` (cons_stdtuple.hpp:74), the tail the wrapper for `N + 1`, or `null_type` if there is no such component (cons_stdtuple.hpp:56-63, 75). The other cons lists taking part in a comparison have
lost as many components as the wrapper has: `c N` is the head of that of the key extractors, of which `n` are left, `eq N` that of the equalities, and so on.
-/
namespace MI.Key
variable {V : Type} {K L : Nat → Type}

/-- Whether `cons_stdtuple_ctor<T,N>` gives a cons list and not `null_type`: cons_stdtuple.hpp:56-63. -/
def Tup.has (t : Tup L) (N : Nat) : Bool := decide (N < t.len)

/-- `equal_ckey_cval<...>::compare(c,v,vc,eq)`, `vc` being a wrapper: composite_key.hpp:268-337. -/
def equalCS (c : ∀ j, V → K j) (v : V) (t : Tup L) (eq : ∀ j, K j → L j → Bool) : (n N : Nat) → Bool
  | 0, _ => true
  | n + 1, N => if t.has N then if !eq N (c N v) (t.get N) then false else equalCS c v t eq n (N + 1) else true

/-- `equal_ckey_cval<...>::compare(vc,c,v,eq)`: composite_key.hpp:268-337. -/
def equalSC (t : Tup L) (c : ∀ j, V → K j) (v : V) (eq : ∀ j, L j → K j → Bool) : (n N : Nat) → Bool
  | 0, _ => true
  | n + 1, N => if t.has N then if !eq N (t.get N) (c N v) then false else equalSC t c v eq n (N + 1) else true

/-- `compare_ckey_cval<...>::compare(c,v,vc,comp)`: composite_key.hpp:410-481. -/
def compareCS (c : ∀ j, V → K j) (v : V) (t : Tup L) (comp : ∀ j, K j → L j → Bool) (comp' : ∀ j, L j → K j → Bool) : (n N : Nat) → Bool
  | 0, _ => false
  | n + 1, N =>
    if t.has N then
      if comp N (c N v) (t.get N) then true
      else if comp' N (t.get N) (c N v) then false
      else compareCS c v t comp comp' n (N + 1)
    else false

/-- `compare_ckey_cval<...>::compare(vc,c,v,comp)`: composite_key.hpp:410-481. -/
def compareSC (t : Tup L) (c : ∀ j, V → K j) (v : V) (comp : ∀ j, K j → L j → Bool) (comp' : ∀ j, L j → K j → Bool) : (n N : Nat) → Bool
  | 0, _ => false
  | n + 1, N =>
    if t.has N then
      if comp' N (t.get N) (c N v) then true
      else if comp N (c N v) (t.get N) then false
      else compareSC t c v comp comp' n (N + 1)
    else false

/-- `hash_cval<...>::hash(vc,h,carry)`: composite_key.hpp:523-556, `n` being the number of hash functions left. -/
def hashS {b : Nat} (t : Tup K) (h : ∀ j, K j → BitVec b) : (n N : Nat) → BitVec b → BitVec b
  | 0, _, carry => carry
  | n + 1, N, carry => if t.has N then hashS t h n (N + 1) (combine carry (h N (t.get N))) else carry

/-- A result and a `std::tuple`, `composite_key_equal_to` and `operator==`: composite_key.hpp:723-743, 1039-1061. -/
def Composite.equalStd (c : Composite V K) (v : V) (t : Tup L) (eq : ∀ j, K j → L j → Bool) : Bool := equalCS c.ext v t eq c.len 0

/-- A `std::tuple` and a result: composite_key.hpp:746-766, 1064-1086. -/
def Tup.equalStd (t : Tup L) (c : Composite V K) (v : V) (eq : ∀ j, L j → K j → Bool) : Bool := equalSC t c.ext v eq c.len 0

/-- A result and a `std::tuple`, `composite_key_compare` and `operator<`: composite_key.hpp:836-852, 1214-1236. -/
def Composite.lessStd (c : Composite V K) (v : V) (t : Tup L) (comp : ∀ j, K j → L j → Bool) (comp' : ∀ j, L j → K j → Bool) : Bool := compareCS c.ext v t comp comp' c.len 0

/-- A `std::tuple` and a result: composite_key.hpp:855-871, 1239-1261. -/
def Tup.lessStd (t : Tup L) (c : Composite V K) (v : V) (comp : ∀ j, K j → L j → Bool) (comp' : ∀ j, L j → K j → Bool) : Bool := compareSC t c.ext v comp comp' c.len 0

/-- `composite_key_hash::operator()` of a `std::tuple`, with `n` hash functions: composite_key.hpp:1324-1337. -/
def Tup.hashStd {b : Nat} (t : Tup K) (h : ∀ j, K j → BitVec b) (n : Nat) : BitVec b := hashS t h n 0 0
end MI.Key
