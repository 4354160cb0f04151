import Verif.Prelude
/-!
# Composite keys

Models boost/multi_index/composite_key.hpp. A cons list of `n` things (a boost tuple) is a function of the position together with `n`;
the tail is the function shifted by one, with `n - 1`. The types of the components differ: `K j` is the type of component `j`. A
component comparison or equality can be called with two types, as a function object with a templated `operator()`. `V`, `W`: value
types.
-/
namespace MI.Key
variable {V W : Type}

/-- `equal_ckey_ckey<...>::compare`: composite_key.hpp:204-261. -/
def equalCC : {K L : Nat → Type} → (n1 n2 : Nat) → (∀ j, V → K j) → V → (∀ j, W → L j) → W → (∀ j, K j → L j → Bool) → Bool
  | _, _, n1 + 1, n2 + 1, c0, v0, c1, v1, eq =>
    if !eq 0 (c0 0 v0) (c1 0 v1) then false
    else equalCC n1 n2 (fun j => c0 (j + 1)) v0 (fun j => c1 (j + 1)) v1 (fun j => eq (j + 1))
  | _, _, _, _, _, _, _, _, _ => true

/-- `equal_ckey_cval<...>::compare(c,v,vc,eq)`: composite_key.hpp:268-337. -/
def equalCV : {K L : Nat → Type} → (n1 n2 : Nat) → (∀ j, V → K j) → V → (∀ j, L j) → (∀ j, K j → L j → Bool) → Bool
  | _, _, n1 + 1, n2 + 1, c, v, vc, eq =>
    if !eq 0 (c 0 v) (vc 0) then false
    else equalCV n1 n2 (fun j => c (j + 1)) v (fun j => vc (j + 1)) (fun j => eq (j + 1))
  | _, _, _, _, _, _, _, _ => true

/-- `equal_ckey_cval<...>::compare(vc,c,v,eq)`: composite_key.hpp:268-337. -/
def equalVC : {K L : Nat → Type} → (n1 n2 : Nat) → (∀ j, L j) → (∀ j, V → K j) → V → (∀ j, L j → K j → Bool) → Bool
  | _, _, n1 + 1, n2 + 1, vc, c, v, eq =>
    if !eq 0 (vc 0) (c 0 v) then false
    else equalVC n1 n2 (fun j => vc (j + 1)) (fun j => c (j + 1)) v (fun j => eq (j + 1))
  | _, _, _, _, _, _, _, _ => true

/-- `compare_ckey_ckey<...>::compare`: composite_key.hpp:345-403. `comp` is called both ways. -/
def compareCC : {K L : Nat → Type} → (n1 n2 : Nat) → (∀ j, V → K j) → V → (∀ j, W → L j) → W →
    (comp : ∀ j, K j → L j → Bool) → (comp' : ∀ j, L j → K j → Bool) → Bool
  | _, _, n1 + 1, n2 + 1, c0, v0, c1, v1, comp, comp' =>
    if comp 0 (c0 0 v0) (c1 0 v1) then true
    else if comp' 0 (c1 0 v1) (c0 0 v0) then false
    else compareCC n1 n2 (fun j => c0 (j + 1)) v0 (fun j => c1 (j + 1)) v1 (fun j => comp (j + 1)) (fun j => comp' (j + 1))
  | _, _, _, _, _, _, _, _, _, _ => false

/-- `compare_ckey_cval<...>::compare(c,v,vc,comp)`: composite_key.hpp:410-481. -/
def compareCV : {K L : Nat → Type} → (n1 n2 : Nat) → (∀ j, V → K j) → V → (∀ j, L j) →
    (comp : ∀ j, K j → L j → Bool) → (comp' : ∀ j, L j → K j → Bool) → Bool
  | _, _, n1 + 1, n2 + 1, c, v, vc, comp, comp' =>
    if comp 0 (c 0 v) (vc 0) then true
    else if comp' 0 (vc 0) (c 0 v) then false
    else compareCV n1 n2 (fun j => c (j + 1)) v (fun j => vc (j + 1)) (fun j => comp (j + 1)) (fun j => comp' (j + 1))
  | _, _, _, _, _, _, _, _, _ => false

/-- `compare_ckey_cval<...>::compare(vc,c,v,comp)`: composite_key.hpp:410-481. -/
def compareVC : {K L : Nat → Type} → (n1 n2 : Nat) → (∀ j, L j) → (∀ j, V → K j) → V →
    (comp : ∀ j, K j → L j → Bool) → (comp' : ∀ j, L j → K j → Bool) → Bool
  | _, _, n1 + 1, n2 + 1, vc, c, v, comp, comp' =>
    if comp' 0 (vc 0) (c 0 v) then true
    else if comp 0 (c 0 v) (vc 0) then false
    else compareVC n1 n2 (fun j => vc (j + 1)) (fun j => c (j + 1)) v (fun j => comp (j + 1)) (fun j => comp' (j + 1))
  | _, _, _, _, _, _, _, _, _ => false

/-- `carry^=h+0x9e3779b9+(carry<<6)+(carry>>2)`: composite_key.hpp:504, 540; `std::size_t` has `b` bits. -/
def combine {b : Nat} (carry h : BitVec b) : BitVec b :=
  carry ^^^ (h + BitVec.ofNat b 0x9e3779b9 + (carry <<< 6) + (carry >>> 2))

/-- `hash_ckey<...>::hash(c,v,h,carry)`: composite_key.hpp:484-520. -/
def hashC {b : Nat} : {K : Nat → Type} → (n : Nat) → (∀ j, V → K j) → V → (∀ j, K j → BitVec b) → BitVec b → BitVec b
  | _, 0, _, _, _, carry => carry
  | _, n + 1, c, v, h, carry => hashC n (fun j => c (j + 1)) v (fun j => h (j + 1)) (combine carry (h 0 (c 0 v)))

/-- `hash_cval<...>::hash(vc,h,carry)`: composite_key.hpp:523-556. -/
def hashV {b : Nat} : {K : Nat → Type} → (n : Nat) → (∀ j, K j) → (∀ j, K j → BitVec b) → BitVec b → BitVec b
  | _, 0, _, _, carry => carry
  | _, n + 1, vc, h, carry => hashV n (fun j => vc (j + 1)) (fun j => h (j + 1)) (combine carry (h 0 (vc 0)))

/-- A composite key: `composite_key<V,...>` with `len` key extractors, composite_key.hpp:592-641. -/
structure Composite (V : Type) (K : Nat → Type) where
  len : Nat
  ext : ∀ j, V → K j

/-- A tuple of `len` values (those at later positions are not used). -/
structure Tup (K : Nat → Type) where
  len : Nat
  get : ∀ j, K j

variable {K L : Nat → Type}

/-- `composite_key_equal_to::operator()(x,y)` and, with `==` of the components, `operator==`, for two results: composite_key.hpp:648-669,
961-984. Requires equal lengths (`BOOST_STATIC_ASSERT`). -/
def Composite.equal (c0 : Composite V K) (v0 : V) (c1 : Composite W L) (v1 : W) (eq : ∀ j, K j → L j → Bool) : Bool :=
  equalCC c0.len c1.len c0.ext v0 c1.ext v1 eq

/-- The same for a result and a tuple: composite_key.hpp:675-693, 723-743, 991-1008, 1039-1061. -/
def Composite.equalTup (c : Composite V K) (v : V) (t : Tup L) (eq : ∀ j, K j → L j → Bool) : Bool := equalCV c.len t.len c.ext v t.get eq

/-- The same for a tuple and a result: composite_key.hpp:700-718, 746-766, 1016-1033, 1064-1086. -/
def Tup.equalComposite (t : Tup L) (c : Composite V K) (v : V) (eq : ∀ j, L j → K j → Bool) : Bool := equalVC c.len t.len t.get c.ext v eq

/-- `composite_key_compare::operator()(x,y)` and, with `<` of the components, `operator<`, for two results: composite_key.hpp:772-788,
1116-1139. -/
def Composite.less (c0 : Composite V K) (v0 : V) (c1 : Composite W L) (v1 : W) (comp : ∀ j, K j → L j → Bool)
    (comp' : ∀ j, L j → K j → Bool) : Bool := compareCC c0.len c1.len c0.ext v0 c1.ext v1 comp comp'

/-- The same for a result and a tuple: composite_key.hpp:796-810, 836-852, 1156-1173, 1214-1236. -/
def Composite.lessTup (c : Composite V K) (v : V) (t : Tup L) (comp : ∀ j, K j → L j → Bool) (comp' : ∀ j, L j → K j → Bool) : Bool :=
  compareCV c.len t.len c.ext v t.get comp comp'

/-- The same for a tuple and a result: composite_key.hpp:817-831, 855-871, 1191-1208, 1239-1261. -/
def Tup.lessComposite (t : Tup L) (c : Composite V K) (v : V) (comp : ∀ j, K j → L j → Bool) (comp' : ∀ j, L j → K j → Bool) : Bool :=
  compareVC c.len t.len t.get c.ext v comp comp'

/-- A value that is not a tuple stands for `make_tuple(cref(y))`: composite_key.hpp:1143-1148, 1178-1183. -/
def Tup.one (d : ∀ j, L j) (y : L 0) : Tup L := ⟨1, fun | 0 => y | j + 1 => d (j + 1)⟩

/-- `composite_key_hash::operator()` of a result: composite_key.hpp:1291-1304. -/
def Composite.hash {b : Nat} (c : Composite V K) (v : V) (h : ∀ j, K j → BitVec b) : BitVec b := hashC c.len c.ext v h 0

/-- `composite_key_hash::operator()` of a tuple: composite_key.hpp:1307-1338. -/
def Tup.hash {b : Nat} (t : Tup K) (h : ∀ j, K j → BitVec b) : BitVec b := hashV t.len t.get h 0

/-- `operator!=`, `>`, `>=`, `<=` given `x==y`, `x<y`, `y<x`: composite_key.hpp:876-896. -/
structure Ops where
  ne : Bool
  gt : Bool
  ge : Bool
  le : Bool
deriving DecidableEq

/-- See `Ops`. -/
def completeOps (eq lt lt' : Bool) : Ops := ⟨!eq, lt', !lt, !lt'⟩

end MI.Key
