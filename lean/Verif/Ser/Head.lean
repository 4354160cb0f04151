/-!
# The heads of containers in archives of all versions

Models the beginning of `save` and `load` (multi_index_container.hpp:1119-1125, 1144-1176) and detail/serialization_version.hpp. Archives written by older versions of the library are as the comment on
class versions says (multi_index_container.hpp:1571-1580). What follows the head of a container is left out.
-/
namespace MI.Ser.Head

/-- The form in which a number is written. Archives may treat `collection_size_type` in a special way (doc/release_notes.html:115-126). -/
inductive Form where
  | size | coll | ulong
deriving DecidableEq

/-- What is written: numbers, and versions of classes. -/
inductive Tok where
  | num (f : Form) (n : Nat)
  | ver (n : Nat)

/-- The data model and the archive. `sizeBits`, `ulongBits`: the number of bits of `std::size_t` and `unsigned long`. `special`: the archive does not write `collection_size_type` as `std::size_t`. -/
structure Platform where
  sizeBits : Nat
  ulongBits : Nat
  special : Bool

/-- The form of a `collection_size_type`. -/
def Platform.coll (P : Platform) : Form := if P.special then .coll else .size

/-- The number of elements, as written by class version `v`: multi_index_container.hpp:1122-1124 for the present version 4, the comment at multi_index_container.hpp:1571-1580 for the others. -/
def saveCount (P : Platform) (v n : Nat) : Tok :=
  if v = 0 then .num .size n
  else if v ≤ 2 then .num P.coll n
  else if v = 3 then .num .ulong (n % 2 ^ P.ulongBits)
  else .num .size n

/-- An object of class `serialization_version<T>` is written (serialization_version.hpp:50-51): nothing but the version of its class, and that, as Boost.Serialization does for all classes, before the first
object of the class in the archive only. `known` is the version if it has been written. The version of the class is that of `T`, `e` (serialization_version.hpp:67-71). -/
def saveVersion (e : Nat) : (known : Option Nat) → List Tok × Option Nat
  | none => ([.ver e], some e)
  | some k => ([], some k)

/-- The heads of containers of `ns` elements of the same type, of version `e`, saved one after the other by class version `v`. -/
def saveHeads (P : Platform) (v e : Nat) (known : Option Nat) : (ns : List Nat) → List Tok
  | [] => []
  | n :: ns =>
    if v < 2 then saveCount P v n :: saveHeads P v e known ns
    else saveCount P v n :: ((saveVersion e known).1 ++ saveHeads P v e (saveVersion e known).2 ns)

/-- `ar>>n`, for a number of some form. Numbers in another form are not read properly. -/
def readNum (f : Form) : List Tok → Option (Nat × List Tok)
  | .num g n :: ts => if f = g then some (n, ts) else none
  | _ => none

/-- The number of elements: multi_index_container.hpp:1148-1169. `compat`: `BOOST_MULTI_INDEX_ENABLE_SERIALIZATION_COMPATIBILITY_V2`. -/
def loadCount (P : Platform) (compat : Bool) (version : Nat) (ts : List Tok) : Option (Nat × List Tok) :=
  if version < 1 then readNum .size ts
  else if version < 3 then
    if compat then readNum P.coll ts
    else readNum .size ts
  else if version < 4 then readNum .ulong ts
  else readNum .size ts

/-- `ar>>value_version` (serialization_version.hpp:53-57): `load` is called with the version of the class in the archive, which is read before the first object only;
the value before, `_value`, is lost. -/
def loadVersion (_value : Nat) : (known : Option Nat) → List Tok → Option (Nat × Option Nat × List Tok)
  | some k, ts => some (k, some k, ts)
  | none, .ver e :: ts => some (e, some e, ts)
  | none, _ => none

/-- The head of a container: multi_index_container.hpp:1146-1176. `mine` is the present version of the type of elements, which `value_version` has at first (serialization_version.hpp:34-35). The result is
the number of elements and the version `load_construct_data` is called with. -/
def loadHead (P : Platform) (compat : Bool) (version mine : Nat) (known : Option Nat) (ts : List Tok) : Option ((Nat × Nat) × Option Nat × List Tok) :=
  match loadCount P compat version ts with
  | none => none
  | some (s, ts) =>
    if version < 2 then some ((s, 0), known, ts)
    else
      match loadVersion mine known ts with
      | none => none
      | some (value_version, known, ts) => some ((s, value_version), known, ts)

/-- `k` containers are loaded one after the other. -/
def loadHeads (P : Platform) (compat : Bool) (version mine : Nat) (known : Option Nat) : (k : Nat) → List Tok → Option (List (Nat × Nat) × List Tok)
  | 0, ts => some ([], ts)
  | k + 1, ts =>
    match loadHead P compat version mine known ts with
    | none => none
    | some (h, known, ts) =>
      match loadHeads P compat version mine known k ts with
      | none => none
      | some (hs, ts) => some (h :: hs, ts)
end MI.Ser.Head
