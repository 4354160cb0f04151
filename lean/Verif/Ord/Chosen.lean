import Verif.Ord.Bits
/-!
# Which representation ordered nodes have

Models detail/uintptr_type.hpp and the choice in `ordered_index_node_impl_base` (detail/ord_index_node.hpp:226-247), and both representations of parent
and colour.
-/
namespace MI.Ord
open MI

/-- A platform, with an allocator and a user's options. Sizes are in bytes, of 8 bits. -/
structure Platform where
  ptr : Nat
  uint : Nat
  ushort : Nat
  ulong : Nat
  /-- `boost::ulong_long_type`, if `BOOST_HAS_LONG_LONG`. -/
  ulonglong : Option Nat
  /-- `unsigned __int64`, if `BOOST_HAS_MS_INT64`. -/
  int64 : Option Nat
  /-- Alignment of `ordered_index_node_compressed_base`. -/
  align : Nat
  /-- Pointers of the allocator are plain ones: ord_index_node.hpp:236-238. -/
  plain : Bool
  /-- `BOOST_MULTI_INDEX_DISABLE_COMPRESSED_ORDERED_INDEX_NODES` -/
  disabled : Bool

/-- Size of `uintptr_candidates<N>::type`: uintptr_type.hpp:35-51. -/
def Platform.candidate (P : Platform) : Int → Nat
  | 1 => P.ushort
  | 2 => P.ulong
  | 3 => P.ulonglong.getD P.uint
  | 4 => P.int64.getD P.uint
  | _ => P.uint

/-- `uintptr_aux::index`: uintptr_type.hpp:55-60. -/
def Platform.index (P : Platform) : Int :=
  if P.ptr = P.candidate 0 then 0
  else if P.ptr = P.candidate 1 then 1
  else if P.ptr = P.candidate 2 then 2
  else if P.ptr = P.candidate 3 then 3
  else if P.ptr = P.candidate 4 then 4
  else -1

/-- `has_uintptr_type`: uintptr_type.hpp:62, 67. -/
def Platform.hasUintptr (P : Platform) : Bool := decide (0 ≤ P.index)

/-- Size of `uintptr_type`: uintptr_type.hpp:64, 68. -/
def Platform.uintptr (P : Platform) : Nat := P.candidate P.index

/-- The compressed representation is chosen: ord_index_node.hpp:229-247. -/
def Platform.compressed (P : Platform) : Bool := !P.disabled && !(!P.hasUintptr || P.align % 2 != 0 || !P.plain)

/-- Parent and colour of a node: two members (`ordered_index_node_std_base`, ord_index_node.hpp:84-111), or one number of `w` bits
(`ordered_index_node_compressed_base`, 131-220). Addresses are numbers. -/
inductive Link
  | two (parent : Nat) (color : Color)
  | one (w : Nat) (r : BitVec w)

/-- The node has the representation that is chosen on the platform. -/
def Link.Of (P : Platform) : Link → Prop
  | .two _ _ => P.compressed = false
  | .one w _ => P.compressed = true ∧ w = 8 * P.uintptr

/-- `parent()`: ord_index_node.hpp:99-100, 206-209. -/
def Link.parent : Link → Nat
  | .two p _ => p
  | .one _ r => (getParent r).toNat

/-- `color()`: ord_index_node.hpp:97-98, 200-203. -/
def Link.color : Link → Color
  | .two _ c => c
  | .one _ r => getColor r

/-- `parent()=p`: ord_index_node.hpp:99, 179-183. The conversion of the address to `uintptr_type` drops bits that have no place. -/
def Link.setParent (l : Link) (p : Nat) : Link :=
  match l with
  | .two _ c => .two p c
  | .one w r => .one w (putParent r (BitVec.ofNat w p))

/-- `color()=c`: ord_index_node.hpp:97, 153-158. -/
def Link.setColor (l : Link) (c : Color) : Link :=
  match l with
  | .two p _ => .two p c
  | .one w r => .one w (putColor r c)

end MI.Ord
