import Verif.Ord.Heap
import Verif.Spec.Lists
/-! Trees, their representation in the heap of links, and red-black conditions. -/
namespace MI.Ord
open MI

/-- A binary tree with coloured nodes; every node also carries the value of its `size` field. -/
inductive T where
  | nil
  | node (c : Color) (s : Nat) (l : T) (x : Id) (r : T)
deriving Repr, DecidableEq

namespace T

/-- The pointer to the tree. -/
def root : T → Id
  | nil => 0
  | node _ _ _ x _ => x

/-- The nodes in traversal order. -/
def ids : T → List Id
  | nil => []
  | node _ _ l x r => l.ids ++ x :: r.ids

/-- The `size` of the tree as `ranked_node_size` reads it. -/
def sz : T → Nat
  | nil => 0
  | node _ s _ _ _ => s

/-- All `size` fields are right. -/
def Sized : T → Prop
  | nil => True
  | node _ s l _ r => s = l.ids.length + r.ids.length + 1 ∧ l.Sized ∧ r.Sized

/-- Black root (or empty). -/
def black : T → Prop
  | nil => True
  | node c _ _ _ _ => c = .black

/-- Red-black subtree of black height `n`: no red node has a red child, and all paths to an empty tree have `n` black
nodes. -/
def RB : T → Nat → Prop
  | nil, n => n = 0
  | node .red _ l _ r, n => l.black ∧ r.black ∧ l.RB n ∧ r.RB n
  | node .black _ l _ r, n => ∃ m, n = m + 1 ∧ l.RB m ∧ r.RB m

/-- Height. -/
def height : T → Nat
  | nil => 0
  | node _ _ l _ r => max l.height r.height + 1

end T

/-- A tree is red-black: black root and the conditions above. -/
def RBTree (t : T) : Prop := t.black ∧ ∃ n, t.RB n

/-- The heap holds the tree `t` below `par`. -/
def At (h : Heap) (par : Id) : T → Prop
  | .nil => True
  | .node c s l x r =>
    h.parent x = par ∧ h.color x = c ∧ h.size x = s ∧ h.left x = l.root ∧ h.right x = r.root ∧ At h x l ∧ At h x r

/-- The tree `t` hangs from the header `hd`; identifiers are distinct and not null. -/
structure Shape (h : Heap) (hd : Id) (t : T) : Prop where
  at' : At h hd t
  root : h.parent hd = t.root
  nodup : (hd :: t.ids).Nodup
  nz : 0 ∉ hd :: t.ids

/-- Full representation of a tree by header `hd`: shape, red header, first and last elements. -/
structure RepT (h : Heap) (hd : Id) (t : T) : Prop where
  shape : Shape h hd t
  color : h.color hd = .red
  first : h.left hd = hdOr hd t.ids
  last : h.right hd = t.ids.getLastD hd

/-- Nothing outside the index with header `hd` and nodes `xs` is touched. -/
def Frame (h h' : Heap) (ys : List Id) : Prop :=
  ∀ z, z ∉ ys → h'.parent z = h.parent z ∧ h'.left z = h.left z ∧ h'.right z = h.right z ∧
    h'.color z = h.color z ∧ h'.size z = h.size z

/-- The ordered index with header `hd` holds exactly the elements `xs` in this order: some red-black tree with
exact `size` fields and this traversal hangs from `hd`. -/
def Rep (h : Heap) (hd : Id) (xs : List Id) : Prop :=
  ∃ t : T, RepT h hd t ∧ RBTree t ∧ t.Sized ∧ t.ids = xs

end MI.Ord
