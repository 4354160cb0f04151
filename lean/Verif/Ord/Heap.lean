import Verif.Prelude
/-!
# Ordered indices: red-black tree links

Models detail/ord_index_node.hpp (`ordered_index_node_impl`) and the augmenting policy of ranked indices
(ranked_index.hpp:279-331). Pointers are identifiers, the null pointer is 0. `header->parent()` is the root; the `parent_ref
root`, `leftmost` and `rightmost` arguments of the code are references to `header->parent()`, `header->left()` and
`header->right()`, so the functions take the header. The `size` field exists only for ranked indices; for plain ordered
indices the policy does nothing (`null_augment_policy`, ord_index_impl.hpp), and no function in this file other than the
policy itself reads `size`, so the model maintains it always.

Loops take a budget; `none` means that the loop did not finish within it. Null pointers are not checked when
dereferenced: a field of 0 has an arbitrary value in the heap, which the theorems leave unspecified, and the theorems state that no
field of an identifier outside the structure, in particular of 0, is written.
-/
namespace MI.Ord
open MI

/-- `ordered_index_color`: ord_index_node.hpp:64. -/
inductive Color where
  | red
  | black
deriving DecidableEq, Repr

/-- `ordered_index_side`: ord_index_node.hpp:65. -/
inductive Side where
  | left
  | right
deriving DecidableEq, Repr

/-- The fields of all nodes: ord_index_node.hpp:97-110, ranked_index.hpp (`ranked_node::size`). -/
structure Heap where
  parent : Id → Id
  left : Id → Id
  right : Id → Id
  color : Id → Color
  size : Id → Nat

def Heap.setParent (h : Heap) (x v : Id) : Heap := { h with parent := upd h.parent x v }
def Heap.setLeft (h : Heap) (x v : Id) : Heap := { h with left := upd h.left x v }
def Heap.setRight (h : Heap) (x v : Id) : Heap := { h with right := upd h.right x v }
def Heap.setColor (h : Heap) (x : Id) (c : Color) : Heap := { h with color := upd h.color x c }
def Heap.setSize (h : Heap) (x : Id) (n : Nat) : Heap := { h with size := upd h.size x n }

/-! ## Augmenting policy -/

/-- `ranked_node_size(x)`: rnk_index_ops.hpp:41-44. -/
def nodeSize (h : Heap) (x : Id) : Nat := if x ≠ 0 then h.size x else 0

/-- `rank_policy::rotate_left(x,y)`, `rotate_right`: ranked_index.hpp:320-331. -/
def augRotate (h : Heap) (x y : Id) : Heap :=
  let h := h.setSize y (h.size x)
  h.setSize x (nodeSize h (h.left x) + nodeSize h (h.right x) + 1)

/-- The loop of `rank_policy::add`: ranked_index.hpp:299-302. -/
def addGo (root : Id) : Nat → Heap → Id → Option Heap
  | 0, _, _ => none
  | n + 1, h, x =>
    if x ≠ root then
      let x := h.parent x
      addGo root n (h.setSize x (h.size x + 1)) x
    else some h

/-- `rank_policy::add(x,root)`: ranked_index.hpp:295-303. -/
def augAdd (n : Nat) (h : Heap) (x root : Id) : Option Heap := addGo root n (h.setSize x 1) x

/-- `rank_policy::remove(x,root)`: ranked_index.hpp:305-312. -/
def augRemove (root : Id) : Nat → Heap → Id → Option Heap
  | 0, _, _ => none
  | n + 1, h, x =>
    if x ≠ root then
      let x := h.parent x
      augRemove root n (h.setSize x (h.size x - 1)) x
    else some h

/-- `rank_policy::copy(x,y)`: ranked_index.hpp:314-318. -/
def augCopy (h : Heap) (x y : Id) : Heap := h.setSize y (h.size x)

/-! ## Iterator steps -/

/-- `minimum(x)`: ord_index_node.hpp:318-322. -/
def minimum (h : Heap) : Nat → Id → Option Id
  | 0, _ => none
  | n + 1, x => if h.left x ≠ 0 then minimum h n (h.left x) else some x

/-- `maximum(x)`: ord_index_node.hpp:324-328. -/
def maximum (h : Heap) : Nat → Id → Option Id
  | 0, _ => none
  | n + 1, x => if h.right x ≠ 0 then maximum h n (h.right x) else some x

/-- The climbing loop of `increment`: ord_index_node.hpp:274-277. Returns `x` and `y`. -/
def climbRight (h : Heap) : Nat → Id → Id → Option (Id × Id)
  | 0, _, _ => none
  | n + 1, x, y => if x = h.right y then climbRight h n y (h.parent y) else some (x, y)

/-- `increment(x)`: ord_index_node.hpp:266-280. -/
def increment (h : Heap) (n : Nat) (x : Id) : Option Id :=
  if h.right x ≠ 0 then minimum h n (h.right x)
  else
    match climbRight h n x (h.parent x) with
    | none => none
    | some (x, y) => some (if h.right x ≠ y then y else x)

/-- The climbing loop of `decrement`: ord_index_node.hpp:293-296. Returns `y`. -/
def climbLeft (h : Heap) : Nat → Id → Id → Option Id
  | 0, _, _ => none
  | n + 1, x, y => if x = h.left y then climbLeft h n y (h.parent y) else some y

/-- `decrement(x)`: ord_index_node.hpp:282-299. -/
def decrement (h : Heap) (n : Nat) (x : Id) : Option Id :=
  if h.color x = .red ∧ h.parent (h.parent x) = x then some (h.right x)
  else if h.left x ≠ 0 then maximum h n (h.left x)
  else climbLeft h n x (h.parent x)

/-! ## Rotations -/

/-- `if(x==root) root=y; else if(x==x->parent()->left()) x->parent()->left()=y; else x->parent()->right()=y;`:
ord_index_node.hpp:310-312 (also 450-452 and 462-468, with `y` possibly null). -/
def relinkL (h : Heap) (hd x y : Id) : Heap :=
  if x = h.parent hd then h.setParent hd y
  else if x = h.left (h.parent x) then h.setLeft (h.parent x) y
  else h.setRight (h.parent x) y

/-- The same, testing the right side first: ord_index_node.hpp:337-339. -/
def relinkR (h : Heap) (hd x y : Id) : Heap :=
  if x = h.parent hd then h.setParent hd y
  else if x = h.right (h.parent x) then h.setRight (h.parent x) y
  else h.setLeft (h.parent x) y

/-- `rotate_left(x,root)`: ord_index_node.hpp:303-316. -/
def rotateLeft (h : Heap) (hd x : Id) : Heap :=
  let y := h.right x
  let h := h.setRight x (h.left y)
  let h := if h.left y ≠ 0 then h.setParent (h.left y) x else h
  let h := h.setParent y (h.parent x)
  let h := relinkL h hd x y
  let h := h.setLeft y x
  let h := h.setParent x y
  augRotate h x y

/-- `rotate_right(x,root)`: ord_index_node.hpp:330-343. -/
def rotateRight (h : Heap) (hd x : Id) : Heap :=
  let y := h.left x
  let h := h.setLeft x (h.right y)
  let h := if h.right y ≠ 0 then h.setParent (h.right y) x else h
  let h := h.setParent y (h.parent x)
  let h := relinkR h hd x y
  let h := h.setRight y x
  let h := h.setParent x y
  augRotate h x y

/-! ## Insertion -/

/-- Body of the loop of `rebalance` when the parent is a left child: ord_index_node.hpp:350-365. Returns the new `x`. -/
def rebalanceL (h : Heap) (hd x : Id) : Heap × Id :=
  let y := h.right (h.parent (h.parent x))
  if y ≠ 0 ∧ h.color y = .red then
    let h := h.setColor (h.parent x) .black
    let h := h.setColor y .black
    let h := h.setColor (h.parent (h.parent x)) .red
    (h, h.parent (h.parent x))
  else
    let (h, x) := if x = h.right (h.parent x) then (rotateLeft h hd (h.parent x), h.parent x) else (h, x)
    let h := h.setColor (h.parent x) .black
    let h := h.setColor (h.parent (h.parent x)) .red
    (rotateRight h hd (h.parent (h.parent x)), x)

/-- Body of the loop of `rebalance` otherwise: ord_index_node.hpp:368-383. -/
def rebalanceR (h : Heap) (hd x : Id) : Heap × Id :=
  let y := h.left (h.parent (h.parent x))
  if y ≠ 0 ∧ h.color y = .red then
    let h := h.setColor (h.parent x) .black
    let h := h.setColor y .black
    let h := h.setColor (h.parent (h.parent x)) .red
    (h, h.parent (h.parent x))
  else
    let (h, x) := if x = h.left (h.parent x) then (rotateRight h hd (h.parent x), h.parent x) else (h, x)
    let h := h.setColor (h.parent x) .black
    let h := h.setColor (h.parent (h.parent x)) .red
    (rotateLeft h hd (h.parent (h.parent x)), x)

/-- The loop of `rebalance`: ord_index_node.hpp:348-385. -/
def rebalanceGo (hd : Id) : Nat → Heap → Id → Option Heap
  | 0, _, _ => none
  | n + 1, h, x =>
    if x ≠ h.parent hd ∧ h.color (h.parent x) = .red then
      let r := if h.parent x = h.left (h.parent (h.parent x)) then rebalanceL h hd x else rebalanceR h hd x
      rebalanceGo hd n r.1 r.2
    else some h

/-- `rebalance(x,root)`: ord_index_node.hpp:345-387. -/
def rebalance (n : Nat) (h : Heap) (hd x : Id) : Option Heap :=
  match rebalanceGo hd n (h.setColor x .red) x with
  | none => none
  | some h => some (h.setColor (h.parent hd) .black)

/-- `link(x,side,position,header)`: ord_index_node.hpp:389-413. -/
def link (n : Nat) (h : Heap) (x : Id) (side : Side) (position hd : Id) : Option Heap :=
  let h :=
    match side with
    | .left =>
      let h := h.setLeft position x
      if position = hd then (h.setParent hd x).setRight hd x
      else if position = h.left hd then h.setLeft hd x
      else h
    | .right =>
      let h := h.setRight position x
      if position = h.right hd then h.setRight hd x else h
  let h := h.setParent x position
  let h := h.setLeft x 0
  let h := h.setRight x 0
  match augAdd n h x (h.parent hd) with
  | none => none
  | some h => rebalance n h hd x

/-! ## Removal -/

/-- Choice of `y` and `x`: ord_index_node.hpp:418-433. -/
def chooseExtract (n : Nat) (h : Heap) (z : Id) : Option (Id × Id) :=
  if h.left z = 0 then some (z, h.right z)
  else if h.right z = 0 then some (z, h.left z)
  else
    match minimum h n (h.right z) with
    | none => none
    | some y => some (y, h.right y)

/-- Relinking `y` in place of `z`: ord_index_node.hpp:436-456. Returns `x_parent`. -/
def replaceBySucc (h : Heap) (hd z y x : Id) : Heap × Id :=
  let h := augCopy h z y
  let h := h.setParent (h.left z) y
  let h := h.setLeft y (h.left z)
  let (h, xp) :=
    if y ≠ h.right z then
      let xp := h.parent y
      let h := if x ≠ 0 then h.setParent x (h.parent y) else h
      let h := h.setLeft (h.parent y) x
      let h := h.setRight y (h.right z)
      let h := h.setParent (h.right z) y
      (h, xp)
    else (h, y)
  let h := relinkL h hd z y
  let h := h.setParent y (h.parent z)
  let c := h.color y
  let h := h.setColor y (h.color z)
  let h := h.setColor z c
  (h, xp)

/-- Unlinking `z` with at most one child `x`: ord_index_node.hpp:460-484. Returns `x_parent`. -/
def spliceOut (n : Nat) (h : Heap) (hd z x : Id) : Option (Heap × Id) :=
  let xp := h.parent z
  let h := if x ≠ 0 then h.setParent x (h.parent z) else h
  let h := relinkL h hd z x
  let h? :=
    if h.left hd = z then
      if h.right z = 0 then some (h.setLeft hd (h.parent z))
      else (minimum h n x).map (h.setLeft hd)
    else some h
  match h? with
  | none => none
  | some h =>
    let h? :=
      if h.right hd = z then
        if h.left z = 0 then some (h.setRight hd (h.parent z))
        else (maximum h n x).map (h.setRight hd)
      else some h
    match h? with
    | none => none
    | some h => some (h, xp)

/-- Result of one round of the second loop of `rebalance_for_extract`: go on with `x` and `x_parent`, or `break`. -/
inductive Fix where
  | go (h : Heap) (x xp : Id)
  | stop (h : Heap)

/-- `p==pointer(0)||p->color()==black` -/
def isBlack (h : Heap) (p : Id) : Prop := p = 0 ∨ h.color p = .black

instance (h : Heap) (p : Id) : Decidable (isBlack h p) := by unfold isBlack; infer_instance

/-- Body of the loop for a left child: ord_index_node.hpp:489-515. -/
def extractFixL (h : Heap) (hd xp : Id) : Fix :=
  let w := h.right xp
  let (h, w) :=
    if h.color w = .red then
      let h := h.setColor w .black
      let h := h.setColor xp .red
      let h := rotateLeft h hd xp
      (h, h.right xp)
    else (h, w)
  if isBlack h (h.left w) ∧ isBlack h (h.right w) then
    .go (h.setColor w .red) xp (h.parent xp)
  else
    let (h, w) :=
      if isBlack h (h.right w) then
        let h := if h.left w ≠ 0 then h.setColor (h.left w) .black else h
        let h := h.setColor w .red
        let h := rotateRight h hd w
        (h, h.right xp)
      else (h, w)
    let h := h.setColor w (h.color xp)
    let h := h.setColor xp .black
    let h := if h.right w ≠ 0 then h.setColor (h.right w) .black else h
    .stop (rotateLeft h hd xp)

/-- Body of the loop for a right child: ord_index_node.hpp:518-543. -/
def extractFixR (h : Heap) (hd xp : Id) : Fix :=
  let w := h.left xp
  let (h, w) :=
    if h.color w = .red then
      let h := h.setColor w .black
      let h := h.setColor xp .red
      let h := rotateRight h hd xp
      (h, h.left xp)
    else (h, w)
  if isBlack h (h.right w) ∧ isBlack h (h.left w) then
    .go (h.setColor w .red) xp (h.parent xp)
  else
    let (h, w) :=
      if isBlack h (h.left w) then
        let h := if h.right w ≠ 0 then h.setColor (h.right w) .black else h
        let h := h.setColor w .red
        let h := rotateLeft h hd w
        (h, h.left xp)
      else (h, w)
    let h := h.setColor w (h.color xp)
    let h := h.setColor xp .black
    let h := if h.left w ≠ 0 then h.setColor (h.left w) .black else h
    .stop (rotateRight h hd xp)

/-- The second loop of `rebalance_for_extract`: ord_index_node.hpp:487-545. Returns also `x`. -/
def extractFix (hd : Id) : Nat → Heap → Id → Id → Option (Heap × Id)
  | 0, _, _, _ => none
  | n + 1, h, x, xp =>
    if x ≠ h.parent hd ∧ isBlack h x then
      match (if x = h.left xp then extractFixL h hd xp else extractFixR h hd xp) with
      | .go h x xp => extractFix hd n h x xp
      | .stop h => some (h, x)
    else some (h, x)

/-- `rebalance_for_extract(z,root,leftmost,rightmost)`: ord_index_node.hpp:415-549. The returned pointer is always `z`. -/
def extract (n : Nat) (h : Heap) (hd z : Id) : Option Heap :=
  match chooseExtract n h z with
  | none => none
  | some (y, x) =>
    match augRemove (h.parent hd) n h y with
    | none => none
    | some h =>
      match (if y ≠ z then some (replaceBySucc h hd z y x) else spliceOut n h hd z x) with
      | none => none
      | some (h, xp) =>
        if h.color z ≠ .red then
          match extractFix hd n h x xp with
          | none => none
          | some (h, x) => some (if x ≠ 0 then h.setColor x .black else h)
        else some h

/-- `restore(x,position,header)`: ord_index_node.hpp:551-560. -/
def restore (n : Nat) (h : Heap) (x position hd : Id) : Option Heap :=
  if h.left position = 0 ∨ h.left position = hd then link n h x .left position hd
  else
    match decrement h n position with
    | none => none
    | some position => link n h x .right position hd

/-- `empty_initialize()`: ord_index_impl.hpp:1140-1148. -/
def emptyInit (h : Heap) (hd : Id) : Heap :=
  (((h.setColor hd .red).setParent hd 0).setLeft hd hd).setRight hd hd

end MI.Ord
