import Verif.Ord.Heap
/-!
# Ordered indices: lookup, link points, ranks

Models detail/ord_index_ops.hpp, detail/rnk_index_ops.hpp, the lookup part of detail/ord_index_impl.hpp and of ranked_index.hpp.
Keys and comparison objects are parameters: `key x` is `key(x->value())`. The overloads of the code that only convert a key
before forwarding (`mpl::true_` versions, and the versions that use the stored comparison object) have no counterpart.
Loops take a budget `n` and return `none` if they do not finish within it.
-/
namespace MI.Ord
open MI

/-! ## Descents -/

/-- `while(top){if(q(top)){y=top;top=top->left();}else top=top->right();} return y;`: the loops of
`ordered_index_lower_bound` (ord_index_ops.hpp:146-154), `ordered_index_upper_bound` (192-200), `ordered_index_find` (100-106),
`lower_range` and `upper_range` (ord_index_impl.hpp:1429-1458). -/
def boundLoop (q : Id → Bool) (h : Heap) : Nat → Id → Id → Option Id
  | 0, _, _ => none
  | n + 1, top, y =>
    if top = 0 then some y
    else if q top then boundLoop q h n (h.left top) top
    else boundLoop q h n (h.right top) y

section Lookup
variable {K CK : Type} (key : Id → K)

/-- `ordered_index_lower_bound(top,y,key,x,comp)`: ord_index_ops.hpp:138-155; `ltk k x` is `comp(k,x)`. -/
def lowerBoundFrom (ltk : K → CK → Bool) (n : Nat) (h : Heap) (top y : Id) (x : CK) : Option Id :=
  boundLoop (fun p => !ltk (key p) x) h n top y

/-- `ordered_index_upper_bound(top,y,key,x,comp)`: ord_index_ops.hpp:184-201; `gtk x k` is `comp(x,k)`. -/
def upperBoundFrom (gtk : CK → K → Bool) (n : Nat) (h : Heap) (top y : Id) (x : CK) : Option Id :=
  boundLoop (fun p => gtk x (key p)) h n top y

/-- `lower_bound(x,comp)`: ord_index_impl.hpp:648-661. -/
def lowerBound (ltk : K → CK → Bool) (n : Nat) (h : Heap) (hd : Id) (x : CK) : Option Id :=
  lowerBoundFrom key ltk n h (h.parent hd) hd x

/-- `upper_bound(x,comp)`: ord_index_impl.hpp:663-676. -/
def upperBound (gtk : CK → K → Bool) (n : Nat) (h : Heap) (hd : Id) (x : CK) : Option Id :=
  upperBoundFrom key gtk n h (h.parent hd) hd x

/-- `find(x,comp)`: ord_index_ops.hpp:90-109, ord_index_impl.hpp:608-619. -/
def find (ltk : K → CK → Bool) (gtk : CK → K → Bool) (n : Nat) (h : Heap) (hd : Id) (x : CK) : Option Id :=
  match boundLoop (fun p => !ltk (key p) x) h n (h.parent hd) hd with
  | none => none
  | some y => some (if y = hd ∨ gtk x (key y) = true then hd else y)

/-- The loop of `ordered_index_equal_range` (ord_index_ops.hpp:240-257) and of `range` (ord_index_impl.hpp:1384-1401): `before p` sends
the search to the right, `after p` to the left; the two bounds are then searched with `lo` and `up`. -/
def rangeLoop (before after lo up : Id → Bool) (h : Heap) : Nat → Id → Id → Option (Id × Id)
  | 0, _, _ => none
  | n + 1, top, y =>
    if top = 0 then some (y, y)
    else if before top then rangeLoop before after lo up h n (h.right top) y
    else if after top then rangeLoop before after lo up h n (h.left top) top
    else
      match boundLoop lo h n (h.left top) top, boundLoop up h n (h.right top) y with
      | some a, some b => some (a, b)
      | _, _ => none

/-- `equal_range(x,comp)`: ord_index_ops.hpp:232-258, ord_index_impl.hpp:678-696. -/
def equalRange (ltk : K → CK → Bool) (gtk : CK → K → Bool) (n : Nat) (h : Heap) (hd : Id) (x : CK) : Option (Id × Id) :=
  rangeLoop (fun p => ltk (key p) x) (fun p => gtk x (key p)) (fun p => !ltk (key p) x) (fun p => gtk x (key p))
    h n (h.parent hd) hd

/-- `std::distance(first,last)` on index iterators. -/
def distance (h : Heap) (n : Nat) : Nat → Id → Id → Option Nat
  | 0, _, _ => none
  | m + 1, first, last =>
    if first = last then some 0
    else match increment h n first with
      | none => none
      | some nx => (distance h n m nx last).map (· + 1)

/-- `count(x,comp)`: ord_index_impl.hpp:627-633. -/
def count (ltk : K → CK → Bool) (gtk : CK → K → Bool) (n : Nat) (h : Heap) (hd : Id) (x : CK) : Option Nat :=
  match equalRange key ltk gtk n h hd x with
  | none => none
  | some (a, b) => distance h n n a b

/-- `contains(x,comp)`: ord_index_impl.hpp:641-646. -/
def contains (ltk : K → CK → Bool) (gtk : CK → K → Bool) (n : Nat) (h : Heap) (hd : Id) (x : CK) : Option Bool :=
  (find key ltk gtk n h hd x).map (fun p => decide (p ≠ hd))

/-- `range(lower,upper)`: ord_index_impl.hpp:700-719 and 1377-1427; an absent bound is `unbounded`. `begin()` is `header()->left()`. -/
def range (lower upper : Option (K → Bool)) (n : Nat) (h : Heap) (hd : Id) : Option (Id × Id) :=
  match lower, upper with
  | some lo, some up =>
    rangeLoop (fun p => !lo (key p)) (fun p => !up (key p)) (fun p => lo (key p)) (fun p => !up (key p)) h n (h.parent hd) hd
  | none, some up => (boundLoop (fun p => !up (key p)) h n (h.parent hd) hd).map (fun b => (h.left hd, b))
  | some lo, none => (boundLoop (fun p => lo (key p)) h n (h.parent hd) hd).map (fun a => (a, hd))
  | none, none => some (h.left hd, hd)

end Lookup

/-! ## Link points -/

/-- The descent of `link_point` (ord_index_impl.hpp:1161-1168, 1192-1199) and `lower_link_point` (1207-1214): returns the last node
visited and the side taken there; the side is `to_left` when nothing was visited. -/
def descend (goLeft : Id → Bool) (h : Heap) : Nat → Id → Id → Side → Option (Id × Side)
  | 0, _, _, _ => none
  | n + 1, x, y, s =>
    if x = 0 then some (y, s)
    else if goLeft x then descend goLeft h n (h.left x) x .left
    else descend goLeft h n (h.right x) x .right

/-- Result of looking for a link point: `accept side pos` when the function returns true, `reject pos` when it returns false. -/
inductive Point where
  | accept (side : Side) (pos : Id)
  | reject (pos : Id)
deriving DecidableEq, Repr

section Points
variable {K : Type} (key : Id → K) (lt : K → K → Bool)

/-- `link_point(k,inf,ordered_unique_tag)`: ord_index_impl.hpp:1159-1188. -/
def linkPointU (n : Nat) (h : Heap) (hd : Id) (k : K) : Option Point :=
  match descend (fun x => lt k (key x)) h n (h.parent hd) hd .left with
  | none => none
  | some (y, s) =>
    if s = .left ∧ y = h.left hd then some (.accept .left y)
    else
      match (if s = .left then decrement h n y else some y) with
      | none => none
      | some yy => some (if lt (key yy) k then .accept s y else .reject yy)

/-- `link_point(k,inf,ordered_non_unique_tag)`: ord_index_impl.hpp:1190-1203. -/
def linkPointN (n : Nat) (h : Heap) (hd : Id) (k : K) : Option Point :=
  match descend (fun x => lt k (key x)) h n (h.parent hd) hd .left with
  | none => none
  | some (y, s) => some (.accept s y)

/-- `lower_link_point(k,inf,ordered_non_unique_tag)`: ord_index_impl.hpp:1205-1218. -/
def lowerLinkPoint (n : Nat) (h : Heap) (hd : Id) (k : K) : Option Point :=
  match descend (fun x => !lt (key x) k) h n (h.parent hd) hd .left with
  | none => none
  | some (y, s) => some (.accept s y)

/-- `hinted_link_point(k,position,inf,ordered_unique_tag)`: ord_index_impl.hpp:1220-1257. `size()>0` is `header()->parent()≠0`
(the test only guards the access to `position->value()`, and `size()` is the number of linked nodes: see the container model). -/
def hintedPointU (n : Nat) (h : Heap) (hd : Id) (k : K) (position : Id) : Option Point :=
  if position = h.left hd then
    if h.parent hd ≠ 0 ∧ lt k (key position) = true then some (.accept .left position)
    else linkPointU key lt n h hd k
  else if position = hd then
    if lt (key (h.right hd)) k then some (.accept .right (h.right hd))
    else linkPointU key lt n h hd k
  else
    match decrement h n position with
    | none => none
    | some before =>
      if lt (key before) k = true ∧ lt k (key position) = true then
        if h.right before = 0 then some (.accept .right before) else some (.accept .left position)
      else linkPointU key lt n h hd k

/-- `hinted_link_point(k,position,inf,ordered_non_unique_tag)`: ord_index_impl.hpp:1259-1299. -/
def hintedPointN (n : Nat) (h : Heap) (hd : Id) (k : K) (position : Id) : Option Point :=
  if position = h.left hd then
    if h.parent hd ≠ 0 ∧ lt (key position) k = false then some (.accept .left position)
    else lowerLinkPoint key lt n h hd k
  else if position = hd then
    if lt k (key (h.right hd)) = false then some (.accept .right (h.right hd))
    else linkPointN key lt n h hd k
  else
    match decrement h n position with
    | none => none
    | some before =>
      if lt k (key before) = false then
        if lt (key position) k = false then
          if h.right before = 0 then some (.accept .right before) else some (.accept .left position)
        else lowerLinkPoint key lt n h hd k
      else linkPointN key lt n h hd k

/-- The choice between `link_point` and `hinted_link_point` made by the two versions of `insert_`: ord_index_impl.hpp:847, 867. -/
def pointU (n : Nat) (h : Heap) (hd : Id) (k : K) : Option Id → Option Point
  | none => linkPointU key lt n h hd k
  | some position => hintedPointU key lt n h hd k position

/-- The same for non-unique indices. -/
def pointN (n : Nat) (h : Heap) (hd : Id) (k : K) : Option Id → Option Point
  | none => linkPointN key lt n h hd k
  | some position => hintedPointN key lt n h hd k position

/-- `in_place(v,x,ordered_unique_tag)`: ord_index_impl.hpp:1310-1322; `k` is `key(v)`. -/
def inPlaceU (n : Nat) (h : Heap) (hd : Id) (k : K) (x : Id) : Option Bool :=
  match (if x ≠ h.left hd then (decrement h n x).map (fun y => lt (key y) k) else some true) with
  | none => none
  | some false => some false
  | some true =>
    match increment h n x with
    | none => none
    | some y => some (decide (y = hd) || lt k (key y))

/-- `in_place(v,x,ordered_non_unique_tag)`: ord_index_impl.hpp:1324-1337. -/
def inPlaceN (n : Nat) (h : Heap) (hd : Id) (k : K) (x : Id) : Option Bool :=
  match (if x ≠ h.left hd then (decrement h n x).map (fun y => !lt k (key y)) else some true) with
  | none => none
  | some false => some false
  | some true =>
    match increment h n x with
    | none => none
    | some y => some (decide (y = hd) || !lt (key y) k)

/-- `insert_` of an ordered index that is the only index of its container, given the outcome of `link_point` or
`hinted_link_point`: ord_index_impl.hpp:842-879. Returns the node with which the caller is left: `x`, or the rejecting one. (The
general case, with other indices below, is in the container model.) -/
def insertAt (n : Nat) (h : Heap) (hd x : Id) (pt : Option Point) : Option (Heap × Id) :=
  match pt with
  | none => none
  | some (.reject p) => some (h, p)
  | some (.accept side pos) => (link n h x side pos hd).map (fun h => (h, x))

end Points

/-! ## Ranks -/

/-- The loop of `ranked_index_nth`: rnk_index_ops.hpp:55-63. -/
def nthGo (h : Heap) : Nat → Nat → Id → Option Id
  | 0, _, _ => none
  | n + 1, i, top =>
    let s := nodeSize h (h.left top)
    if i = s then some top
    else if i < s then nthGo h n i (h.left top)
    else nthGo h n (i - (s + 1)) (h.right top)

/-- `nth(i)`: rnk_index_ops.hpp:46-64, ranked_index.hpp:69-73. -/
def nth (n : Nat) (h : Heap) (hd : Id) (i : Nat) : Option Id :=
  let top := h.parent hd
  if top = 0 ∨ i ≥ h.size top then some hd else nthGo h n i top

/-- The loop of `ranked_index_rank`: rnk_index_ops.hpp:77-84. -/
def rankGo (h : Heap) (top : Id) : Nat → Id → Nat → Option Nat
  | 0, _, _ => none
  | n + 1, x, s =>
    if x ≠ top then
      let z := h.parent x
      rankGo h top n z (if x = h.right z then s + (nodeSize h (h.left z) + 1) else s)
    else some s

/-- `rank(x)`: rnk_index_ops.hpp:66-85, ranked_index.hpp:75-82. -/
def rank (n : Nat) (h : Heap) (hd x : Id) : Option Nat :=
  let top := h.parent hd
  if top = 0 then some 0
  else if x = hd then some (h.size top)
  else rankGo h top n x (nodeSize h (h.left x))

/-- The `do … while(top)` loops of `ranked_index_lower_bound_rank` (rnk_index_ops.hpp:185-192), `ranked_index_upper_bound_rank`
(238-245), `ranked_index_find_rank` (132-139), `lower_range_rank` (ranked_index.hpp:243-250) and `upper_range_rank` (264-271);
returns `s` and `y`. -/
def rankLoop (q : Id → Bool) (h : Heap) : Nat → Id → Id → Nat → Option (Nat × Id)
  | 0, _, _, _ => none
  | n + 1, top, y, s =>
    let r := if q top then (h.left top, top, s - (nodeSize h (h.right top) + 1)) else (h.right top, y, s)
    if r.1 = 0 then some (r.2.2, r.2.1) else rankLoop q h n r.1 r.2.1 r.2.2

/-- `if(!top)return 0; s=top->size; do …; return s;`: rnk_index_ops.hpp:171-195, 224-248, ranked_index.hpp:234-274. -/
def boundRank (q : Id → Bool) (n : Nat) (h : Heap) (top y : Id) : Option Nat :=
  if top = 0 then some 0 else (rankLoop q h n top y (h.size top)).map (·.1)

/-- The loop of `ranked_index_equal_range_rank` (rnk_index_ops.hpp:296-316) and of `range_rank` (ranked_index.hpp:188-206). -/
def rangeRankLoop (before after lo up : Id → Bool) (h : Heap) : Nat → Id → Id → Nat → Option (Nat × Nat)
  | 0, _, _, _ => none
  | n + 1, top, y, s =>
    if before top then
      if h.right top = 0 then some (s, s) else rangeRankLoop before after lo up h n (h.right top) y s
    else if after top then
      let s := s - (nodeSize h (h.right top) + 1)
      if h.left top = 0 then some (s, s) else rangeRankLoop before after lo up h n (h.left top) top s
    else
      match boundRank lo n h (h.left top) top, boundRank up n h (h.right top) y with
      | some a, some b => some (s - h.size top + a, s - nodeSize h (h.right top) + b)
      | _, _ => none

section Ranks
variable {K CK : Type} (key : Id → K)

/-- `lower_bound_rank(x,comp)`: rnk_index_ops.hpp:171-195, ranked_index.hpp:99-112. -/
def lowerBoundRank (ltk : K → CK → Bool) (n : Nat) (h : Heap) (hd : Id) (x : CK) : Option Nat :=
  boundRank (fun p => !ltk (key p) x) n h (h.parent hd) hd

/-- `upper_bound_rank(x,comp)`: rnk_index_ops.hpp:224-248, ranked_index.hpp:114-127. -/
def upperBoundRank (gtk : CK → K → Bool) (n : Nat) (h : Heap) (hd : Id) (x : CK) : Option Nat :=
  boundRank (fun p => gtk x (key p)) n h (h.parent hd) hd

/-- `find_rank(x,comp)`: rnk_index_ops.hpp:116-142, ranked_index.hpp:84-97. -/
def findRank (ltk : K → CK → Bool) (gtk : CK → K → Bool) (n : Nat) (h : Heap) (hd : Id) (x : CK) : Option Nat :=
  let top := h.parent hd
  if top = 0 then some 0
  else
    match rankLoop (fun p => !ltk (key p) x) h n top hd (h.size top) with
    | none => none
    | some (s, y) => some (if y = hd ∨ gtk x (key y) = true then h.size top else s)

/-- `equal_range_rank(x,comp)`: rnk_index_ops.hpp:281-317, ranked_index.hpp:129-143. -/
def equalRangeRank (ltk : K → CK → Bool) (gtk : CK → K → Bool) (n : Nat) (h : Heap) (hd : Id) (x : CK) : Option (Nat × Nat) :=
  let top := h.parent hd
  if top = 0 then some (0, 0)
  else
    rangeRankLoop (fun p => ltk (key p) x) (fun p => gtk x (key p)) (fun p => !ltk (key p) x) (fun p => gtk x (key p))
      h n top hd (h.size top)

/-- `count(x,comp)` of ranked indices: ranked_index.hpp:60-65. -/
def countRanked (ltk : K → CK → Bool) (gtk : CK → K → Bool) (n : Nat) (h : Heap) (hd : Id) (x : CK) : Option Nat :=
  (equalRangeRank key ltk gtk n h hd x).map (fun p => p.2 - p.1)

/-- `range_rank(lower,upper)`: ranked_index.hpp:145-232; `sz` is `size()`. -/
def rangeRank (lower upper : Option (K → Bool)) (n : Nat) (h : Heap) (hd : Id) (sz : Nat) : Option (Nat × Nat) :=
  let top := h.parent hd
  match lower, upper with
  | some lo, some up =>
    if top = 0 then some (0, 0)
    else
      rangeRankLoop (fun p => !lo (key p)) (fun p => !up (key p)) (fun p => lo (key p)) (fun p => !up (key p))
        h n top hd (h.size top)
  | none, some up => (boundRank (fun p => !up (key p)) n h top hd).map (fun b => (0, b))
  | some lo, none => (boundRank (fun p => lo (key p)) n h top hd).map (fun a => (a, sz))
  | none, none => some (0, sz)

end Ranks

end MI.Ord
