import Verif.Ord.Search
import Verif.Spec.Calls
/-!
# Ordered indices: where user comparisons are called

The functions of `Verif/Ord/Search.lean` that call the user comparison object, once more, with every call explicit. The lines cited there
are modelled here too; `Verif/Ord/CallsLemmas.lean` proves that the two versions compute the same.
-/
namespace MI.Ord
open MI

/-- A call of the comparison object: `before k x` is `comp(k,x)`, `after x k` is `comp(x,k)`, with `k` the key of an element. -/
inductive Cmp (K CK : Type) where
  | before (k : K) (x : CK)
  | after (x : CK) (k : K)

/-- Answers of a pair of comparison functions. -/
def Cmp.ans {K CK : Type} (ltk : K → CK → Bool) (gtk : CK → K → Bool) : Cmp K CK → Bool
  | .before k x => ltk k x
  | .after x k => gtk x k

/-- `while(top){if(q(top)){y=top;top=top->left();}else top=top->right();} return y;` with calls in `q`: ord_index_ops.hpp:146-154, 192-200,
100-106, ord_index_impl.hpp:1429-1458. -/
def boundLoopA {Q : Type} (q : Id → Asks Q Bool) (h : Heap) : Nat → Id → Id → Asks Q (Option Id)
  | 0, _, _ => pure none
  | n + 1, top, y => do
    if top = 0 then return some y
    if ← q top then boundLoopA q h n (h.left top) top
    else boundLoopA q h n (h.right top) y

/-- The loop of `ordered_index_equal_range` (ord_index_ops.hpp:240-257) and of `range` (ord_index_impl.hpp:1384-1401). -/
def rangeLoopA {Q : Type} (before after lo up : Id → Asks Q Bool) (h : Heap) : Nat → Id → Id → Asks Q (Option (Id × Id))
  | 0, _, _ => pure none
  | n + 1, top, y => do
    if top = 0 then return some (y, y)
    if ← before top then rangeLoopA before after lo up h n (h.right top) y
    else if ← after top then rangeLoopA before after lo up h n (h.left top) top
    else
      let a ← boundLoopA lo h n (h.left top) top
      let b ← boundLoopA up h n (h.right top) y
      match a, b with
      | some a, some b => return some (a, b)
      | _, _ => return none

section Lookup
variable {K CK : Type} (key : Id → K)

/-- `comp(key(p->value()),x)`. -/
def isBefore (x : CK) (p : Id) : Asks (Cmp K CK) Bool := Asks.ask (.before (key p) x)
/-- `!comp(key(p->value()),x)`. -/
def notBefore (x : CK) (p : Id) : Asks (Cmp K CK) Bool := do return !(← isBefore key x p)
/-- `comp(x,key(p->value()))`. -/
def isAfter (x : CK) (p : Id) : Asks (Cmp K CK) Bool := Asks.ask (.after x (key p))

/-- `lower_bound(x,comp)`: ord_index_ops.hpp:138-155, ord_index_impl.hpp:648-661. -/
def lowerBoundA (n : Nat) (h : Heap) (hd : Id) (x : CK) : Asks (Cmp K CK) (Option Id) :=
  boundLoopA (notBefore key x) h n (h.parent hd) hd

/-- `upper_bound(x,comp)`: ord_index_ops.hpp:184-201, ord_index_impl.hpp:663-676. -/
def upperBoundA (n : Nat) (h : Heap) (hd : Id) (x : CK) : Asks (Cmp K CK) (Option Id) :=
  boundLoopA (isAfter key x) h n (h.parent hd) hd

/-- `find(x,comp)`: ord_index_ops.hpp:90-109, ord_index_impl.hpp:608-619; `||` does not call when `y` is the header. -/
def findA (n : Nat) (h : Heap) (hd : Id) (x : CK) : Asks (Cmp K CK) (Option Id) := do
  match ← boundLoopA (notBefore key x) h n (h.parent hd) hd with
  | none => return none
  | some y =>
    if y = hd then return some hd
    if ← isAfter key x y then return some hd
    return some y

/-- `equal_range(x,comp)`: ord_index_ops.hpp:232-258, ord_index_impl.hpp:678-696. -/
def equalRangeA (n : Nat) (h : Heap) (hd : Id) (x : CK) : Asks (Cmp K CK) (Option (Id × Id)) :=
  rangeLoopA (isBefore key x) (isAfter key x) (notBefore key x) (isAfter key x) h n (h.parent hd) hd

/-- `count(x,comp)`: ord_index_impl.hpp:627-633. -/
def countA (n : Nat) (h : Heap) (hd : Id) (x : CK) : Asks (Cmp K CK) (Option Nat) := do
  match ← equalRangeA key n h hd x with
  | none => return none
  | some (a, b) => return distance h n n a b

/-- A call of one of the bounds given to `range`: the lower one (`lower`) or the upper one. -/
inductive Bnd (K : Type) where
  | lower (k : K)
  | upper (k : K)

/-- Answers of a pair of bounds. -/
def Bnd.ans {K : Type} (lo up : K → Bool) : Bnd K → Bool
  | .lower k => lo k
  | .upper k => up k

/-- `lower(key(p->value()))`. -/
def inLower (p : Id) : Asks (Bnd K) Bool := Asks.ask (.lower (key p))
/-- `!lower(key(p->value()))`. -/
def notLower (p : Id) : Asks (Bnd K) Bool := do return !(← inLower key p)
/-- `!upper(key(p->value()))`. -/
def notUpper (p : Id) : Asks (Bnd K) Bool := do return !(← Asks.ask (.upper (key p)))

/-- `range(lower,upper)`: ord_index_impl.hpp:700-719 and 1377-1427; `hasLo`, `hasUp` are false for `unbounded`. -/
def rangeA (hasLo hasUp : Bool) (n : Nat) (h : Heap) (hd : Id) : Asks (Bnd K) (Option (Id × Id)) :=
  match hasLo, hasUp with
  | true, true => rangeLoopA (notLower key) (notUpper key) (inLower key) (notUpper key) h n (h.parent hd) hd
  | false, true => do return (← boundLoopA (notUpper key) h n (h.parent hd) hd).map (fun b => (h.left hd, b))
  | true, false => do return (← boundLoopA (inLower key) h n (h.parent hd) hd).map (fun a => (a, hd))
  | false, false => pure (some (h.left hd, hd))

end Lookup

section Points
variable {K : Type} (key : Id → K)

/-- A call of the comparison object on two keys. -/
abbrev Cmp2 (K : Type) := K × K

/-- The descent of `link_point` (ord_index_impl.hpp:1161-1168, 1192-1199) and `lower_link_point` (1207-1214). -/
def descendA {Q : Type} (goLeft : Id → Asks Q Bool) (h : Heap) : Nat → Id → Id → Side → Asks Q (Option (Id × Side))
  | 0, _, _, _ => pure none
  | n + 1, x, y, s => do
    if x = 0 then return some (y, s)
    if ← goLeft x then descendA goLeft h n (h.left x) x .left
    else descendA goLeft h n (h.right x) x .right

/-- `link_point(k,inf,ordered_unique_tag)`: ord_index_impl.hpp:1159-1188. -/
def linkPointUA (n : Nat) (h : Heap) (hd : Id) (k : K) : Asks (Cmp2 K) (Option Point) := do
  match ← descendA (fun x => Asks.ask (k, key x)) h n (h.parent hd) hd .left with
  | none => return none
  | some (y, s) =>
    if s = .left ∧ y = h.left hd then return some (.accept .left y)
    match (if s = .left then decrement h n y else some y) with
    | none => return none
    | some yy =>
      if ← Asks.ask (key yy, k) then return some (.accept s y)
      return some (.reject yy)

/-- `link_point(k,inf,ordered_non_unique_tag)`: ord_index_impl.hpp:1190-1203. -/
def linkPointNA (n : Nat) (h : Heap) (hd : Id) (k : K) : Asks (Cmp2 K) (Option Point) := do
  match ← descendA (fun x => Asks.ask (k, key x)) h n (h.parent hd) hd .left with
  | none => return none
  | some (y, s) => return some (.accept s y)

/-- `lower_link_point(k,inf,ordered_non_unique_tag)`: ord_index_impl.hpp:1205-1218. -/
def lowerLinkPointA (n : Nat) (h : Heap) (hd : Id) (k : K) : Asks (Cmp2 K) (Option Point) := do
  match ← descendA (fun x => do return !(← Asks.ask (key x, k))) h n (h.parent hd) hd .left with
  | none => return none
  | some (y, s) => return some (.accept s y)

/-- `hinted_link_point(k,position,inf,ordered_unique_tag)`: ord_index_impl.hpp:1220-1257. -/
def hintedPointUA (n : Nat) (h : Heap) (hd : Id) (k : K) (position : Id) : Asks (Cmp2 K) (Option Point) := do
  if position = h.left hd then
    if h.parent hd ≠ 0 then
      if ← Asks.ask (k, key position) then return some (.accept .left position)
      linkPointUA key n h hd k
    else linkPointUA key n h hd k
  else if position = hd then
    if ← Asks.ask (key (h.right hd), k) then return some (.accept .right (h.right hd))
    linkPointUA key n h hd k
  else
    match decrement h n position with
    | none => return none
    | some before =>
      if ← Asks.ask (key before, k) then
        if ← Asks.ask (k, key position) then
          if h.right before = 0 then return some (.accept .right before) else return some (.accept .left position)
        linkPointUA key n h hd k
      else linkPointUA key n h hd k

/-- `hinted_link_point(k,position,inf,ordered_non_unique_tag)`: ord_index_impl.hpp:1259-1299. -/
def hintedPointNA (n : Nat) (h : Heap) (hd : Id) (k : K) (position : Id) : Asks (Cmp2 K) (Option Point) := do
  if position = h.left hd then
    if h.parent hd ≠ 0 then
      if !(← Asks.ask (key position, k)) then return some (.accept .left position)
      lowerLinkPointA key n h hd k
    else lowerLinkPointA key n h hd k
  else if position = hd then
    if !(← Asks.ask (k, key (h.right hd))) then return some (.accept .right (h.right hd))
    linkPointNA key n h hd k
  else
    match decrement h n position with
    | none => return none
    | some before =>
      if !(← Asks.ask (k, key before)) then
        if !(← Asks.ask (key position, k)) then
          if h.right before = 0 then return some (.accept .right before) else return some (.accept .left position)
        lowerLinkPointA key n h hd k
      else linkPointNA key n h hd k

/-- `in_place(v,x,ordered_unique_tag)`: ord_index_impl.hpp:1310-1322. -/
def inPlaceUA (n : Nat) (h : Heap) (hd : Id) (k : K) (x : Id) : Asks (Cmp2 K) (Option Bool) := do
  match ← (if x ≠ h.left hd then
      match decrement h n x with
      | none => return none
      | some y => return some (← Asks.ask (key y, k))
    else return some true : Asks (Cmp2 K) (Option Bool)) with
  | none => return none
  | some false => return some false
  | some true =>
    match increment h n x with
    | none => return none
    | some y => if y = hd then return some true else return some (← Asks.ask (k, key y))

/-- `in_place(v,x,ordered_non_unique_tag)`: ord_index_impl.hpp:1324-1337. -/
def inPlaceNA (n : Nat) (h : Heap) (hd : Id) (k : K) (x : Id) : Asks (Cmp2 K) (Option Bool) := do
  match ← (if x ≠ h.left hd then
      match decrement h n x with
      | none => return none
      | some y => return some (!(← Asks.ask (k, key y)))
    else return some true : Asks (Cmp2 K) (Option Bool)) with
  | none => return none
  | some false => return some false
  | some true =>
    match increment h n x with
    | none => return none
    | some y => if y = hd then return some true else return some (!(← Asks.ask (key y, k)))

end Points

/-! ## Ranks -/

/-- The `do … while(top)` loops of rnk_index_ops.hpp:185-192, 238-245, 132-139 and ranked_index.hpp:243-250, 264-271. -/
def rankLoopA {Q : Type} (q : Id → Asks Q Bool) (h : Heap) : Nat → Id → Id → Nat → Asks Q (Option (Nat × Id))
  | 0, _, _, _ => pure none
  | n + 1, top, y, s => do
    let r := if ← q top then (h.left top, top, s - (nodeSize h (h.right top) + 1)) else (h.right top, y, s)
    if r.1 = 0 then return some (r.2.2, r.2.1)
    rankLoopA q h n r.1 r.2.1 r.2.2

/-- rnk_index_ops.hpp:171-195, 224-248, ranked_index.hpp:234-274. -/
def boundRankA {Q : Type} (q : Id → Asks Q Bool) (n : Nat) (h : Heap) (top y : Id) : Asks Q (Option Nat) := do
  if top = 0 then return some 0
  return (← rankLoopA q h n top y (h.size top)).map (·.1)

/-- The loop of `ranked_index_equal_range_rank` (rnk_index_ops.hpp:296-316) and of `range_rank` (ranked_index.hpp:188-206). -/
def rangeRankLoopA {Q : Type} (before after lo up : Id → Asks Q Bool) (h : Heap) : Nat → Id → Id → Nat → Asks Q (Option (Nat × Nat))
  | 0, _, _, _ => pure none
  | n + 1, top, y, s => do
    if ← before top then
      if h.right top = 0 then return some (s, s)
      rangeRankLoopA before after lo up h n (h.right top) y s
    else if ← after top then
      let s := s - (nodeSize h (h.right top) + 1)
      if h.left top = 0 then return some (s, s)
      rangeRankLoopA before after lo up h n (h.left top) top s
    else
      let a ← boundRankA lo n h (h.left top) top
      let b ← boundRankA up n h (h.right top) y
      match a, b with
      | some a, some b => return some (s - h.size top + a, s - nodeSize h (h.right top) + b)
      | _, _ => return none

section Ranks
variable {K CK : Type} (key : Id → K)

/-- `lower_bound_rank(x,comp)`: rnk_index_ops.hpp:171-195, ranked_index.hpp:99-112. -/
def lowerBoundRankA (n : Nat) (h : Heap) (hd : Id) (x : CK) : Asks (Cmp K CK) (Option Nat) :=
  boundRankA (notBefore key x) n h (h.parent hd) hd

/-- `upper_bound_rank(x,comp)`: rnk_index_ops.hpp:224-248, ranked_index.hpp:114-127. -/
def upperBoundRankA (n : Nat) (h : Heap) (hd : Id) (x : CK) : Asks (Cmp K CK) (Option Nat) :=
  boundRankA (isAfter key x) n h (h.parent hd) hd

/-- `find_rank(x,comp)`: rnk_index_ops.hpp:116-142, ranked_index.hpp:84-97. -/
def findRankA (n : Nat) (h : Heap) (hd : Id) (x : CK) : Asks (Cmp K CK) (Option Nat) := do
  let top := h.parent hd
  if top = 0 then return some 0
  match ← rankLoopA (notBefore key x) h n top hd (h.size top) with
  | none => return none
  | some (s, y) =>
    if y = hd then return some (h.size top)
    if ← isAfter key x y then return some (h.size top)
    return some s

/-- `equal_range_rank(x,comp)`: rnk_index_ops.hpp:281-317, ranked_index.hpp:129-143. -/
def equalRangeRankA (n : Nat) (h : Heap) (hd : Id) (x : CK) : Asks (Cmp K CK) (Option (Nat × Nat)) := do
  let top := h.parent hd
  if top = 0 then return some (0, 0)
  rangeRankLoopA (isBefore key x) (isAfter key x) (notBefore key x) (isAfter key x) h n top hd (h.size top)

/-- `count(x,comp)` of ranked indices: ranked_index.hpp:60-65. -/
def countRankedA (n : Nat) (h : Heap) (hd : Id) (x : CK) : Asks (Cmp K CK) (Option Nat) := do
  return (← equalRangeRankA key n h hd x).map (fun p => p.2 - p.1)

end Ranks
end MI.Ord
