import Verif.Ord.Steps
/-!
# Ordered indices: numbers of rounds of the operations of the interface

The operations of an ordered index that is the only index of its container, with the numbers of rounds of the loops they run (`Steps.lean`). Looking for a link
point, `in_place` and `restore` are those of `Search.lean` and `Heap.lean`, with the rounds added; `act` puts them together.
-/
namespace MI.Ord
open MI

/-- `w` more rounds. -/
def more {α : Type} (w : Nat) : Option (α × Nat) → Option (α × Nat)
  | none => none
  | some (a, c) => some (a, w + c)

@[simp] theorem more_some {α : Type} (w : Nat) (a : α) (c : Nat) : more w (some (a, c)) = some (a, w + c) := rfl
@[simp] theorem more_none {α : Type} (w : Nat) : more w (none : Option (α × Nat)) = none := rfl
@[simp] theorem more_map {α : Type} (w : Nat) (o : Option (α × Nat)) : (more w o).map (·.1) = o.map (·.1) := by rcases o with _ | ⟨a, c⟩ <;> rfl

/-- The descent of `link_point` (ord_index_impl.hpp:1161-1168, 1192-1199) and `lower_link_point` (1207-1214). -/
def descendS (goLeft : Id → Bool) (h : Heap) : Nat → Id → Id → Side → Option ((Id × Side) × Nat)
  | 0, _, _, _ => none
  | n + 1, x, y, s =>
    if x = 0 then some ((y, s), 0)
    else if goLeft x then tick (descendS goLeft h n (h.left x) x .left)
    else tick (descendS goLeft h n (h.right x) x .right)

section Points
variable {K : Type} (key : Id → K) (lt : K → K → Bool)

/-- `link_point(k,inf,ordered_unique_tag)`: ord_index_impl.hpp:1159-1188. -/
def linkPointUS (n : Nat) (h : Heap) (hd : Id) (k : K) : Option (Point × Nat) :=
  match descendS (fun x => lt k (key x)) h n (h.parent hd) hd .left with
  | none => none
  | some ((y, s), w) =>
    if s = .left ∧ y = h.left hd then some (.accept .left y, w)
    else
      match (if s = .left then decrementS h n y else some (y, 0)) with
      | none => none
      | some (yy, w') => some (if lt (key yy) k then .accept s y else .reject yy, w + w')

/-- `link_point(k,inf,ordered_non_unique_tag)`: ord_index_impl.hpp:1190-1203. -/
def linkPointNS (n : Nat) (h : Heap) (hd : Id) (k : K) : Option (Point × Nat) :=
  match descendS (fun x => lt k (key x)) h n (h.parent hd) hd .left with
  | none => none
  | some ((y, s), w) => some (.accept s y, w)

/-- `lower_link_point(k,inf,ordered_non_unique_tag)`: ord_index_impl.hpp:1205-1218. -/
def lowerLinkPointS (n : Nat) (h : Heap) (hd : Id) (k : K) : Option (Point × Nat) :=
  match descendS (fun x => !lt (key x) k) h n (h.parent hd) hd .left with
  | none => none
  | some ((y, s), w) => some (.accept s y, w)

/-- `hinted_link_point(k,position,inf,ordered_unique_tag)`: ord_index_impl.hpp:1220-1257. -/
def hintedPointUS (n : Nat) (h : Heap) (hd : Id) (k : K) (position : Id) : Option (Point × Nat) :=
  if position = h.left hd then
    if h.parent hd ≠ 0 ∧ lt k (key position) = true then some (.accept .left position, 0)
    else linkPointUS key lt n h hd k
  else if position = hd then
    if lt (key (h.right hd)) k then some (.accept .right (h.right hd), 0)
    else linkPointUS key lt n h hd k
  else
    match decrementS h n position with
    | none => none
    | some (before, w) =>
      if lt (key before) k = true ∧ lt k (key position) = true then
        if h.right before = 0 then some (.accept .right before, w) else some (.accept .left position, w)
      else more w (linkPointUS key lt n h hd k)

/-- `hinted_link_point(k,position,inf,ordered_non_unique_tag)`: ord_index_impl.hpp:1259-1299. -/
def hintedPointNS (n : Nat) (h : Heap) (hd : Id) (k : K) (position : Id) : Option (Point × Nat) :=
  if position = h.left hd then
    if h.parent hd ≠ 0 ∧ lt (key position) k = false then some (.accept .left position, 0)
    else lowerLinkPointS key lt n h hd k
  else if position = hd then
    if lt k (key (h.right hd)) = false then some (.accept .right (h.right hd), 0)
    else linkPointNS key lt n h hd k
  else
    match decrementS h n position with
    | none => none
    | some (before, w) =>
      if lt k (key before) = false then
        if lt (key position) k = false then
          if h.right before = 0 then some (.accept .right before, w) else some (.accept .left position, w)
        else more w (lowerLinkPointS key lt n h hd k)
      else more w (linkPointNS key lt n h hd k)

/-- The choice made by the two versions of `insert_`, ord_index_impl.hpp:847, 867; `u` tells unique indices. -/
def pointS (u : Bool) (n : Nat) (h : Heap) (hd : Id) (k : K) : Option Id → Option (Point × Nat)
  | none => match u with
    | true => linkPointUS key lt n h hd k
    | false => linkPointNS key lt n h hd k
  | some position => match u with
    | true => hintedPointUS key lt n h hd k position
    | false => hintedPointNS key lt n h hd k position

/-- `in_place(v,x,ordered_unique_tag)`: ord_index_impl.hpp:1310-1322; `in_place(v,x,ordered_non_unique_tag)`: 1324-1337. -/
def inPlaceS (u : Bool) (n : Nat) (h : Heap) (hd : Id) (k : K) (x : Id) : Option (Bool × Nat) :=
  match (if x ≠ h.left hd then
      (decrementS h n x).map (fun (y, w) => (match u with
        | true => lt (key y) k
        | false => !lt k (key y), w))
    else some (true, 0)) with
  | none => none
  | some (false, w) => some (false, w)
  | some (true, w) =>
    match incrementS h n x with
    | none => none
    | some (y, w') => some (decide (y = hd) || (match u with
        | true => lt k (key y)
        | false => !lt (key y) k), w + w')

end Points

/-- `restore(x,position,header)`: ord_index_node.hpp:551-560. -/
def restoreS (n : Nat) (h : Heap) (x position hd : Id) : Option (Heap × Rounds) :=
  if h.left position = 0 ∨ h.left position = hd then (linkS n h x .left position hd).map (fun (h, f) => (h, ⟨0, f⟩))
  else
    match decrementS h n position with
    | none => none
    | some (position, w) => (linkS n h x .right position hd).map (fun (h, f) => (h, ⟨w, f⟩))

/-! ## Operations -/

/-- A container with an ordered index: the keys of the elements of the nodes, the nodes, and `node_count` (multi_index_container.hpp:1219), which is what
`size()` returns. -/
structure Idx (K : Type) where
  key : Id → K
  h : Heap
  count : Nat

/-- Operations of the interface. -/
inductive Act (K : Type) where
  /-- insert an element with key `k`, for which the node `x` would be used, with or without a hint -/
  | insert (x : Id) (k : K) (hint : Option Id)
  /-- `erase(position)` -/
  | erase (x : Id)
  /-- `replace(position,v)`, `v` with key `k` -/
  | replace (x : Id) (k : K)
  /-- `modify(position,mod)`, after which the element has key `k` -/
  | modify (x : Id) (k : K)

/-- Both kinds of rounds added. -/
def Rounds.add (a b : Rounds) : Rounds := ⟨a.walk + b.walk, a.fix + b.fix⟩

variable {K : Type} (lt : K → K → Bool) (u : Bool) (n : Nat) (hd : Id)

/-- The second part of `replace_` (ord_index_impl.hpp:943-955) and `modify_` (973-986): link where `link_point` says, or do something else. -/
def relink (key : Id → K) (h : Heap) (count : Nat) (x : Id) (k : K) (r : Rounds) (otherwise : Rounds → Option (Idx K × Rounds)) : Option (Idx K × Rounds) :=
  match pointS key lt u n h hd k none with
  | none => none
  | some (.accept side pos, w) =>
    match linkS n h x side pos hd with
    | none => none
    | some (h, f) => some (⟨key, h, count⟩, r.add ⟨w, f⟩)
  | some (.reject _, w) => otherwise (r.add ⟨w, 0⟩)

/-- `insert_` (ord_index_impl.hpp:842-879), `erase(position)` (390-398), `replace_` (932-962) and `modify_` (964-1001), for an index with no other indices
below, with what `insert_`, `erase_` and `modify_` of the container (multi_index_container.hpp:690-712, 951-956, 1032-1058) do to `node_count`. In searches
the key compared with is that of the value to be inserted or assigned, and `x` is not in the tree or its own key is not looked at, so that it makes no difference whether the
key of `x` is set before or after them. -/
def act (s : Idx K) : Act K → Option (Idx K × Rounds)
  | .insert x k hint =>
    match pointS (upd s.key x k) lt u n s.h hd k hint with
    | none => none
    | some (.accept side pos, w) =>
      match linkS n s.h x side pos hd with
      | none => none
      | some (h, f) => some (⟨upd s.key x k, h, s.count + 1⟩, ⟨w, f⟩)
    | some (.reject _, w) => some (s, ⟨w, 0⟩)
  | .erase x =>
    match incrementS s.h n x with
    | none => none
    | some (_, w) =>
      match extractS n s.h hd x with
      | none => none
      | some (h, r) => some (⟨s.key, h, s.count - 1⟩, r.add ⟨w, 0⟩)
  | .replace x k =>
    match inPlaceS (upd s.key x k) lt u n s.h hd k x with
    | none => none
    | some (true, w) => some (⟨upd s.key x k, s.h, s.count⟩, ⟨w, 0⟩)
    | some (false, w) =>
      match incrementS s.h n x with
      | none => none
      | some (next, w') =>
        match extractS n s.h hd x with
        | none => none
        | some (h, r) =>
          relink lt u n hd (upd s.key x k) h s.count x k (r.add ⟨w + w', 0⟩)
            (fun r => (restoreS n h x next hd).map (fun (h, r') => (⟨s.key, h, s.count⟩, r.add r')))
  | .modify x k =>
    match inPlaceS (upd s.key x k) lt u n s.h hd k x with
    | none => none
    | some (true, w) => some (⟨upd s.key x k, s.h, s.count⟩, ⟨w, 0⟩)
    | some (false, w) =>
      match extractS n s.h hd x with
      | none => none
      | some (h, r) =>
        relink lt u n hd (upd s.key x k) h s.count x k (r.add ⟨w, 0⟩)
          (fun r => some (⟨upd s.key x k, h, s.count - 1⟩, r))

/-- One operation after the other, with all their rounds. -/
def acts (s : Idx K) : List (Act K) → Option (Idx K × Rounds)
  | [] => some (s, ⟨0, 0⟩)
  | a :: as =>
    match act lt u n hd s a with
    | none => none
    | some (s, r) => (acts s as).map (fun (s, r') => (s, r.add r'))

/-! ## Nothing but the number of rounds has been added -/

theorem descendS_fst (q : Id → Bool) (h : Heap) : ∀ n x y s, (descendS q h n x y s).map (·.1) = descend q h n x y s
  | 0, _, _, _ => rfl
  | n + 1, x, y, s => by
    simp only [descendS, descend]
    split
    · rfl
    · split <;> rw [tick_map, descendS_fst q h n]

variable (key : Id → K) (h : Heap) (k : K)

theorem linkPointUS_fst : (linkPointUS key lt n h hd k).map (·.1) = linkPointU key lt n h hd k := by
  unfold linkPointUS linkPointU
  rw [← descendS_fst]
  rcases descendS (fun x => lt k (key x)) h n (h.parent hd) hd .left with _ | ⟨⟨y, s⟩, w⟩
  · rfl
  · simp only [Option.map_some]
    by_cases q : s = .left ∧ y = h.left hd
    · simp only [if_pos q, Option.map_some]
    · simp only [if_neg q]
      by_cases q' : s = .left
      · simp only [if_pos q', ← decrementS_fst]
        rcases decrementS h n y with _ | ⟨a, b⟩ <;> rfl
      · simp only [if_neg q', Option.map_some]

theorem linkPointNS_fst : (linkPointNS key lt n h hd k).map (·.1) = linkPointN key lt n h hd k := by
  unfold linkPointNS linkPointN
  rw [← descendS_fst]
  rcases descendS (fun x => lt k (key x)) h n (h.parent hd) hd .left with _ | ⟨⟨y, s⟩, w⟩ <;> rfl

theorem lowerLinkPointS_fst : (lowerLinkPointS key lt n h hd k).map (·.1) = lowerLinkPoint key lt n h hd k := by
  unfold lowerLinkPointS lowerLinkPoint
  rw [← descendS_fst]
  rcases descendS (fun x => !lt (key x) k) h n (h.parent hd) hd .left with _ | ⟨⟨y, s⟩, w⟩ <;> rfl

theorem hintedPointUS_fst (position : Id) : (hintedPointUS key lt n h hd k position).map (·.1) = hintedPointU key lt n h hd k position := by
  unfold hintedPointUS hintedPointU
  split
  · split
    · rfl
    · exact linkPointUS_fst lt n hd key h k
  · split
    · split
      · rfl
      · exact linkPointUS_fst lt n hd key h k
    · rw [← decrementS_fst]
      rcases decrementS h n position with _ | ⟨a, b⟩
      · rfl
      · simp only [Option.map_some]
        split
        · split <;> rfl
        · rw [more_map, linkPointUS_fst]

theorem hintedPointNS_fst (position : Id) : (hintedPointNS key lt n h hd k position).map (·.1) = hintedPointN key lt n h hd k position := by
  unfold hintedPointNS hintedPointN
  split
  · split
    · rfl
    · exact lowerLinkPointS_fst lt n hd key h k
  · split
    · split
      · rfl
      · exact linkPointNS_fst lt n hd key h k
    · rw [← decrementS_fst]
      rcases decrementS h n position with _ | ⟨a, b⟩
      · rfl
      · simp only [Option.map_some]
        split
        · split
          · split <;> rfl
          · rw [more_map, lowerLinkPointS_fst]
        · rw [more_map, linkPointNS_fst]

theorem pointS_fst (hint : Option Id) : (pointS key lt u n h hd k hint).map (·.1) =
    if u then pointU key lt n h hd k hint else pointN key lt n h hd k hint := by
  cases hint with
  | none => cases u with
    | true => exact linkPointUS_fst lt n hd key h k
    | false => exact linkPointNS_fst lt n hd key h k
  | some p => cases u with
    | true => exact hintedPointUS_fst lt n hd key h k p
    | false => exact hintedPointNS_fst lt n hd key h k p

theorem inPlaceS_fst (x : Id) : (inPlaceS key lt u n h hd k x).map (·.1) =
    if u then inPlaceU key lt n h hd k x else inPlaceN key lt n h hd k x := by
  have tail : ∀ (w : Nat) (p : Id → Bool), Option.map (fun o : Bool × Nat => o.1) (match incrementS h n x with
      | none => none
      | some (y, w') => some (decide (y = hd) || p y, w + w')) = match increment h n x with
      | none => none
      | some y => some (decide (y = hd) || p y) := by
    intro w p
    rw [← incrementS_fst]
    rcases incrementS h n x with _ | ⟨a, b⟩ <;> rfl
  cases u with
  | true =>
    unfold inPlaceS inPlaceU
    by_cases q : x ≠ h.left hd
    · simp only [if_pos q, ← decrementS_fst]
      rcases decrementS h n x with _ | ⟨a, b⟩
      · rfl
      · simp only [Option.map_some]
        cases lt (key a) k
        · rfl
        · exact tail b _
    · simp only [if_neg q]
      exact tail 0 _
  | false =>
    unfold inPlaceS inPlaceN
    by_cases q : x ≠ h.left hd
    · simp only [if_pos q, ← decrementS_fst]
      rcases decrementS h n x with _ | ⟨a, b⟩
      · rfl
      · simp only [Option.map_some]
        cases (!lt k (key a))
        · rfl
        · exact tail b _
    · simp only [if_neg q]
      exact tail 0 _

theorem restoreS_fst (x position : Id) : (restoreS n h x position hd).map (·.1) = restore n h x position hd := by
  unfold restoreS restore
  split
  · rw [← linkS_fst]
    rcases linkS n h x .left position hd with _ | ⟨a, b⟩ <;> rfl
  · rw [← decrementS_fst]
    rcases decrementS h n position with _ | ⟨a, b⟩
    · rfl
    · simp only [Option.map_some]
      rw [← linkS_fst]
      rcases linkS n h x .right a hd with _ | ⟨c, d⟩ <;> rfl

end MI.Ord
