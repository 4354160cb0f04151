import Verif.Hash.History
import Verif.Hash.Load
/-!
# Hashed indices that grow by themselves

One hashed index on its own, as in `Verif.Hash.History`, with its load policy: insertions call `reserve_for_insert` first, so that the index
is rehashed now and then. Calls of the hash function are counted. The maximum load factor `mlf` stays the same; `fl` rounds to `float`
(`Verif.Hash.Load`). Not modelled: failing allocations (see `Verif.Cont`) and rehashing within insertions of ranges, which insert one by one.
-/
namespace MI.Hash
open MI

/-- An index with `max_load` and the number of calls of the hash function made so far. -/
structure GState where
  s : State
  ml : Nat
  calls : Nat

/-- Operations. `base` and `cpy` are where a new bucket array and the header local to `unchecked_rehash` are put, if there is a rehash; `t` is the number of
calls of the hash function that succeed within the operation, `none` if all do. -/
inductive GOp where
  /-- `insert`: `insert_` of hashed_index.hpp:933-968 without the other indices. -/
  | insert (x base cpy : Id) (t : Option Nat)
  /-- `erase`: hashed_index.hpp:970-979 without the other indices. -/
  | erase (x : Id)
  /-- `rehash(b)`: hashed_index.hpp:731-743. -/
  | rehash (b : Nat) (base cpy : Id) (t : Option Nat)
  /-- `clear_()`: hashed_index.hpp:1015-1023. -/
  | clear
deriving Repr, DecidableEq

/-- `unchecked_rehash` to the bucket count of `p`; `true`: the hash function threw. hashed_index.hpp:1457-1570. -/
def rehashG (c : Cat) (hash : Id → Nat) (hd : Id) (g : GState) (p : Policy) (base cpy : Id) (t : Option Nat) : Out (GState × Bool) :=
  let na : Arr := ⟨base, p.bc⟩
  let k := rehashCalls c hash g.s.size t g.s.h na hd cpy
  match rehash c hash g.s.size t g.s.h g.s.a na hd cpy with
  | .ok (h, true) => .ok ({ g with s := { g.s with h := h }, calls := g.calls + k }, true)
  | .ok (h, false) => .ok (⟨⟨h, na, g.s.size⟩, p.ml, g.calls + k⟩, false)
  | .threw _ => .hang
  | .ub => .ub
  | .hang => .hang

/-- `reserve_for_insert(size()+1)`: hashed_index.hpp:1447-1455. -/
def reserveG (fl : ℚ → ℚ) (mlf : ℚ) (c : Cat) (hash : Id → Nat) (hd : Id) (g : GState) (base cpy : Id) (t : Option Nat) : Out (GState × Bool) :=
  if g.s.size + 1 > g.ml then rehashG c hash hd g (Policy.unchecked fl mlf (bcFor fl mlf (g.s.size + 1))) base cpy t else .ok (g, false)

/-- One operation; `n` bounds the number of iterations of every loop. An insertion makes room, calls the hash function once more (hashed_index.hpp:1308)
and goes on as in `step`. -/
def stepG (fl : ℚ → ℚ) (mlf : ℚ) (n : Nat) (c : Cat) (eq : Id → Id → Bool) (hash : Id → Nat) (hd : Id) (g : GState) : GOp → Out GState
  | .insert x base cpy t =>
    match reserveG fl mlf c hash hd g base cpy t with
    | .ok (g1, true) => .ok g1
    | .ok (g1, false) =>
      if t = some (g1.calls - g.calls) then .ok { g1 with calls := g1.calls + 1 }
      else
        match step n c eq hash hd g1.s (.insert x) with
        | .ok s => .ok { g1 with s := s, calls := g1.calls + 1 }
        | .threw _ => .hang
        | .ub => .ub
        | .hang => .hang
    | .threw _ => .hang
    | .ub => .ub
    | .hang => .hang
  | .erase x =>
    match step n c eq hash hd g.s (.erase x) with
    | .ok s => .ok { g with s := s }
    | .threw _ => .hang
    | .ub => .ub
    | .hang => .hang
  | .rehash b base cpy t =>
    if g.s.size ≤ g.ml ∧ b ≤ g.s.a.size then .ok g
    else
      match rehashG c hash hd g (Policy.rehash fl mlf ⟨g.s.a.size, g.ml⟩ g.s.size b) base cpy t with
      | .ok (g1, _) => .ok g1
      | .threw _ => .hang
      | .ub => .ub
      | .hang => .hang
  | .clear =>
    match step n c eq hash hd g.s .clear with
    | .ok s => .ok { g with s := s }
    | .threw _ => .hang
    | .ub => .ub
    | .hang => .hang

/-- A sequence of operations. -/
def runG (fl : ℚ → ℚ) (mlf : ℚ) (n : Nat) (c : Cat) (eq : Id → Id → Bool) (hash : Id → Nat) (hd : Id) : List GOp → GState → Out GState
  | [], g => .ok g
  | op :: ops, g =>
    match stepG fl mlf n c eq hash hd g op with
    | .ok g => runG fl mlf n c eq hash hd ops g
    | r => r

/-- The elements a traversal visits. -/
def elems (n : Nat) (c : Cat) (hd : Id) (h : Heap) : List Id :=
  match walk c h hd n (begin h hd) with
  | .ok l => l
  | _ => []

/-- The memory for a new array of `size` buckets and for the local header is new. -/
def NewAt (g : GState) (hd : Id) (l : List Id) (base cpy : Id) (size : Nat) : Prop :=
  NewMem g.s.a ⟨base, size⟩ hd cpy l

/-- When an operation may be used: new nodes and arrays are new, erased elements are in the index. -/
def LegalG (fl : ℚ → ℚ) (mlf : ℚ) (hd : Id) (g : GState) (l : List Id) : GOp → Prop
  | .insert x base cpy _ => x ≠ 0 ∧ x ∉ hd :: l ∧ (x < g.s.a.base ∨ g.s.a.endB < x) ∧
      (g.s.size + 1 > g.ml → NewAt g hd l base cpy (sizeFor sizes (bcFor fl mlf (g.s.size + 1))) ∧
        (x < base ∨ base + sizeFor sizes (bcFor fl mlf (g.s.size + 1)) < x))
  | .erase x => x ∈ l
  | .rehash b base cpy _ => NewAt g hd l base cpy (Policy.rehash fl mlf ⟨g.s.a.size, g.ml⟩ g.s.size b).bc
  | .clear => True

/-- Every operation of the list is legal when its turn comes, and there are never more than `P` elements. -/
def ValidG (fl : ℚ → ℚ) (mlf : ℚ) (n : Nat) (c : Cat) (eq : Id → Id → Bool) (hash : Id → Nat) (hd : Id) (P : Nat) : List GOp → GState → Prop
  | [], _ => True
  | op :: ops, g => LegalG fl mlf hd g (elems n c hd g.s.h) op ∧
      ∀ g', stepG fl mlf n c eq hash hd g op = .ok g' → g'.s.size ≤ P ∧ ValidG fl mlf n c eq hash hd P ops g'

/-- The calls of the hash function an operation is charged for, if there are never more than `P` elements: one for an insertion, and `P` for an explicit rehash
and for an insertion during which the hash function throws. -/
def bill (P : Nat) : GOp → Nat
  | .insert _ _ _ none => 1
  | .insert _ _ _ (some _) => P + 1
  | .erase _ => 0
  | .rehash _ _ _ _ => P
  | .clear => 0

end MI.Hash
