import Verif.Hash.Index
/-!
# Hashed indices: rounds of loops

The functions of `Verif/Hash/Index.lean` that run loops, once more, with the rounds of all loops counted. The lines cited there are modelled here too; the
theorems below say that nothing else is different.
-/
namespace MI.Hash
open MI

/-- One round more. -/
def tickO {α : Type} (r : Out α × Nat) : Out α × Nat := (r.1, r.2 + 1)

/-- The loop of `find`, `count`, `equal_range`, `erase(key)`: hashed_index.hpp:1703-1708. -/
def findLoopS (c : Cat) (p : Id → Bool) (h : Heap) : Nat → Id → Out (Option Id) × Nat
  | 0, x => (if x = 0 then .ok none else .hang, 0)
  | n + 1, x =>
    if x = 0 then (.ok none, 0)
    else if p x then (.ok (some x), 1)
    else tickO (findLoopS c p h n (nextToInspect c h x))

/-- `find(k,hash,eq)`: hashed_index.hpp:1698-1710. -/
def findS (n : Nat) (c : Cat) (p : Id → Bool) (hk : Nat) (h : Heap) (a : Arr) (hd : Id) : Out Id × Nat :=
  match findLoopS c p h n (h.prior (a.at (a.position hk))) with
  | (.ok (some x), m) => (.ok x, m)
  | (.ok none, m) => (.ok hd, m)
  | (.threw _, m) => (.hang, m)
  | (.ub, m) => (.ub, m)
  | (.hang, m) => (.hang, m)

/-- The counting loop: hashed_index.hpp:1735-1739. -/
def countLoopS (c : Cat) (h : Heap) (y : Id) : Nat → Id → Nat → Out Nat × Nat
  | 0, _, _ => (.hang, 0)
  | n + 1, x, res =>
    let x := after c h x
    if x = y then (.ok (res + 1), 1) else tickO (countLoopS c h y n x (res + 1))

/-- `count(k,hash,eq)`: hashed_index.hpp:1724-1746. -/
def countS (n : Nat) (c : Cat) (eq : Id → Id → Bool) (p : Id → Bool) (hk : Nat) (h : Heap) (a : Arr) : Out Nat × Nat :=
  match findLoopS c p h n (h.prior (a.at (a.position hk))) with
  | (.ok (some x), m) => let r := countLoopS c h (endOfRange c eq h x) n x 0; (r.1, m + r.2)
  | (.ok none, m) => (.ok 0, m)
  | (.threw _, m) => (.hang, m)
  | (.ub, m) => (.ub, m)
  | (.hang, m) => (.hang, m)

/-- `equal_range(k,hash,eq)`: hashed_index.hpp:1758-1772. -/
def equalRangeS (n : Nat) (c : Cat) (eq : Id → Id → Bool) (p : Id → Bool) (hk : Nat) (h : Heap) (a : Arr) (hd : Id) :
    Out (Id × Id) × Nat :=
  match findLoopS c p h n (h.prior (a.at (a.position hk))) with
  | (.ok (some x), m) => (.ok (x, endOfRange c eq h x), m)
  | (.ok none, m) => (.ok (hd, hd), m)
  | (.threw _, m) => (.hang, m)
  | (.ub, m) => (.ub, m)
  | (.hang, m) => (.hang, m)

/-- The loop of `link_point` for unique indices: hashed_index.hpp:1317-1328. -/
def linkPointUS (p : Id → Bool) (h : Heap) : Nat → Id → Out (Option Id) × Nat
  | 0, x => (if x = 0 then .ok none else .hang, 0)
  | n + 1, x =>
    if x = 0 then (.ok none, 0)
    else if p x then (.ok (some x), 1)
    else tickO (linkPointUS p h n (U.afterLocal h x))

/-- The loop of `link_point` for non-unique indices: hashed_index.hpp:1330-1342. -/
def linkPointNS (eq : Id → Id → Bool) (p : Id → Bool) (h : Heap) : Nat → Id → Out (Option (Id × Id)) × Nat
  | 0, x => (if x = 0 then .ok none else .hang, 0)
  | n + 1, x =>
    if x = 0 then (.ok none, 0)
    else if p x then (.ok (some (x, lastOfRange .multi eq h x)), 1)
    else tickO (linkPointNS eq p h n (N.nextToInspect h x))

/-- `link_point(v,pos)`: hashed_index.hpp:1312-1342. -/
def linkPointS (n : Nat) (c : Cat) (eq : Id → Id → Bool) (p : Id → Bool) (hv : Nat) (h : Heap) (a : Arr) : Out Point × Nat :=
  let b := a.at (a.position hv)
  match c with
  | .uniq =>
    match linkPointUS p h n (h.prior b) with
    | (.ok none, m) => (.ok (.accept (.bucket b)), m)
    | (.ok (some x), m) => (.ok (.reject x), m)
    | (.threw _, m) => (.hang, m)
    | (.ub, m) => (.ub, m)
    | (.hang, m) => (.hang, m)
  | .multi =>
    match linkPointNS eq p h n (h.prior b) with
    | (.ok none, m) => (.ok (.accept (.bucket b)), m)
    | (.ok (some (f, l)), m) => (.ok (.accept (.group f l)), m)
    | (.threw _, m) => (.hang, m)
    | (.ub, m) => (.ub, m)
    | (.hang, m) => (.hang, m)

/-- `in_place` for unique indices: hashed_index.hpp:1577-1588. -/
def inPlaceUS (p : Id → Bool) (h : Heap) (x : Id) : Nat → Id → Bool → Out Bool × Nat
  | 0, y, found => (if y = 0 then .ok found else .hang, 0)
  | n + 1, y, found =>
    if y = 0 then (.ok found, 0)
    else if y = x then tickO (inPlaceUS p h x n (U.afterLocal h y) true)
    else if p y then (.ok false, 1)
    else tickO (inPlaceUS p h x n (U.afterLocal h y) found)

/-- The inner loop of `in_place` for non-unique indices: hashed_index.hpp:1612-1616. -/
def inPlaceScanS (h : Heap) (x z : Id) : Nat → Id → Out Bool × Nat
  | 0, _ => (.hang, 0)
  | n + 1, y =>
    if y = x then (.ok true, 1)
    else
      let y := N.afterLocal h y
      if y = z then (.ok false, 1) else tickO (inPlaceScanS h x z n y)

/-- `in_place` for non-unique indices: hashed_index.hpp:1590-1645. -/
def inPlaceNS (p : Id → Bool) (h : Heap) (x : Id) : Nat → Id → Bool → Nat → Out Bool × Nat
  | 0, y, found, _ => (if y = 0 then .ok found else .hang, 0)
  | n + 1, y, found, rs =>
    if y = 0 then (.ok found, 0)
    else if N.isFirstOfGroup h y then
      if y = x then (.ok (p (h.next y)), 1)
      else
        let z := N.afterLocal h (h.prior (h.next y))
        if p y then
          if found then (.ok false, 1) else tickO (inPlaceScanS h x z (n + 1) y)
        else if rs == 1 && !found then (.ok false, 1)
        else if rs == 2 then (.ok found, 1)
        else tickO (inPlaceNS p h x n z found 0)
    else if y = x then
      if rs == 1 then (.ok true, 1)
      else tickO (inPlaceNS p h x n (N.afterLocal h y) true 1)
    else if p y then
      if rs == 0 && found then (.ok false, 1)
      else if rs == 1 && !found then (.ok false, 1)
      else if rs == 2 then (.ok false, 1)
      else tickO (inPlaceNS p h x n (N.afterLocal h y) found (rs + 1))
    else if rs == 1 && !found then (.ok false, 1)
    else if rs == 2 then (.ok found, 1)
    else tickO (inPlaceNS p h x n (N.afterLocal h y) found 0)

/-- `in_place(x,k,buc)`: hashed_index.hpp:1572-1645. -/
def inPlaceS (n : Nat) (c : Cat) (p : Id → Bool) (hk : Nat) (h : Heap) (a : Arr) (x : Id) : Out Bool × Nat :=
  let y := h.prior (a.at (a.position hk))
  match c with
  | .uniq => inPlaceUS p h x n y false
  | .multi => inPlaceNS p h x n y false 0

/-! ## Nothing but the number of rounds has been added -/

@[simp] theorem tickO_fst {α : Type} (r : Out α × Nat) : (tickO r).1 = r.1 := rfl
@[simp] theorem tickO_snd {α : Type} (r : Out α × Nat) : (tickO r).2 = r.2 + 1 := rfl

theorem findLoopS_fst (c : Cat) (p : Id → Bool) (h : Heap) : ∀ n x, (findLoopS c p h n x).1 = findLoop c p h n x
  | 0, x => rfl
  | n + 1, x => by
    have ih := findLoopS_fst c p h n
    simp only [findLoopS, findLoop]
    repeat' split
    all_goals first | rfl | exact ih _

theorem findS_fst (n : Nat) (c : Cat) (p : Id → Bool) (hk : Nat) (h : Heap) (a : Arr) (hd : Id) : (findS n c p hk h a hd).1 = find n c p hk h a hd := by
  unfold findS find
  rw [← findLoopS_fst]
  rcases findLoopS c p h n (h.prior (a.at (a.position hk))) with ⟨(_ | _) | _ | _ | _, m⟩ <;> rfl

theorem countLoopS_fst (c : Cat) (h : Heap) (y : Id) : ∀ n x res, (countLoopS c h y n x res).1 = countLoop c h y n x res
  | 0, _, _ => rfl
  | n + 1, x, res => by
    have ih := countLoopS_fst c h y n
    simp only [countLoopS, countLoop]
    split
    · rfl
    · exact ih _ _

theorem countS_fst (n : Nat) (c : Cat) (eq : Id → Id → Bool) (p : Id → Bool) (hk : Nat) (h : Heap) (a : Arr) : (countS n c eq p hk h a).1 = count n c eq p hk h a := by
  unfold countS count
  rw [← findLoopS_fst]
  rcases findLoopS c p h n (h.prior (a.at (a.position hk))) with ⟨(_ | _) | _ | _ | _, m⟩ <;> first | rfl | exact countLoopS_fst ..

theorem equalRangeS_fst (n : Nat) (c : Cat) (eq : Id → Id → Bool) (p : Id → Bool) (hk : Nat) (h : Heap) (a : Arr) (hd : Id) :
    (equalRangeS n c eq p hk h a hd).1 = equalRange n c eq p hk h a hd := by
  unfold equalRangeS equalRange
  rw [← findLoopS_fst]
  rcases findLoopS c p h n (h.prior (a.at (a.position hk))) with ⟨(_ | _) | _ | _ | _, m⟩ <;> rfl

theorem linkPointUS_fst (p : Id → Bool) (h : Heap) : ∀ n x, (linkPointUS p h n x).1 = linkPointU p h n x
  | 0, x => rfl
  | n + 1, x => by
    have ih := linkPointUS_fst p h n
    simp only [linkPointUS, linkPointU]
    repeat' split
    all_goals first | rfl | exact ih _

theorem linkPointNS_fst (eq : Id → Id → Bool) (p : Id → Bool) (h : Heap) : ∀ n x, (linkPointNS eq p h n x).1 = linkPointN eq p h n x
  | 0, x => rfl
  | n + 1, x => by
    have ih := linkPointNS_fst eq p h n
    simp only [linkPointNS, linkPointN]
    repeat' split
    all_goals first | rfl | exact ih _

theorem linkPointS_fst (n : Nat) (c : Cat) (eq : Id → Id → Bool) (p : Id → Bool) (hv : Nat) (h : Heap) (a : Arr) :
    (linkPointS n c eq p hv h a).1 = linkPoint n c eq p hv h a := by
  cases c with
  | uniq =>
    simp only [linkPointS, linkPoint]
    rw [← linkPointUS_fst]
    rcases linkPointUS p h n (h.prior (a.at (a.position hv))) with ⟨(_ | _) | _ | _ | _, m⟩ <;> rfl
  | multi =>
    simp only [linkPointS, linkPoint]
    rw [← linkPointNS_fst]
    rcases linkPointNS eq p h n (h.prior (a.at (a.position hv))) with ⟨(_ | ⟨_, _⟩) | _ | _ | _, m⟩ <;> rfl

theorem inPlaceUS_fst (p : Id → Bool) (h : Heap) (x : Id) : ∀ n y f, (inPlaceUS p h x n y f).1 = inPlaceU p h x n y f
  | 0, y, f => rfl
  | n + 1, y, f => by
    have ih := inPlaceUS_fst p h x n
    simp only [inPlaceUS, inPlaceU]
    repeat' split
    all_goals first | rfl | exact ih _ _

theorem inPlaceScanS_fst (h : Heap) (x z : Id) : ∀ n y, (inPlaceScanS h x z n y).1 = inPlaceScan h x z n y
  | 0, y => rfl
  | n + 1, y => by
    have ih := inPlaceScanS_fst h x z n
    simp only [inPlaceScanS, inPlaceScan]
    repeat' split
    all_goals first | rfl | exact ih _

theorem inPlaceNS_fst (p : Id → Bool) (h : Heap) (x : Id) : ∀ n y f rs, (inPlaceNS p h x n y f rs).1 = inPlaceN p h x n y f rs
  | 0, y, f, rs => rfl
  | n + 1, y, f, rs => by
    have ih := inPlaceNS_fst p h x n
    simp only [inPlaceNS, inPlaceN]
    repeat' split
    all_goals first | rfl | exact ih _ _ _ | exact inPlaceScanS_fst ..

theorem inPlaceS_fst (n : Nat) (c : Cat) (p : Id → Bool) (hk : Nat) (h : Heap) (a : Arr) (x : Id) : (inPlaceS n c p hk h a x).1 = inPlace n c p hk h a x := by
  cases c
  · exact inPlaceUS_fst ..
  · exact inPlaceNS_fst ..

end MI.Hash
