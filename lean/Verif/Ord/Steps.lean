import Verif.Ord.Search
/-!
# Ordered indices: numbers of rounds of loops

The functions of `Heap.lean` and `Search.lean` once more, counting the rounds of their loops. A round takes a bounded number of instructions, and there
are no other loops in the operations on one tree, so these numbers measure the time taken. Two kinds of rounds are kept apart: those that move a pointer along the tree
(`walk`: `minimum`, `maximum`, the loops of `increment` and `decrement`, descents to a link point) and those of rebalancing (`fix`: the loop of
`rebalance`, the last loop of `rebalance_for_extract`). The loops of the augmenting policy of ranked indices, which ordered indices do not have, are not counted.
Each function is shown to compute what the original computes.
-/
namespace MI.Ord
open MI

/-- One more round. -/
def tick {α : Type} : Option (α × Nat) → Option (α × Nat)
  | none => none
  | some (a, c) => some (a, c + 1)

@[simp] theorem tick_some {α : Type} (a : α) (c : Nat) : tick (some (a, c)) = some (a, c + 1) := rfl
@[simp] theorem tick_none {α : Type} : tick (none : Option (α × Nat)) = none := rfl
@[simp] theorem tick_map {α : Type} (o : Option (α × Nat)) : (tick o).map (·.1) = o.map (·.1) := by rcases o with _ | ⟨a, c⟩ <;> rfl

/-- `minimum(x)`: ord_index_node.hpp:318-322. -/
def minimumS (h : Heap) : Nat → Id → Option (Id × Nat)
  | 0, _ => none
  | n + 1, x => if h.left x ≠ 0 then tick (minimumS h n (h.left x)) else some (x, 0)

/-- `maximum(x)`: ord_index_node.hpp:324-328. -/
def maximumS (h : Heap) : Nat → Id → Option (Id × Nat)
  | 0, _ => none
  | n + 1, x => if h.right x ≠ 0 then tick (maximumS h n (h.right x)) else some (x, 0)

/-- The climbing loop of `increment`: ord_index_node.hpp:274-277. -/
def climbRightS (h : Heap) : Nat → Id → Id → Option ((Id × Id) × Nat)
  | 0, _, _ => none
  | n + 1, x, y => if x = h.right y then tick (climbRightS h n y (h.parent y)) else some ((x, y), 0)

/-- `increment(x)`: ord_index_node.hpp:266-280. -/
def incrementS (h : Heap) (n : Nat) (x : Id) : Option (Id × Nat) :=
  if h.right x ≠ 0 then minimumS h n (h.right x)
  else
    match climbRightS h n x (h.parent x) with
    | none => none
    | some ((x, y), c) => some (if h.right x ≠ y then y else x, c)

/-- The climbing loop of `decrement`: ord_index_node.hpp:293-296. -/
def climbLeftS (h : Heap) : Nat → Id → Id → Option (Id × Nat)
  | 0, _, _ => none
  | n + 1, x, y => if x = h.left y then tick (climbLeftS h n y (h.parent y)) else some (y, 0)

/-- `decrement(x)`: ord_index_node.hpp:282-299. -/
def decrementS (h : Heap) (n : Nat) (x : Id) : Option (Id × Nat) :=
  if h.color x = .red ∧ h.parent (h.parent x) = x then some (h.right x, 0)
  else if h.left x ≠ 0 then maximumS h n (h.left x)
  else climbLeftS h n x (h.parent x)

/-- The loop of `rebalance`: ord_index_node.hpp:348-385. -/
def rebalanceGoS (hd : Id) : Nat → Heap → Id → Option (Heap × Nat)
  | 0, _, _ => none
  | n + 1, h, x =>
    if x ≠ h.parent hd ∧ h.color (h.parent x) = .red then
      let r := if h.parent x = h.left (h.parent (h.parent x)) then rebalanceL h hd x else rebalanceR h hd x
      tick (rebalanceGoS hd n r.1 r.2)
    else some (h, 0)

/-- `rebalance(x,root)`: ord_index_node.hpp:345-387. -/
def rebalanceS (n : Nat) (h : Heap) (hd x : Id) : Option (Heap × Nat) :=
  match rebalanceGoS hd n (h.setColor x .red) x with
  | none => none
  | some (h, c) => some (h.setColor (h.parent hd) .black, c)

/-- `link(x,side,position,header)`: ord_index_node.hpp:389-413. -/
def linkS (n : Nat) (h : Heap) (x : Id) (side : Side) (position hd : Id) : Option (Heap × Nat) :=
  let h :=
    match side with
    | .left =>
      let h := h.setLeft position x
      if position = hd then (h.setParent hd x).setRight hd x
      else if position = h.left hd then h.setLeft hd x
      else h
    | .right =>
      let h := h.setRight position x
      if position = h.right hd then h.setRight hd x else h
  let h := h.setParent x position
  let h := h.setLeft x 0
  let h := h.setRight x 0
  match augAdd n h x (h.parent hd) with
  | none => none
  | some h => rebalanceS n h hd x

/-- Choice of `y` and `x`: ord_index_node.hpp:418-433. -/
def chooseExtractS (n : Nat) (h : Heap) (z : Id) : Option ((Id × Id) × Nat) :=
  if h.left z = 0 then some ((z, h.right z), 0)
  else if h.right z = 0 then some ((z, h.left z), 0)
  else
    match minimumS h n (h.right z) with
    | none => none
    | some (y, c) => some ((y, h.right y), c)

/-- Unlinking `z` with at most one child `x`: ord_index_node.hpp:460-484. -/
def spliceOutS (n : Nat) (h : Heap) (hd z x : Id) : Option ((Heap × Id) × Nat) :=
  let xp := h.parent z
  let h := if x ≠ 0 then h.setParent x (h.parent z) else h
  let h := relinkL h hd z x
  let h? :=
    if h.left hd = z then
      if h.right z = 0 then some (h.setLeft hd (h.parent z), 0)
      else (minimumS h n x).map (fun (y, c) => (h.setLeft hd y, c))
    else some (h, 0)
  match h? with
  | none => none
  | some (h, c) =>
    let h? :=
      if h.right hd = z then
        if h.left z = 0 then some (h.setRight hd (h.parent z), 0)
        else (maximumS h n x).map (fun (y, c) => (h.setRight hd y, c))
      else some (h, 0)
    match h? with
    | none => none
    | some (h, c') => some ((h, xp), c + c')

/-- The second loop of `rebalance_for_extract`: ord_index_node.hpp:487-545. A round that ends with `break` counts. -/
def extractFixS (hd : Id) : Nat → Heap → Id → Id → Option ((Heap × Id) × Nat)
  | 0, _, _, _ => none
  | n + 1, h, x, xp =>
    if x ≠ h.parent hd ∧ isBlack h x then
      match (if x = h.left xp then extractFixL h hd xp else extractFixR h hd xp) with
      | .go h x xp => tick (extractFixS hd n h x xp)
      | .stop h => some ((h, x), 1)
    else some ((h, x), 0)

/-- Rounds of the two kinds. -/
structure Rounds where
  walk : Nat
  fix : Nat
deriving DecidableEq, Repr

/-- `rebalance_for_extract(z,root,leftmost,rightmost)`: ord_index_node.hpp:415-549. -/
def extractS (n : Nat) (h : Heap) (hd z : Id) : Option (Heap × Rounds) :=
  match chooseExtractS n h z with
  | none => none
  | some ((y, x), w) =>
    match augRemove (h.parent hd) n h y with
    | none => none
    | some h =>
      match (if y ≠ z then some (replaceBySucc h hd z y x, 0) else spliceOutS n h hd z x) with
      | none => none
      | some ((h, xp), w') =>
        if h.color z ≠ .red then
          match extractFixS hd n h x xp with
          | none => none
          | some ((h, x), f) => some (if x ≠ 0 then h.setColor x .black else h, ⟨w + w', f⟩)
        else some (h, ⟨w + w', 0⟩)

/-! ## Nothing but the number of rounds has been added -/

theorem minimumS_fst (h : Heap) : ∀ n x, (minimumS h n x).map (·.1) = minimum h n x
  | 0, _ => rfl
  | n + 1, x => by
    simp only [minimumS, minimum]
    split
    · rw [tick_map, minimumS_fst h n]
    · rfl

theorem maximumS_fst (h : Heap) : ∀ n x, (maximumS h n x).map (·.1) = maximum h n x
  | 0, _ => rfl
  | n + 1, x => by
    simp only [maximumS, maximum]
    split
    · rw [tick_map, maximumS_fst h n]
    · rfl

theorem climbRightS_fst (h : Heap) : ∀ n x y, (climbRightS h n x y).map (·.1) = climbRight h n x y
  | 0, _, _ => rfl
  | n + 1, x, y => by
    simp only [climbRightS, climbRight]
    split
    · rw [tick_map, climbRightS_fst h n]
    · rfl

theorem climbLeftS_fst (h : Heap) : ∀ n x y, (climbLeftS h n x y).map (·.1) = climbLeft h n x y
  | 0, _, _ => rfl
  | n + 1, x, y => by
    simp only [climbLeftS, climbLeft]
    split
    · rw [tick_map, climbLeftS_fst h n]
    · rfl

theorem incrementS_fst (h : Heap) (n : Nat) (x : Id) : (incrementS h n x).map (·.1) = increment h n x := by
  unfold incrementS increment
  split
  · exact minimumS_fst h n _
  · rw [← climbRightS_fst]
    rcases climbRightS h n x (h.parent x) with _ | ⟨⟨a, b⟩, c⟩ <;> rfl

theorem decrementS_fst (h : Heap) (n : Nat) (x : Id) : (decrementS h n x).map (·.1) = decrement h n x := by
  unfold decrementS decrement
  split
  · rfl
  · split
    · exact maximumS_fst h n _
    · exact climbLeftS_fst h n _ _

theorem rebalanceGoS_fst (hd : Id) : ∀ n h x, (rebalanceGoS hd n h x).map (·.1) = rebalanceGo hd n h x
  | 0, _, _ => rfl
  | n + 1, h, x => by
    simp only [rebalanceGoS, rebalanceGo]
    split
    · rw [tick_map, rebalanceGoS_fst hd n]
    · rfl

theorem rebalanceS_fst (n : Nat) (h : Heap) (hd x : Id) : (rebalanceS n h hd x).map (·.1) = rebalance n h hd x := by
  unfold rebalanceS rebalance
  rw [← rebalanceGoS_fst]
  rcases rebalanceGoS hd n (h.setColor x .red) x with _ | ⟨a, c⟩ <;> rfl

theorem linkS_fst (n : Nat) (h : Heap) (x : Id) (side : Side) (position hd : Id) :
    (linkS n h x side position hd).map (·.1) = link n h x side position hd := by
  have key : ∀ g : Heap, Option.map (·.1) (match augAdd n g x (g.parent hd) with
      | none => none
      | some h => rebalanceS n h hd x) = match augAdd n g x (g.parent hd) with
      | none => none
      | some h => rebalance n h hd x := by
    intro g
    cases augAdd n g x (g.parent hd) with
    | none => rfl
    | some h => exact rebalanceS_fst n h hd x
  cases side <;> exact key _

theorem chooseExtractS_fst (n : Nat) (h : Heap) (z : Id) : (chooseExtractS n h z).map (·.1) = chooseExtract n h z := by
  unfold chooseExtractS chooseExtract
  split
  · rfl
  · split
    · rfl
    · rw [← minimumS_fst]
      rcases minimumS h n (h.right z) with _ | ⟨a, c⟩ <;> rfl

theorem spliceOutS_fst (n : Nat) (h : Heap) (hd z x : Id) : (spliceOutS n h hd z x).map (·.1) = spliceOut n h hd z x := by
  unfold spliceOutS spliceOut
  dsimp only
  generalize relinkL (if x ≠ 0 then h.setParent x (h.parent z) else h) hd z x = g
  have tail : ∀ (g : Heap) (c : Nat),
      Option.map (·.1) (match (if g.right hd = z then
          if g.left z = 0 then some (g.setRight hd (g.parent z), 0) else (maximumS g n x).map (fun (y, c) => (g.setRight hd y, c))
          else some (g, 0)) with
        | none => none
        | some (h', c') => some ((h', h.parent z), c + c')) =
      match (if g.right hd = z then
          if g.left z = 0 then some (g.setRight hd (g.parent z)) else (maximum g n x).map (g.setRight hd)
          else some g) with
        | none => none
        | some h' => some (h', h.parent z) := by
    intro g c
    by_cases h1 : g.right hd = z
    · simp only [h1, if_true]
      by_cases h2 : g.left z = 0
      · simp only [h2, if_true, Option.map_some]
      · simp only [h2, if_false, ← maximumS_fst]
        rcases maximumS g n x with _ | ⟨a, b⟩ <;> rfl
    · simp only [h1, if_false, Option.map_some]
  by_cases h1 : g.left hd = z
  · simp only [h1, if_true]
    by_cases h2 : g.right z = 0
    · simp only [h2, if_true]
      exact tail _ _
    · simp only [h2, if_false, ← minimumS_fst]
      rcases minimumS g n x with _ | ⟨a, b⟩
      · rfl
      · exact tail _ _
  · simp only [h1, if_false]
    exact tail _ _

theorem extractFixS_fst (hd : Id) : ∀ n h x xp, (extractFixS hd n h x xp).map (·.1) = extractFix hd n h x xp
  | 0, _, _, _ => rfl
  | n + 1, h, x, xp => by
    simp only [extractFixS, extractFix]
    split
    · rcases (if x = h.left xp then extractFixL h hd xp else extractFixR h hd xp) with ⟨h', x', xp'⟩ | ⟨h'⟩
      · simp only [tick_map]
        exact extractFixS_fst hd n _ _ _
      · rfl
    · rfl

theorem extractS_fst (n : Nat) (h : Heap) (hd z : Id) : (extractS n h hd z).map (·.1) = extract n h hd z := by
  unfold extractS extract
  rw [← chooseExtractS_fst]
  rcases chooseExtractS n h z with _ | ⟨⟨y, x⟩, w⟩
  · rfl
  · simp only [Option.map_some]
    cases augRemove (h.parent hd) n h y with
    | none => rfl
    | some h =>
      simp only
      have tail : ∀ (g : Heap) (xp : Id) (w w' : Nat),
          Option.map (·.1) (if g.color z ≠ .red then
            match extractFixS hd n g x xp with
            | none => none
            | some ((h, x), f) => some (if x ≠ 0 then h.setColor x .black else h, (⟨w + w', f⟩ : Rounds))
            else some (g, ⟨w + w', 0⟩)) =
          if g.color z ≠ .red then
            match extractFix hd n g x xp with
            | none => none
            | some (h, x) => some (if x ≠ 0 then h.setColor x .black else h)
            else some g := by
        intro g xp w w'
        split
        · rw [← extractFixS_fst]
          rcases extractFixS hd n g x xp with _ | ⟨⟨a, b⟩, c⟩ <;> rfl
        · rfl
      by_cases hy : y ≠ z
      · simp only [if_pos hy]
        exact tail _ _ _ _
      · simp only [if_neg hy]
        rw [← spliceOutS_fst]
        rcases spliceOutS n h hd z x with _ | ⟨⟨a, b⟩, c⟩
        · rfl
        · exact tail _ _ _ _

/-! ## No more rounds than the bound on them, which does not matter otherwise -/

theorem rebalanceGoS_bound (hd : Id) : ∀ {n : Nat} {h : Heap} {x : Id} {r : Heap} {c : Nat}, rebalanceGoS hd n h x = some (r, c) →
    c < n ∧ ∀ m, n ≤ m → rebalanceGoS hd m h x = some (r, c)
  | 0, _, _, _, _, e => nomatch e
  | n + 1, h, x, r, c, e => by
    simp only [rebalanceGoS] at e
    split at e
    · rename_i q
      cases e' : rebalanceGoS hd n (if h.parent x = h.left (h.parent (h.parent x)) then rebalanceL h hd x else rebalanceR h hd x).1
          (if h.parent x = h.left (h.parent (h.parent x)) then rebalanceL h hd x else rebalanceR h hd x).2 with
      | none => rw [e'] at e; cases e
      | some o =>
        obtain ⟨r', c'⟩ := o
        rw [e'] at e
        simp only [tick_some, Option.some.injEq, Prod.mk.injEq] at e
        obtain ⟨rfl, rfl⟩ := e
        have ih := rebalanceGoS_bound hd e'
        refine ⟨by omega, fun m hm => ?_⟩
        obtain ⟨m, rfl⟩ : ∃ m', m = m' + 1 := ⟨m - 1, by omega⟩
        simp only [rebalanceGoS]
        rw [if_pos q, ih.2 m (by omega)]; rfl
    · rename_i q
      cases e
      refine ⟨by omega, fun m hm => ?_⟩
      obtain ⟨m, rfl⟩ : ∃ m', m = m' + 1 := ⟨m - 1, by omega⟩
      simp only [rebalanceGoS]
      rw [if_neg q]

theorem extractFixS_bound (hd : Id) : ∀ {n : Nat} {h : Heap} {x xp : Id} {r : Heap × Id} {c : Nat}, extractFixS hd n h x xp = some (r, c) →
    c ≤ n ∧ ∀ m, n ≤ m → extractFixS hd m h x xp = some (r, c)
  | 0, _, _, _, _, _, e => nomatch e
  | n + 1, h, x, xp, r, c, e => by
    simp only [extractFixS] at e
    split at e
    · rename_i q
      cases e' : (if x = h.left xp then extractFixL h hd xp else extractFixR h hd xp) with
      | go h1 x1 xp1 =>
        rw [e'] at e
        simp only at e
        cases e2 : extractFixS hd n h1 x1 xp1 with
        | none => rw [e2] at e; cases e
        | some o =>
          obtain ⟨r', c'⟩ := o
          rw [e2] at e
          simp only [tick_some, Option.some.injEq, Prod.mk.injEq] at e
          obtain ⟨rfl, rfl⟩ := e
          have ih := extractFixS_bound hd e2
          refine ⟨by omega, fun m hm => ?_⟩
          obtain ⟨m, rfl⟩ : ∃ m', m = m' + 1 := ⟨m - 1, by omega⟩
          simp only [extractFixS]
          rw [if_pos q, e']
          simp only
          rw [ih.2 m (by omega)]; rfl
      | stop h1 =>
        rw [e'] at e
        simp only [Option.some.injEq, Prod.mk.injEq] at e
        obtain ⟨rfl, rfl⟩ := e
        refine ⟨by omega, fun m hm => ?_⟩
        obtain ⟨m, rfl⟩ : ∃ m', m = m' + 1 := ⟨m - 1, by omega⟩
        simp only [extractFixS]
        rw [if_pos q, e']
    · rename_i q
      cases e
      refine ⟨by omega, fun m hm => ?_⟩
      obtain ⟨m, rfl⟩ : ∃ m', m = m' + 1 := ⟨m - 1, by omega⟩
      simp only [extractFixS]
      rw [if_neg q]

end MI.Ord
