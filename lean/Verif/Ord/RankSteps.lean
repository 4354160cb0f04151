import Verif.Ord.Acts
/-!
# Ranked indices: numbers of rounds

Ranked indices are ordered indices whose nodes hold the sizes of their subtrees, kept by the augmenting policy `rank_policy`. The functions of `Steps.lean` and `Acts.lean`
that run loops of that policy once more, now with the rounds of these loops counted too; and the loops of `nth`, `rank` and the lookups by rank.
`actR` puts the operations of the interface together as `act` does. Each function is shown to compute what the original computes.
-/
namespace MI.Ord
open MI

/-! ## Counters -/

/-- The loop of `rank_policy::add`: ranked_index.hpp:299-302. -/
def addGoS (root : Id) : Nat → Heap → Id → Option (Heap × Nat)
  | 0, _, _ => none
  | n + 1, h, x =>
    if x ≠ root then
      let x := h.parent x
      tick (addGoS root n (h.setSize x (h.size x + 1)) x)
    else some (h, 0)

/-- `rank_policy::add(x,root)`: ranked_index.hpp:295-303. -/
def augAddS (n : Nat) (h : Heap) (x root : Id) : Option (Heap × Nat) := addGoS root n (h.setSize x 1) x

/-- `rank_policy::remove(x,root)`: ranked_index.hpp:305-312. -/
def augRemoveS (root : Id) : Nat → Heap → Id → Option (Heap × Nat)
  | 0, _, _ => none
  | n + 1, h, x =>
    if x ≠ root then
      let x := h.parent x
      tick (augRemoveS root n (h.setSize x (h.size x - 1)) x)
    else some (h, 0)

/-- `link(x,side,position,header)`: ord_index_node.hpp:389-413, with `AugmentPolicy::add` (411). -/
def linkR (n : Nat) (h : Heap) (x : Id) (side : Side) (position hd : Id) : Option (Heap × Nat) :=
  let h :=
    match side with
    | .left =>
      let h := h.setLeft position x
      if position = hd then (h.setParent hd x).setRight hd x
      else if position = h.left hd then h.setLeft hd x
      else h
    | .right =>
      let h := h.setRight position x
      if position = h.right hd then h.setRight hd x else h
  let h := h.setParent x position
  let h := h.setLeft x 0
  let h := h.setRight x 0
  match augAddS n h x (h.parent hd) with
  | none => none
  | some (h, a) => more a (rebalanceS n h hd x)

/-- `rebalance_for_extract(z,root,leftmost,rightmost)`: ord_index_node.hpp:415-549, with `AugmentPolicy::remove` (434). -/
def extractR (n : Nat) (h : Heap) (hd z : Id) : Option (Heap × Nat) :=
  match chooseExtractS n h z with
  | none => none
  | some ((y, x), w) =>
    match augRemoveS (h.parent hd) n h y with
    | none => none
    | some (h, a) =>
      match (if y ≠ z then some (replaceBySucc h hd z y x, 0) else spliceOutS n h hd z x) with
      | none => none
      | some ((h, xp), w') =>
        if h.color z ≠ .red then
          match extractFixS hd n h x xp with
          | none => none
          | some ((h, x), f) => some (if x ≠ 0 then h.setColor x .black else h, w + a + w' + f)
        else some (h, w + a + w')

/-- `restore(x,position,header)`: ord_index_node.hpp:551-560. -/
def restoreR (n : Nat) (h : Heap) (x position hd : Id) : Option (Heap × Nat) :=
  if h.left position = 0 ∨ h.left position = hd then linkR n h x .left position hd
  else
    match decrementS h n position with
    | none => none
    | some (position, w) => more w (linkR n h x .right position hd)

section Acts
variable {K : Type} (lt : K → K → Bool) (u : Bool) (n : Nat) (hd : Id)

/-- The second part of `replace_` (ord_index_impl.hpp:943-955) and `modify_` (973-986). -/
def relinkRk (key : Id → K) (h : Heap) (count : Nat) (x : Id) (k : K) (c : Nat) (otherwise : Nat → Option (Idx K × Nat)) : Option (Idx K × Nat) :=
  match pointS key lt u n h hd k none with
  | none => none
  | some (.accept side pos, w) =>
    match linkR n h x side pos hd with
    | none => none
    | some (h, f) => some (⟨key, h, count⟩, c + w + f)
  | some (.reject _, w) => otherwise (c + w)

/-- The operations of a ranked index, as in `act`: ranked_index.hpp derives them all from ord_index_impl.hpp (`augmented_interface`). The number counts the rounds of all
loops. -/
def actR (s : Idx K) : Act K → Option (Idx K × Nat)
  | .insert x k hint =>
    match pointS (upd s.key x k) lt u n s.h hd k hint with
    | none => none
    | some (.accept side pos, w) =>
      match linkR n s.h x side pos hd with
      | none => none
      | some (h, f) => some (⟨upd s.key x k, h, s.count + 1⟩, w + f)
    | some (.reject _, w) => some (s, w)
  | .erase x =>
    match incrementS s.h n x with
    | none => none
    | some (_, w) =>
      match extractR n s.h hd x with
      | none => none
      | some (h, c) => some (⟨s.key, h, s.count - 1⟩, c + w)
  | .replace x k =>
    match inPlaceS (upd s.key x k) lt u n s.h hd k x with
    | none => none
    | some (true, w) => some (⟨upd s.key x k, s.h, s.count⟩, w)
    | some (false, w) =>
      match incrementS s.h n x with
      | none => none
      | some (next, w') =>
        match extractR n s.h hd x with
        | none => none
        | some (h, c) =>
          relinkRk lt u n hd (upd s.key x k) h s.count x k (c + w + w')
            (fun c => (restoreR n h x next hd).map (fun (h, c') => (⟨s.key, h, s.count⟩, c + c')))
  | .modify x k =>
    match inPlaceS (upd s.key x k) lt u n s.h hd k x with
    | none => none
    | some (true, w) => some (⟨upd s.key x k, s.h, s.count⟩, w)
    | some (false, w) =>
      match extractR n s.h hd x with
      | none => none
      | some (h, c) =>
        relinkRk lt u n hd (upd s.key x k) h s.count x k (c + w)
          (fun c => some (⟨upd s.key x k, h, s.count - 1⟩, c))

end Acts

/-! ## Ranks -/

/-- The loop of `ranked_index_nth`: rnk_index_ops.hpp:55-63. -/
def nthGoS (h : Heap) : Nat → Nat → Id → Option (Id × Nat)
  | 0, _, _ => none
  | n + 1, i, top =>
    let s := nodeSize h (h.left top)
    if i = s then some (top, 0)
    else if i < s then tick (nthGoS h n i (h.left top))
    else tick (nthGoS h n (i - (s + 1)) (h.right top))

/-- `nth(i)`: rnk_index_ops.hpp:46-64, ranked_index.hpp:69-73. -/
def nthS (n : Nat) (h : Heap) (hd : Id) (i : Nat) : Option (Id × Nat) :=
  let top := h.parent hd
  if top = 0 ∨ i ≥ h.size top then some (hd, 0) else nthGoS h n i top

/-- The loop of `ranked_index_rank`: rnk_index_ops.hpp:77-84. -/
def rankGoS (h : Heap) (top : Id) : Nat → Id → Nat → Option (Nat × Nat)
  | 0, _, _ => none
  | n + 1, x, s =>
    if x ≠ top then
      let z := h.parent x
      tick (rankGoS h top n z (if x = h.right z then s + (nodeSize h (h.left z) + 1) else s))
    else some (s, 0)

/-- `rank(x)`: rnk_index_ops.hpp:66-85, ranked_index.hpp:75-82. -/
def rankS (n : Nat) (h : Heap) (hd x : Id) : Option (Nat × Nat) :=
  let top := h.parent hd
  if top = 0 then some (0, 0)
  else if x = hd then some (h.size top, 0)
  else rankGoS h top n x (nodeSize h (h.left x))

/-- The `do … while(top)` loops of `ranked_index_lower_bound_rank` (rnk_index_ops.hpp:185-192), `ranked_index_upper_bound_rank`
(238-245), `ranked_index_find_rank` (132-139), `lower_range_rank` (ranked_index.hpp:243-250) and `upper_range_rank` (264-271). -/
def rankLoopS (q : Id → Bool) (h : Heap) : Nat → Id → Id → Nat → Option ((Nat × Id) × Nat)
  | 0, _, _, _ => none
  | n + 1, top, y, s =>
    let r := if q top then (h.left top, top, s - (nodeSize h (h.right top) + 1)) else (h.right top, y, s)
    if r.1 = 0 then some ((r.2.2, r.2.1), 1) else tick (rankLoopS q h n r.1 r.2.1 r.2.2)

/-- `if(!top)return 0; s=top->size; do …; return s;`: rnk_index_ops.hpp:171-195, 224-248, ranked_index.hpp:234-274. -/
def boundRankS (q : Id → Bool) (n : Nat) (h : Heap) (top y : Id) : Option (Nat × Nat) :=
  if top = 0 then some (0, 0) else (rankLoopS q h n top y (h.size top)).map (fun r => (r.1.1, r.2))

/-- The loop of `ranked_index_equal_range_rank` (rnk_index_ops.hpp:296-316) and of `range_rank` (ranked_index.hpp:188-206). -/
def rangeRankLoopS (before after lo up : Id → Bool) (h : Heap) : Nat → Id → Id → Nat → Option ((Nat × Nat) × Nat)
  | 0, _, _, _ => none
  | n + 1, top, y, s =>
    if before top then
      if h.right top = 0 then some ((s, s), 1) else tick (rangeRankLoopS before after lo up h n (h.right top) y s)
    else if after top then
      let s := s - (nodeSize h (h.right top) + 1)
      if h.left top = 0 then some ((s, s), 1) else tick (rangeRankLoopS before after lo up h n (h.left top) top s)
    else
      match boundRankS lo n h (h.left top) top, boundRankS up n h (h.right top) y with
      | some (a, c), some (b, c') => some ((s - h.size top + a, s - nodeSize h (h.right top) + b), 1 + c + c')
      | _, _ => none

section Ranks
variable {K CK : Type} (key : Id → K)

/-- `lower_bound_rank(x,comp)`: rnk_index_ops.hpp:171-195, ranked_index.hpp:99-112. -/
def lowerBoundRankS (ltk : K → CK → Bool) (n : Nat) (h : Heap) (hd : Id) (x : CK) : Option (Nat × Nat) :=
  boundRankS (fun p => !ltk (key p) x) n h (h.parent hd) hd

/-- `upper_bound_rank(x,comp)`: rnk_index_ops.hpp:224-248, ranked_index.hpp:114-127. -/
def upperBoundRankS (gtk : CK → K → Bool) (n : Nat) (h : Heap) (hd : Id) (x : CK) : Option (Nat × Nat) :=
  boundRankS (fun p => gtk x (key p)) n h (h.parent hd) hd

/-- `find_rank(x,comp)`: rnk_index_ops.hpp:116-142, ranked_index.hpp:84-97. -/
def findRankS (ltk : K → CK → Bool) (gtk : CK → K → Bool) (n : Nat) (h : Heap) (hd : Id) (x : CK) : Option (Nat × Nat) :=
  let top := h.parent hd
  if top = 0 then some (0, 0)
  else
    match rankLoopS (fun p => !ltk (key p) x) h n top hd (h.size top) with
    | none => none
    | some ((s, y), c) => some (if y = hd ∨ gtk x (key y) = true then h.size top else s, c)

/-- `equal_range_rank(x,comp)`: rnk_index_ops.hpp:281-317, ranked_index.hpp:129-143. -/
def equalRangeRankS (ltk : K → CK → Bool) (gtk : CK → K → Bool) (n : Nat) (h : Heap) (hd : Id) (x : CK) : Option ((Nat × Nat) × Nat) :=
  let top := h.parent hd
  if top = 0 then some ((0, 0), 0)
  else
    rangeRankLoopS (fun p => ltk (key p) x) (fun p => gtk x (key p)) (fun p => !ltk (key p) x) (fun p => gtk x (key p))
      h n top hd (h.size top)

/-- `count(x,comp)` of ranked indices: ranked_index.hpp:60-65. -/
def countRankedS (ltk : K → CK → Bool) (gtk : CK → K → Bool) (n : Nat) (h : Heap) (hd : Id) (x : CK) : Option (Nat × Nat) :=
  (equalRangeRankS key ltk gtk n h hd x).map (fun p => (p.1.2 - p.1.1, p.2))

/-- `range_rank(lower,upper)`: ranked_index.hpp:145-232; `sz` is `size()`. -/
def rangeRankS (lower upper : Option (K → Bool)) (n : Nat) (h : Heap) (hd : Id) (sz : Nat) : Option ((Nat × Nat) × Nat) :=
  let top := h.parent hd
  match lower, upper with
  | some lo, some up =>
    if top = 0 then some ((0, 0), 0)
    else
      rangeRankLoopS (fun p => !lo (key p)) (fun p => !up (key p)) (fun p => lo (key p)) (fun p => !up (key p))
        h n top hd (h.size top)
  | none, some up => (boundRankS (fun p => !up (key p)) n h top hd).map (fun b => ((0, b.1), b.2))
  | some lo, none => (boundRankS (fun p => lo (key p)) n h top hd).map (fun a => ((a.1, sz), a.2))
  | none, none => some ((0, sz), 0)

end Ranks

/-! ## Nothing but the number of rounds has been added -/

theorem addGoS_fst (root : Id) : ∀ n h x, (addGoS root n h x).map (·.1) = addGo root n h x
  | 0, _, _ => rfl
  | n + 1, h, x => by
    simp only [addGoS, addGo]
    split
    · rw [tick_map, addGoS_fst root n]
    · rfl

theorem augAddS_fst (n : Nat) (h : Heap) (x root : Id) : (augAddS n h x root).map (·.1) = augAdd n h x root := addGoS_fst ..

theorem augRemoveS_fst (root : Id) : ∀ n h x, (augRemoveS root n h x).map (·.1) = augRemove root n h x
  | 0, _, _ => rfl
  | n + 1, h, x => by
    simp only [augRemoveS, augRemove]
    split
    · rw [tick_map, augRemoveS_fst root n]
    · rfl

theorem nthGoS_fst (h : Heap) : ∀ n i top, (nthGoS h n i top).map (·.1) = nthGo h n i top
  | 0, _, _ => rfl
  | n + 1, i, top => by
    simp only [nthGoS, nthGo]
    split
    · rfl
    · split <;> rw [tick_map, nthGoS_fst h n]

theorem nthS_fst (n : Nat) (h : Heap) (hd : Id) (i : Nat) : (nthS n h hd i).map (·.1) = nth n h hd i := by
  simp only [nthS, nth]
  split
  · rfl
  · exact nthGoS_fst ..

theorem rankGoS_fst (h : Heap) (top : Id) : ∀ n x s, (rankGoS h top n x s).map (·.1) = rankGo h top n x s
  | 0, _, _ => rfl
  | n + 1, x, s => by
    simp only [rankGoS, rankGo]
    split
    · rw [tick_map, rankGoS_fst h top n]
    · rfl

theorem rankS_fst (n : Nat) (h : Heap) (hd x : Id) : (rankS n h hd x).map (·.1) = rank n h hd x := by
  simp only [rankS, rank]
  split
  · rfl
  · split
    · rfl
    · exact rankGoS_fst ..

theorem rankLoopS_fst (q : Id → Bool) (h : Heap) : ∀ n top y s, (rankLoopS q h n top y s).map (·.1) = rankLoop q h n top y s
  | 0, _, _, _ => rfl
  | n + 1, top, y, s => by
    simp only [rankLoopS, rankLoop]
    generalize (if q top then (h.left top, top, s - (nodeSize h (h.right top) + 1)) else (h.right top, y, s)) = r
    by_cases e : r.1 = 0
    · rw [if_pos e, if_pos e]; rfl
    · rw [if_neg e, if_neg e, tick_map, rankLoopS_fst q h n]

theorem boundRankS_fst (q : Id → Bool) (n : Nat) (h : Heap) (top y : Id) : (boundRankS q n h top y).map (·.1) = boundRank q n h top y := by
  unfold boundRankS boundRank
  split
  · rfl
  · rw [← rankLoopS_fst]
    rcases rankLoopS q h n top y (h.size top) with _ | ⟨⟨a, b⟩, c⟩ <;> rfl

theorem rangeRankLoopS_fst (b a lo up : Id → Bool) (h : Heap) : ∀ n top y s,
    (rangeRankLoopS b a lo up h n top y s).map (·.1) = rangeRankLoop b a lo up h n top y s
  | 0, _, _, _ => rfl
  | n + 1, top, y, s => by
    simp only [rangeRankLoopS, rangeRankLoop]
    split
    · split
      · rfl
      · rw [tick_map, rangeRankLoopS_fst b a lo up h n]
    · split
      · split
        · rfl
        · rw [tick_map, rangeRankLoopS_fst b a lo up h n]
      · rw [← boundRankS_fst, ← boundRankS_fst]
        rcases boundRankS lo n h (h.left top) top with _ | ⟨x, c⟩
        · rfl
        · rcases boundRankS up n h (h.right top) y with _ | ⟨x', c'⟩ <;> rfl

theorem findRankS_fst {K CK : Type} (key : Id → K) (ltk : K → CK → Bool) (gtk : CK → K → Bool) (n : Nat) (h : Heap) (hd : Id) (x : CK) :
    (findRankS key ltk gtk n h hd x).map (·.1) = findRank key ltk gtk n h hd x := by
  simp only [findRankS, findRank]
  split
  · rfl
  · rw [← rankLoopS_fst]
    rcases rankLoopS (fun p => !ltk (key p) x) h n (h.parent hd) hd (h.size (h.parent hd)) with _ | ⟨⟨a, b⟩, c⟩ <;> rfl

theorem equalRangeRankS_fst {K CK : Type} (key : Id → K) (ltk : K → CK → Bool) (gtk : CK → K → Bool) (n : Nat) (h : Heap) (hd : Id) (x : CK) :
    (equalRangeRankS key ltk gtk n h hd x).map (·.1) = equalRangeRank key ltk gtk n h hd x := by
  simp only [equalRangeRankS, equalRangeRank]
  split
  · rfl
  · exact rangeRankLoopS_fst ..

theorem countRankedS_fst {K CK : Type} (key : Id → K) (ltk : K → CK → Bool) (gtk : CK → K → Bool) (n : Nat) (h : Heap) (hd : Id) (x : CK) :
    (countRankedS key ltk gtk n h hd x).map (·.1) = countRanked key ltk gtk n h hd x := by
  unfold countRankedS countRanked
  rw [← equalRangeRankS_fst]
  rcases equalRangeRankS key ltk gtk n h hd x with _ | ⟨⟨a, b⟩, c⟩ <;> rfl

theorem rangeRankS_fst {K : Type} (key : Id → K) (lower upper : Option (K → Bool)) (n : Nat) (h : Heap) (hd : Id) (sz : Nat) :
    (rangeRankS key lower upper n h hd sz).map (·.1) = rangeRank key lower upper n h hd sz := by
  cases lower with
  | none =>
    cases upper with
    | none => rfl
    | some up =>
      simp only [rangeRankS, rangeRank, ← boundRankS_fst]
      rcases boundRankS (fun p => !up (key p)) n h (h.parent hd) hd with _ | ⟨a, c⟩ <;> rfl
  | some lo =>
    cases upper with
    | none =>
      simp only [rangeRankS, rangeRank, ← boundRankS_fst]
      rcases boundRankS (fun p => lo (key p)) n h (h.parent hd) hd with _ | ⟨a, c⟩ <;> rfl
    | some up =>
      simp only [rangeRankS, rangeRank]
      split
      · rfl
      · exact rangeRankLoopS_fst ..

/-! ## No more rounds than the bound on them, which does not matter otherwise -/

theorem tick_inv {α : Type} {o : Option (α × Nat)} {r : α} {c : Nat} (e : tick o = some (r, c)) : ∃ c', o = some (r, c') ∧ c = c' + 1 := by
  rcases o with _ | ⟨a, d⟩
  · cases e
  · cases e; exact ⟨d, rfl, rfl⟩

theorem nthGoS_bound (h : Heap) : ∀ {n i : Nat} {top r : Id} {c : Nat}, nthGoS h n i top = some (r, c) →
    c < n ∧ ∀ m, n ≤ m → nthGoS h m i top = some (r, c)
  | 0, _, _, _, _, e => nomatch e
  | n + 1, i, top, r, c, e => by
    have up : ∀ m, n + 1 ≤ m → ∃ m', m = m' + 1 ∧ n ≤ m' := fun m hm => ⟨m - 1, by omega, by omega⟩
    simp only [nthGoS] at e
    split at e
    · rename_i q
      cases e
      refine ⟨by omega, fun m hm => ?_⟩
      obtain ⟨m, rfl, -⟩ := up m hm
      simp only [nthGoS, if_pos q]
    · rename_i q
      split at e
      · rename_i q'
        obtain ⟨c', e', rfl⟩ := tick_inv e
        have ih := nthGoS_bound h e'
        refine ⟨by omega, fun m hm => ?_⟩
        obtain ⟨m, rfl, hm'⟩ := up m hm
        simp only [nthGoS, if_neg q, if_pos q', ih.2 m hm', tick_some]
      · rename_i q'
        obtain ⟨c', e', rfl⟩ := tick_inv e
        have ih := nthGoS_bound h e'
        refine ⟨by omega, fun m hm => ?_⟩
        obtain ⟨m, rfl, hm'⟩ := up m hm
        simp only [nthGoS, if_neg q, if_neg q', ih.2 m hm', tick_some]

theorem rankGoS_bound (h : Heap) (top : Id) : ∀ {n : Nat} {x : Id} {s r c : Nat}, rankGoS h top n x s = some (r, c) →
    c < n ∧ ∀ m, n ≤ m → rankGoS h top m x s = some (r, c)
  | 0, _, _, _, _, e => nomatch e
  | n + 1, x, s, r, c, e => by
    have up : ∀ m, n + 1 ≤ m → ∃ m', m = m' + 1 ∧ n ≤ m' := fun m hm => ⟨m - 1, by omega, by omega⟩
    simp only [rankGoS] at e
    split at e
    · rename_i q
      obtain ⟨c', e', rfl⟩ := tick_inv e
      have ih := rankGoS_bound h top e'
      refine ⟨by omega, fun m hm => ?_⟩
      obtain ⟨m, rfl, hm'⟩ := up m hm
      simp only [rankGoS, if_pos q, ih.2 m hm', tick_some]
    · rename_i q
      cases e
      refine ⟨by omega, fun m hm => ?_⟩
      obtain ⟨m, rfl, -⟩ := up m hm
      simp only [rankGoS, if_neg q]

theorem rankLoopS_bound (q : Id → Bool) (h : Heap) : ∀ {n : Nat} {top y : Id} {s : Nat} {r : Nat × Id} {c : Nat}, rankLoopS q h n top y s = some (r, c) →
    c ≤ n ∧ ∀ m, n ≤ m → rankLoopS q h m top y s = some (r, c)
  | 0, _, _, _, _, _, e => nomatch e
  | n + 1, top, y, s, r, c, e => by
    have up : ∀ m, n + 1 ≤ m → ∃ m', m = m' + 1 ∧ n ≤ m' := fun m hm => ⟨m - 1, by omega, by omega⟩
    have eq : ∀ m, rankLoopS q h (m + 1) top y s = (fun r : Id × Id × Nat => if r.1 = 0 then some ((r.2.2, r.2.1), 1) else tick (rankLoopS q h m r.1 r.2.1 r.2.2))
        (if q top then (h.left top, top, s - (nodeSize h (h.right top) + 1)) else (h.right top, y, s)) := fun m => rfl
    rw [eq] at e
    generalize (if q top then (h.left top, top, s - (nodeSize h (h.right top) + 1)) else (h.right top, y, s)) = d at e eq
    by_cases z : d.1 = 0
    · simp only [if_pos z] at e eq
      cases e
      refine ⟨by omega, fun m hm => ?_⟩
      obtain ⟨m, rfl, -⟩ := up m hm
      exact eq m
    · simp only [if_neg z] at e eq
      obtain ⟨c', e', rfl⟩ := tick_inv e
      have ih := rankLoopS_bound q h e'
      refine ⟨by omega, fun m hm => ?_⟩
      obtain ⟨m, rfl, hm'⟩ := up m hm
      rw [eq m, ih.2 m hm', tick_some]

theorem boundRankS_bound {q : Id → Bool} {n : Nat} {h : Heap} {top y : Id} {r c : Nat} (e : boundRankS q n h top y = some (r, c)) :
    c ≤ n ∧ ∀ m, n ≤ m → boundRankS q m h top y = some (r, c) := by
  unfold boundRankS at e ⊢
  by_cases z : top = 0
  · simp only [if_pos z] at e ⊢
    cases e
    exact ⟨Nat.zero_le _, fun _ _ => rfl⟩
  · simp only [if_neg z] at e ⊢
    cases e' : rankLoopS q h n top y (h.size top) with
    | none => rw [e'] at e; cases e
    | some o =>
      obtain ⟨o, d⟩ := o
      rw [e'] at e
      cases e
      have := rankLoopS_bound q h e'
      exact ⟨this.1, fun m hm => by rw [this.2 m hm]; rfl⟩

theorem rangeRankLoopS_bound (b a lo up : Id → Bool) (h : Heap) : ∀ {n : Nat} {top y : Id} {s : Nat} {r : Nat × Nat} {c : Nat},
    rangeRankLoopS b a lo up h n top y s = some (r, c) → c ≤ 2 * n ∧ ∀ m, n ≤ m → rangeRankLoopS b a lo up h m top y s = some (r, c)
  | 0, _, _, _, _, _, e => nomatch e
  | n + 1, top, y, s, r, c, e => by
    have upm : ∀ m, n + 1 ≤ m → ∃ m', m = m' + 1 ∧ n ≤ m' := fun m hm => ⟨m - 1, by omega, by omega⟩
    simp only [rangeRankLoopS] at e
    by_cases q1 : b top = true
    · simp only [if_pos q1] at e
      by_cases z : h.right top = 0
      · simp only [if_pos z] at e
        cases e
        refine ⟨by omega, fun m hm => ?_⟩
        obtain ⟨m, rfl, -⟩ := upm m hm
        simp only [rangeRankLoopS, if_pos q1, if_pos z]
      · simp only [if_neg z] at e
        obtain ⟨c', e', rfl⟩ := tick_inv e
        have ih := rangeRankLoopS_bound b a lo up h e'
        refine ⟨by omega, fun m hm => ?_⟩
        obtain ⟨m, rfl, hm'⟩ := upm m hm
        simp only [rangeRankLoopS, if_pos q1, if_neg z, ih.2 m hm', tick_some]
    · simp only [if_neg q1] at e
      by_cases q2 : a top = true
      · simp only [if_pos q2] at e
        by_cases z : h.left top = 0
        · simp only [if_pos z] at e
          cases e
          refine ⟨by omega, fun m hm => ?_⟩
          obtain ⟨m, rfl, -⟩ := upm m hm
          simp only [rangeRankLoopS, if_neg q1, if_pos q2, if_pos z]
        · simp only [if_neg z] at e
          obtain ⟨c', e', rfl⟩ := tick_inv e
          have ih := rangeRankLoopS_bound b a lo up h e'
          refine ⟨by omega, fun m hm => ?_⟩
          obtain ⟨m, rfl, hm'⟩ := upm m hm
          simp only [rangeRankLoopS, if_neg q1, if_pos q2, if_neg z, ih.2 m hm', tick_some]
      · simp only [if_neg q2] at e
        cases e1 : boundRankS lo n h (h.left top) top with
        | none => rw [e1] at e; cases e
        | some o =>
          obtain ⟨o1, d1⟩ := o
          cases e2 : boundRankS up n h (h.right top) y with
          | none => rw [e1, e2] at e; cases e
          | some o =>
            obtain ⟨o2, d2⟩ := o
            rw [e1, e2] at e
            cases e
            have b1 := boundRankS_bound e1
            have b2 := boundRankS_bound e2
            refine ⟨by omega, fun m hm => ?_⟩
            obtain ⟨m, rfl, hm'⟩ := upm m hm
            simp only [rangeRankLoopS, if_neg q1, if_neg q2, b1.2 m hm', b2.2 m hm']

end MI.Ord
