import Verif.Rnd.History
/-!
# Properties of random access indices (C31-C35, C43, C47; parts of C36, C37)

`Rep s hd xs` (`Verif.Rnd.Spec`) says that the pointer array `s` with header `hd` holds exactly the sequence `xs`, with
exact back pointers, and that its size does not exceed its capacity. `hdOr hd q` is the position designating the first
element of `q`, or `end()` if `q` is empty. `Legal` and `Effect` give, operation by operation, the documented
preconditions and effect on the sequence of elements.
-/
namespace MI.Rnd
open MI

/-- Initial contents of fresh memory, for the examples. -/
def exJunk : Nat → Id := fun _ => 77

/-- An index with header 0 and elements 1 2 3 4 5, built with the modelled operations; `nul` is 99. -/
def exOps : List Op :=
  [.insert 0 3 (some true), .insert 0 1 (some true), .insert 1 2 (some true), .insert 3 9 (some false),
   .insertRange 3 [(4, some true), (9, some false), (5, some true), (8, none)]]

def exArr : Arr := ((run exJunk 99 0 exOps (empty exJunk (fun _ => 0) 0))).getD (empty exJunk (fun _ => 0) 0)

theorem exArr_rep : Rep exArr 0 [1, 2, 3, 4, 5] := by
  refine ⟨by decide +kernel, by decide +kernel, ?_⟩
  intro i v hv
  have hi : i < 6 := by
    by_contra hc
    rw [List.getElem?_eq_none (by simpa using hc)] at hv
    cases hv
  have : ∀ i : Fin 6, exArr.arr i = ([1, 2, 3, 4, 5, 0] : List Nat)[i] ∧ exArr.up (([1, 2, 3, 4, 5, 0] : List Nat)[i] : Nat) = i.val := by
    decide +kernel
  have h2 := this ⟨i, hi⟩
  have e : v = ([1, 2, 3, 4, 5, 0] : List Nat)[(⟨i, hi⟩ : Fin 6)] := by
    have : ([1, 2, 3, 4, 5, 0] : List Nat)[i]? = some v := hv
    rw [List.getElem?_eq_getElem hi] at this
    exact (Option.some.inj this).symm
  rw [e]; exact h2

/-! ## C32: positions -/

/-- C32: `operator[](n)`, `at(n)` is the `n`-th element; `begin()+size()` is `end()`. -/
theorem C32_nth {s : Arr} {hd : Id} {xs : List Id} (h : Rep s hd xs) (n : Nat) (hn : n ≤ xs.length) :
    nth s n = (xs ++ [hd])[n]'(by simp; omega) ∧ s.size = xs.length := by
  refine ⟨?_, h.1⟩
  exact (h.2.2 n _ (List.getElem?_eq_getElem (by simp; omega))).1

/-- C32: `it-begin()` is the position of `it` (`end()-begin()` is the size). -/
theorem C32_distance {s : Arr} {hd : Id} {xs : List Id} (h : Rep s hd xs) (i j : Nat) (hi : i ≤ xs.length) (hj : j ≤ xs.length) :
    distance s (nth s i) (nth s j) = (j : Int) - i := by
  have a := (h.2.2 i _ (List.getElem?_eq_getElem (by simp; omega)))
  have b := (h.2.2 j _ (List.getElem?_eq_getElem (by simp; omega)))
  unfold distance nth
  rw [a.1, b.1, a.2, b.2]

/-- C32: `it+n` is the element `n` places further, for every `n` that stays within `[begin(),end()]`. -/
theorem C32_advance {s : Arr} {hd : Id} {xs : List Id} (h : Rep s hd xs) (i : Nat) (n : Int) (hi : i ≤ xs.length)
    (_h0 : 0 ≤ i + n) (h1 : i + n ≤ xs.length) :
    advance s (nth s i) n = (xs ++ [hd])[(i + n).toNat]'(by simp; omega) := by
  have a := (h.2.2 i _ (List.getElem?_eq_getElem (by simp; omega)))
  unfold advance nth
  rw [a.1, a.2]
  exact (h.2.2 _ _ (List.getElem?_eq_getElem (by simp; omega))).1

/-- C32: `++it` steps to the next element (or `end()`), `--it` back. -/
theorem C32_step {s : Arr} {hd x : Id} {u v : List Id} (h : Rep s hd (u ++ x :: v)) :
    increment s x = hdOr hd v ∧ decrement s (hdOr hd v) = x := ⟨rep_increment h, rep_decrement h⟩

/-- C32/C35: a new index is the empty sequence. -/
theorem C32_new (junk : Nat → Id) (up : Id → Nat) (hd : Id) : Rep (empty junk up hd) hd [] := rep_empty junk up hd

/-- C32: every operation whose preconditions hold runs to completion without undefined behaviour, has its documented
effect on the sequence and leaves exact positions (also when a user call throws). -/
theorem C32_operation (junk : Nat → Id) {nul hd : Id} {s : Arr} {xs : List Id} (h : Rep s hd xs) (op : Op)
    (hl : Legal nul hd xs op) :
    ∃ s' ys, step junk nul hd s op = some s' ∧ Effect xs ys op ∧ Rep s' hd ys := step_effect junk h op hl

/-- C32: positions are exact after every history of operations, starting from a new index: slot `n` holds the element
`operator[](n)` shows, its back pointer is `n`, and the size is within the capacity. -/
theorem C32_history (junk : Nat → Id) (nul hd : Id) (up : Id → Nat) (ops : List Op)
    (hv : Valid junk nul hd ops (empty junk up hd)) :
    ∃ s, run junk nul hd ops (empty junk up hd) = some s ∧ Rep s hd (contents s) ∧ s.size ≤ s.cap := by
  suffices H : ∀ (ops : List Op) (s : Arr), Rep s hd (contents s) → Valid junk nul hd ops s →
      ∃ s', run junk nul hd ops s = some s' ∧ Rep s' hd (contents s') ∧ s'.size ≤ s'.cap from
    H ops _ (show Rep _ hd [] from rep_empty junk up hd) hv
  intro ops
  induction ops with
  | nil => intro s h _; exact ⟨s, rfl, h, h.2.1⟩
  | cons op ops ih =>
    intro s h hv
    obtain ⟨s', ys, e, _, r⟩ := step_effect junk h op hv.1
    have r' : Rep s' hd (contents s') := by
      have : contents s' = ys := r.slots
      rw [this]; exact r
    obtain ⟨t, e', r''⟩ := ih s' r' (hv.2 s' e)
    exact ⟨t, by simp only [run, e]; exact e', r''⟩

/-- The history building `exArr` meets the hypotheses. -/
example : Valid exJunk 99 0 exOps (empty exJunk (fun _ => 0) 0) := by
  unfold exOps
  refine ⟨by simp [Legal, contents, empty, Arr.put], ?_⟩
  intro s1 h1
  have e1 : s1.size = 1 ∧ s1.arr 0 = 3 := by
    have := Option.some.inj h1; subst this; decide +kernel
  refine ⟨by simp [Legal, contents, e1], ?_⟩
  intro s2 h2
  have e2 : s2.size = 2 ∧ s2.arr 0 = 1 ∧ s2.arr 1 = 3 := by
    have := Option.some.inj h1; subst this
    have := Option.some.inj h2; subst this; decide +kernel
  refine ⟨by simp [Legal, contents, e2, List.range_succ], ?_⟩
  intro s3 h3
  have e3 : s3.size = 3 ∧ s3.arr 0 = 1 ∧ s3.arr 1 = 2 ∧ s3.arr 2 = 3 := by
    have := Option.some.inj h1; subst this
    have := Option.some.inj h2; subst this
    have := Option.some.inj h3; subst this; decide +kernel
  refine ⟨by simp [Legal, contents, e3, List.range_succ], ?_⟩
  intro s4 h4
  have e4 : s4.size = 3 ∧ s4.arr 0 = 1 ∧ s4.arr 1 = 2 ∧ s4.arr 2 = 3 := by
    have := Option.some.inj h1; subst this
    have := Option.some.inj h2; subst this
    have := Option.some.inj h3; subst this
    have := Option.some.inj h4; subst this; decide +kernel
  exact ⟨by simp [Legal, contents, e4, List.range_succ], fun _ _ => trivial⟩

example : distance exArr (nth exArr 1) (nth exArr 4) = 3 := C32_distance exArr_rep 1 4 (by decide) (by decide)
example : advance exArr (nth exArr 4) (-3) = 2 := C32_advance exArr_rep 4 (-3) (by decide) (by decide) (by decide)
example : ∃ s' ys, step exJunk 99 0 exArr (.splice 2 [4, 1]) = some s' ∧ ys = [2, 4, 1, 3, 5] ∧ Rep s' 0 ys := by
  obtain ⟨s', ys, e, f, r⟩ := C32_operation exJunk (nul := 99) exArr_rep (.splice 2 [4, 1]) (by simp [Legal])
  exact ⟨s', ys, e, f, r⟩

/-- C32: `push_back`, `insert(position,x)`: an accepted element goes exactly before `position`. -/
theorem C32_insert (junk : Nat → Id) {s : Arr} {hd x : Id} {p q : List Id} (h : Rep s hd (p ++ q))
    (hx : x ∉ hd :: (p ++ q)) :
    ∃ s', insertAt junk s hd (hdOr hd q) x true = some s' ∧ Rep s' hd (p ++ x :: q) ∧ s.cap ≤ s'.cap :=
  rep_insertAt junk h hx

/-- C32: a range insertion puts the accepted elements, in order, before `position`; if an insertion throws, those
inserted before it are there, and the exception is passed on. -/
theorem C32_insert_range (junk : Nat → Id) {s : Arr} {hd : Id} {p q : List Id} {vs : List (Id × Option Bool)}
    (h : Rep s hd (p ++ q)) (hn : (vs.map Prod.fst).Nodup) (hx : ∀ x ∈ vs.map Prod.fst, x ∉ hd :: (p ++ q)) :
    ∃ s', insertIter junk s hd (hdOr hd q) vs = (if (addedBy vs).2 then .ok s' else .threw s') ∧
      Rep s' hd (p ++ (addedBy vs).1 ++ q) ∧ s.cap ≤ s'.cap := rep_insertIter junk h hn hx

/-- C32: `erase(position)` removes exactly that element and returns the following position. -/
theorem C32_erase {s : Arr} {hd x : Id} {u v : List Id} (h : Rep s hd (u ++ x :: v)) :
    Rep (eraseAt s x).1 hd (u ++ v) ∧ (eraseAt s x).2 = hdOr hd v := ⟨(rep_erase h).1, rep_increment h⟩

/-- C32: `erase(first,last)` removes exactly the range. -/
theorem C32_erase_range {s : Arr} {hd : Id} {u blk v : List Id} (h : Rep s hd (u ++ blk ++ v)) :
    ∃ s', eraseRange s hd (hdOr hd (blk ++ v)) (hdOr hd v) = some s' ∧ Rep s' hd (u ++ v) ∧ s'.cap = s.cap :=
  rep_eraseRange h

example : ∃ s', insertAt exJunk exArr 0 (hdOr 0 [3, 4, 5]) 6 true = some s' ∧ Rep s' 0 ([1, 2] ++ 6 :: [3, 4, 5]) ∧ exArr.cap ≤ s'.cap :=
  C32_insert exJunk (p := [1, 2]) exArr_rep (by decide)
example : ∃ s', eraseRange exArr 0 (hdOr 0 ([2, 3] ++ [4, 5])) (hdOr 0 [4, 5]) = some s' ∧ Rep s' 0 ([1] ++ [4, 5]) ∧ s'.cap = exArr.cap :=
  C32_erase_range (u := [1]) exArr_rep

/-! ## C33: relocation -/

/-- C33: `relocate(position,i)`: the element is taken out and put exactly before `position`. -/
theorem C33_relocate {s : Arr} {hd x : Id} {u v p q : List Id} (h : Rep s hd (u ++ x :: v)) (e : u ++ v = p ++ q) :
    Rep (relocate s (hdOr hd q) x) hd (p ++ x :: q) := rep_relocate h e

/-- C33: `relocate(position,first,last)` terminates, and the whole block is taken out and put exactly before `position`;
all other elements and the elements of the block keep their relative order. -/
theorem C33_relocate_range {s : Arr} {hd : Id} {u blk v p q : List Id} (h : Rep s hd (u ++ blk ++ v))
    (e : u ++ v = p ++ q) :
    ∃ s', relocateRange s (hdOr hd q) (hdOr hd (blk ++ v)) (hdOr hd v) = some s' ∧ Rep s' hd (p ++ blk ++ q) ∧ s'.cap = s.cap :=
  rep_relocateRange h e

/-- C33: relocating an element before itself changes nothing. -/
theorem C33_relocate_self (s : Arr) (x : Id) : relocate s x x = s := by simp [relocate]

example : ∃ s', relocateRange exArr (hdOr 0 [5]) (hdOr 0 ([1, 2] ++ [3, 4, 5])) (hdOr 0 [3, 4, 5]) = some s' ∧
    Rep s' 0 ([3, 4] ++ [1, 2] ++ [5]) ∧ s'.cap = exArr.cap := C33_relocate_range (u := []) (blk := [1, 2]) (p := [3, 4]) exArr_rep rfl
example : Rep (relocate exArr (hdOr 0 [2, 3, 5]) 4) 0 ([1] ++ 4 :: [2, 3, 5]) :=
  C33_relocate (u := [1, 2, 3]) (p := [1]) exArr_rep rfl

/-! ## C31: remove_if and unique -/

/-- C31: `remove_if(pred)` erases exactly the elements satisfying `pred`; the others keep their order. -/
theorem C31_rnd_remove_if {pred : Nat → Id → Option Bool} {p : Id → Bool} (hp : ∀ k x, pred k x = some (p x))
    {s : Arr} {hd : Id} {xs : List Id} (h : Rep s hd xs) :
    ∃ s', removeIf pred s hd = .ok s' ∧ Rep s' hd (xs.filter (fun x => !p x)) := by
  obtain ⟨s', e, _, r⟩ := rep_removeIf pred h
  obtain ⟨a, b⟩ := remL_pure hp xs 0 [] []
  rw [a] at e r
  rw [b] at r
  exact ⟨s', e, by simpa using r⟩

/-- C31: if the predicate throws, no element is lost. -/
theorem C31_rnd_remove_if_throw (pred : Nat → Id → Option Bool) {s t : Arr} {hd : Id} {xs : List Id} (h : Rep s hd xs)
    (ht : removeIf pred s hd = .threw t) : ∃ ys, Rep t hd ys ∧ ys.Perm xs := by
  obtain ⟨s', e, _, r⟩ := rep_removeIf pred h
  have pm := remL_perm pred xs 0 [] []
  rw [ht] at e
  rcases Bool.eq_false_or_eq_true (remL pred 0 [] [] xs).1 with hb | hb
  · rw [hb] at e; simp [mkOut] at e
  · rw [hb] at e r; simp only [mkOut, Bool.false_eq_true, if_false, Out.threw.injEq] at e
    subst e
    exact ⟨_, r, by simpa using pm⟩

/-- C31 (as implemented): `unique(pred)` keeps the first element and then every element `y` with
`!pred(last kept element, y)`, in order. -/
theorem C31_rnd_unique {pred : Nat → Id → Id → Option Bool} {p : Id → Id → Bool} (hp : ∀ k x y, pred k x y = some (p x y))
    {s : Arr} {hd : Id} {xs : List Id} (h : Rep s hd xs) :
    ∃ s', unique pred s hd = .ok s' ∧ Rep s' hd (uniqueSpec (fun y last => p last y) xs) := by
  obtain ⟨s', e, _, r⟩ := rep_unique pred h
  cases xs with
  | nil => exact ⟨s', e, by simpa [uniqL, uniqueSpec] using r⟩
  | cons x xs =>
    obtain ⟨a, b⟩ := uniL_pure hp xs 0 [] x []
    have e2 : uniqL pred (x :: xs) = uniL pred 0 [] x [] xs := rfl
    rw [e2, a] at e r
    rw [b] at r
    exact ⟨s', e, by simpa [uniqueSpec] using r⟩

/-- C31: with a symmetric predicate, `unique` has exactly its documented effect. -/
theorem C31_rnd_unique_symmetric {pred : Nat → Id → Id → Option Bool} {p : Id → Id → Bool}
    (hp : ∀ k x y, pred k x y = some (p x y)) (hs : ∀ x y, p x y = p y x)
    {s : Arr} {hd : Id} {xs : List Id} (h : Rep s hd xs) :
    ∃ s', unique pred s hd = .ok s' ∧ Rep s' hd (uniqueSpec p xs) := by
  obtain ⟨s', e, r⟩ := C31_rnd_unique hp h
  have : (fun y last => p last y) = p := by funext y l; exact hs l y
  rw [this] at r
  exact ⟨s', e, r⟩

/-- C31: if the predicate throws, no element is lost. -/
theorem C31_rnd_unique_throw (pred : Nat → Id → Id → Option Bool) {s t : Arr} {hd : Id} {xs : List Id} (h : Rep s hd xs)
    (ht : unique pred s hd = .threw t) : ∃ ys, Rep t hd ys ∧ ys.Perm xs := by
  obtain ⟨s', e, _, r⟩ := rep_unique pred h
  have pm : ((uniqL pred xs).2.1 ++ (uniqL pred xs).2.2).Perm xs := by
    cases xs with
    | nil => simp [uniqL]
    | cons x xs =>
      have e2 : uniqL pred (x :: xs) = uniL pred 0 [] x [] xs := rfl
      rw [e2]; simpa using uniL_perm pred xs 0 [] x []
  rw [ht] at e
  rcases Bool.eq_false_or_eq_true (uniqL pred xs).1 with hb | hb
  · rw [hb] at e; simp [mkOut] at e
  · rw [hb] at e r; simp only [mkOut, Bool.false_eq_true, if_false, Out.threw.injEq] at e
    subst e
    exact ⟨_, r, by simpa using pm⟩

/-- The documented effect of `unique(binary_pred)` (doc/reference/rnd_indices.html: elements for which
`binary_pred(*i, *(i-1))` holds are erased), for predicates of any kind. -/
def RndUniqueDocumented : Prop :=
  ∀ (pred : Nat → Id → Id → Option Bool) (p : Id → Id → Bool) (s : Arr) (hd : Id) (xs : List Id),
    (∀ k x y, pred k x y = some (p x y)) → Rep s hd xs →
    ∃ s', unique pred s hd = .ok s' ∧ Rep s' hd (uniqueSpec p xs)

/-- C31: the documented argument order is not the implemented one: on 1 2 3 4 5 with `p(x,y) := x < y` the documentation
says that nothing is erased (no element is less than the one before it), but all elements except the first are. -/
theorem C31_rnd_unique_documented_false : ¬ RndUniqueDocumented := by
  intro H
  obtain ⟨s1, e1, r1⟩ := H (fun _ x y => some (decide ((x : Nat) < y))) (fun x y => decide ((x : Nat) < y)) exArr 0 [1, 2, 3, 4, 5]
    (fun _ _ _ => rfl) exArr_rep
  obtain ⟨s2, e2, r2⟩ := C31_rnd_unique (pred := fun _ x y => some (decide ((x : Nat) < y)))
    (p := fun x y => decide ((x : Nat) < y)) (fun _ _ _ => rfl) exArr_rep
  rw [e1] at e2
  have : s1 = s2 := Out.ok.inj e2
  subst this
  have h1 := r1.1
  have h2 := r2.1
  have e3 : (uniqueSpec (fun x y => decide ((x : Nat) < y)) ([1, 2, 3, 4, 5] : List Id)).length = 5 := by decide +kernel
  have e4 : (uniqueSpec (fun y last => decide ((last : Nat) < y)) ([1, 2, 3, 4, 5] : List Id)).length = 1 := by decide +kernel
  have h3 : s1.size = 5 := h1.trans e3
  have h4 : s1.size = 1 := h2.trans e4
  omega

example : ∃ s', removeIf (fun _ x => some ((x : Nat) % 2 == 0)) exArr 0 = .ok s' ∧ Rep s' 0 [1, 3, 5] :=
  C31_rnd_remove_if (p := fun x => (x : Nat) % 2 == 0) (fun _ _ => rfl) exArr_rep
example : ∃ s', unique (fun _ x y => some ((x : Nat) / 2 == (y : Nat) / 2)) exArr 0 = .ok s' ∧ Rep s' 0 [1, 2, 4] :=
  C31_rnd_unique_symmetric (p := fun x y => (x : Nat) / 2 == (y : Nat) / 2) (fun _ _ _ => rfl)
    (fun _ _ => BEq.comm) exArr_rep

/-! ## C34: algorithms -/

/-- C34: `reverse` reverses. -/
theorem C34_reverse {s : Arr} {hd : Id} {xs : List Id} (h : Rep s hd xs) :
    Rep (reverse s) hd xs.reverse ∧ (reverse s).cap = s.cap := rep_reverse h

/-- C34: `rearrange` installs exactly the given order. -/
theorem C34_rearrange {s : Arr} {hd : Id} {xs vs : List Id} (h : Rep s hd xs) (hp : vs.Perm xs) :
    Rep (rearrange s vs) hd vs := (rep_rearrangeGo vs (dn := []) (rest := xs) h hp).1

/-- C34: `sort` (through `std::stable_sort` on a copy of the pointers, assumed to meet its specification): the result is
sorted, a rearrangement, and equivalent elements keep their order. -/
theorem C34_sort {lt : Id → Id → Bool} {ssort : List Id → Option (List Id)} {s : Arr} {hd : Id}
    {xs ys : List Id} (h : Rep s hd xs)
    (hs : ssort xs = some ys) (hp : ys.Perm xs) (ho : Sorted lt ys) (hst : StableOf lt xs ys) :
    ∃ s' zs, sort ssort s = .ok s' ∧ Rep s' hd zs ∧ zs.Perm xs ∧ Sorted lt zs ∧ StableOf lt xs zs := by
  unfold sort
  have hsz := h.1
  by_cases h1 : xs.length ≤ 1
  · rw [if_pos (by omega)]
    refine ⟨s, xs, rfl, h, List.Perm.refl _, ?_, fun _ => rfl⟩
    match xs, h1 with
    | [], _ => exact List.Pairwise.nil
    | [a], _ => exact List.pairwise_singleton _ _
  · rw [if_neg (by omega), h.slots, hs]
    exact ⟨_, ys, rfl, (rep_writeBack h hp).1, hp, ho, hst⟩

/-- C34: if the comparison throws during `sort`, the index is untouched. -/
theorem C34_sort_throw {ssort : List Id → Option (List Id)} {s : Arr} {hd : Id}
    {xs : List Id} (h : Rep s hd xs) (h1 : 1 < xs.length) (hs : ssort xs = none) : sort ssort s = .threw s := by
  unfold sort
  have hsz := h.1
  rw [if_neg (by omega), h.slots, hs]

/-- C34: the merge at the end of `merge`: two sorted runs become one sorted run; of equivalent elements, those of the
first run come first; nothing is lost. -/
theorem C34_inplace_merge {lt : Id → Id → Bool} (hl : StrictWeak lt) {cmp : Nat → Id → Id → Option Bool}
    (hc : ∀ k x y, cmp k x y = some (lt x y)) {s : Arr} {hd : Id} {xs ys : List Id} (h : Rep s hd (xs ++ ys))
    (hx : Sorted lt xs) (hy : Sorted lt ys) :
    ∃ s' zs, inplaceMerge cmp s xs.length = .ok s' ∧ Rep s' hd zs ∧ zs.Perm (xs ++ ys) ∧ Sorted lt zs ∧
      StableOf lt (xs ++ ys) zs := by
  obtain ⟨zs0, hz0⟩ := mrgL_some (cmp := cmp) (fun k x y => by simp [hc]) _ xs ys 0 (Nat.le_refl _)
  rcases rep_inplaceMerge cmp h with ⟨_, e⟩ | ⟨s', zs, e, hz, r, _⟩
  · rw [e] at hz0; cases hz0
  · have := mrgL_sorted hl hc _ xs ys zs 0 (Nat.le_refl _) hx hy hz
    exact ⟨s', zs, e, r, mrgL_perm cmp _ xs ys zs 0 (Nat.le_refl _) hz, this.1, this.2⟩

/-- C34: if the comparison throws during the merge, the array is untouched. -/
theorem C34_inplace_merge_throw (cmp : Nat → Id → Id → Option Bool) {s t : Arr} {hd : Id} {xs ys : List Id}
    (h : Rep s hd (xs ++ ys)) (ht : inplaceMerge cmp s xs.length = .threw t) : t = s := by
  rcases rep_inplaceMerge cmp h with ⟨e, _⟩ | ⟨s', zs, e, _⟩
  · rw [e] at ht; exact (Out.threw.inj ht).symm
  · rw [e] at ht; cases ht

/-- C34: `splice` of elements of the same container before `position`: exactly the named elements, in the order given,
stand there; all others keep their order. (`nul`: the null pointer, which is no element.) -/
theorem C34_internal_splice {s : Arr} {hd nul : Id} {u v vs : List Id} (h : Rep s hd (u ++ v)) (hn : vs.Nodup)
    (hm : ∀ x ∈ vs, x ∈ u ++ v) (hnul : nul ∉ u ++ v) :
    Rep (internalSplice nul s (hdOr hd v) vs) hd (u.filter (· ∉ vs) ++ vs ++ v.filter (· ∉ vs)) :=
  (rep_internalSplice h hn hm hnul).1

/-- C34/C43: `splice` from another container: the accepted elements, in order, leave the source and stand exactly before
`position` in the destination; everything else keeps its order. If a call throws, those transferred before it are
kept, and the exception is passed on. -/
theorem C34_external_splice (junk : Nat → Id) (dec : Id → Option Bool) {hd hs : Id} {d s : Arr} {p q ys vs : List Id}
    (h1 : Rep d hd (p ++ q)) (h2 : Rep s hs ys) (hn : vs.Nodup) (hm : ∀ v ∈ vs, v ∈ ys)
    (hdis : ∀ y ∈ ys, y ∉ hd :: (p ++ q)) :
    ∃ d' s', externalSplice junk dec d s hd (hdOr hd q) vs =
        (if (moved dec vs).1 then .ok (d', s') else .threw (d', s')) ∧
      Rep d' hd (p ++ (moved dec vs).2 ++ q) ∧ Rep s' hs (ys.filter (· ∉ (moved dec vs).2)) :=
  rep_externalSplice junk dec h1 h2 hn hm hdis

/-- C34: `merge(x,comp)` with two sorted containers, no call throwing: the destination becomes sorted, holding its own
elements and the accepted ones of `x`; its own come first among equivalents; the rejected elements stay in `x`. -/
theorem C34_merge (junk : Nat → Id) {dec : Id → Option Bool} {lt : Id → Id → Bool} (hl : StrictWeak lt)
    {cmp : Nat → Id → Id → Option Bool} (hc : ∀ k x y, cmp k x y = some (lt x y)) {hd hs : Id} {d s : Arr} {xs ys : List Id}
    (h1 : Rep d hd xs) (h2 : Rep s hs ys) (hdis : ∀ y ∈ ys, y ∉ hd :: xs)
    (hdec : ∀ y, (dec y).isSome) (hx : Sorted lt xs) (hy : Sorted lt ys) :
    ∃ d' s' zs, merge junk dec cmp d s hd ys = .ok (d', s') ∧ Rep d' hd zs ∧
      zs.Perm (xs ++ ys.filter (fun y => dec y = some true)) ∧ Sorted lt zs ∧
      StableOf lt (xs ++ ys.filter (fun y => dec y = some true)) zs ∧
      Rep s' hs (ys.filter (fun y => dec y ≠ some true)) := by
  have hmv : ∀ l : List Id, moved dec l = (true, l.filter (fun y => dec y = some true)) := by
    intro l
    induction l with
    | nil => rfl
    | cons x l ih =>
      rcases Option.eq_none_or_eq_some (dec x) with e | ⟨b, e⟩
      · have := hdec x; rw [e] at this; cases this
      · cases b <;> simp [moved, e, ih]
  obtain ⟨d1, s1, e1, r1, r2⟩ := rep_externalSplice junk dec (p := xs) (q := []) (vs := ys) (by simpa using h1) h2 h2.nodup'
    (fun _ h => h) (by simpa using hdis)
  rw [hmv] at e1 r1 r2
  have hys : Sorted lt (ys.filter (fun y => dec y = some true)) := List.Pairwise.filter _ hy
  obtain ⟨d2, zs, e, r, pm, so, st⟩ := C34_inplace_merge hl hc (xs := xs) (ys := ys.filter (fun y => dec y = some true))
    (by simpa using r1) hx hys
  have e1' : externalSplice junk dec d s hd hd ys = .ok (d1, s1) := e1
  refine ⟨d2, s1, zs, ?_, r, pm, so, st, ?_⟩
  · unfold merge
    rw [e1', h1.1]
    simp only [e]
  · have : ys.filter (· ∉ ys.filter (fun y => dec y = some true)) = ys.filter (fun y => dec y ≠ some true) := by
      apply List.filter_congr
      intro y hy
      simp [List.mem_filter, hy]
    rw [← this]; exact r2

example : Rep (reverse exArr) 0 [5, 4, 3, 2, 1] := (C34_reverse exArr_rep).1
example : Rep (rearrange exArr [2, 5, 1, 3, 4]) 0 [2, 5, 1, 3, 4] := C34_rearrange exArr_rep (by decide)
example : Rep (internalSplice 99 exArr (hdOr 0 [3, 4, 5]) [4, 1]) 0 [2, 4, 1, 3, 5] :=
  C34_internal_splice (u := [1, 2]) (vs := [4, 1]) exArr_rep (by decide) (by decide) (by decide)

/-- A second index with header 10 and elements 12 13 14. -/
def exArr2 : Arr := ((run exJunk 99 10 [.insertRange 0 [(12, some true), (13, some true), (14, some true)]]
  (empty exJunk (fun _ => 0) 10))).getD (empty exJunk (fun _ => 0) 10)

theorem exArr2_rep : Rep exArr2 10 [12, 13, 14] := by
  obtain ⟨s', ys, e, f, r⟩ := step_effect exJunk (nul := 99) (rep_empty exJunk (fun _ => 0) 10)
    (.insertRange 0 [(12, some true), (13, some true), (14, some true)]) (by simp [Legal])
  have : exArr2 = s' := by
    unfold exArr2
    simp only [run]
    rw [e]; rfl
  have f' : ys = [12, 13, 14] := f
  rw [this, ← f']; exact r

/-- 12 is accepted, 13 is not, 14 throws: the exception passes and 12 stands before 3. -/
example : ∃ d' s', externalSplice exJunk (fun x => if x = 12 then some true else if x = 13 then some false else none)
      exArr exArr2 0 (hdOr 0 [3, 4, 5]) [12, 13, 14] = .threw (d', s') ∧
    Rep d' 0 [1, 2, 12, 3, 4, 5] ∧ Rep s' 10 [13, 14] :=
  C34_external_splice exJunk (fun x => if x = 12 then some true else if x = 13 then some false else none)
    (p := [1, 2]) (vs := [12, 13, 14]) exArr_rep exArr2_rep (by decide) (by decide) (by decide)

/-- Sorting in descending order. -/
example : ∃ s' zs, sort (fun _ => some [5, 4, 3, 2, 1]) exArr = .ok s' ∧ Rep s' 0 zs ∧ zs.Perm [1, 2, 3, 4, 5] ∧
    Sorted (fun x y : Id => decide ((y : Nat) < x)) zs ∧ StableOf (fun x y : Id => decide ((y : Nat) < x)) [1, 2, 3, 4, 5] zs := by
  refine C34_sort (ys := [5, 4, 3, 2, 1]) exArr_rep rfl (by decide) (by simp [Sorted]) ?_
  intro x
  have : ∀ l : List Id, l.filter (equivOf (fun x y : Id => decide ((y : Nat) < x)) x) = l.filter (fun y => decide (x = y)) := by
    intro l
    apply List.filter_congr
    intro y _
    simp only [equivOf]
    rcases Nat.lt_trichotomy x y with h | h | h
    · simp [h, Nat.ne_of_lt h]
    · simp [show x = y from h]
    · simp [h, (Nat.ne_of_lt h).symm]
  rw [this, this]
  by_cases h : x = 1 ∨ x = 2 ∨ x = 3 ∨ x = 4 ∨ x = 5
  · rcases h with rfl | rfl | rfl | rfl | rfl <;> decide
  · simp only [not_or] at h
    simp [h]

/-- Merging 1 2 3 4 5 with 12 13 14, of which 13 is rejected. -/
example : ∃ d' s' zs, merge exJunk (fun x => some (decide (x ≠ 13))) (fun _ x y => some (decide ((x : Nat) < y))) exArr exArr2 0
      [12, 13, 14] = .ok (d', s') ∧ Rep d' 0 zs ∧ Sorted (fun x y : Id => decide ((x : Nat) < y)) zs ∧ Rep s' 10 [13] := by
  obtain ⟨d', s', zs, e, r, _, so, _, r'⟩ := C34_merge exJunk (dec := fun x => some (decide (x ≠ 13)))
    (lt := fun x y => decide ((x : Nat) < y)) ⟨by simp, by
      simp only [decide_eq_true_eq]; intros; idomega, by
      simp only [decide_eq_false_iff_not]; intros; idomega⟩
    (cmp := fun _ x y => some (decide ((x : Nat) < y))) (fun _ _ _ => rfl) exArr_rep exArr2_rep (by decide) (fun _ => rfl)
    (by simp [Sorted]) (by simp [Sorted])
  exact ⟨d', s', zs, e, r, so, r'⟩

/-! ## C35: capacity -/

/-- C35: `reserve(n)` sets the capacity to the maximum of itself and `n`, changing nothing else. -/
theorem C35_reserve (junk : Nat → Id) {s : Arr} {hd : Id} {xs : List Id} (h : Rep s hd xs) (n : Nat) :
    Rep (reserve junk s n) hd xs ∧ (reserve junk s n).cap = max s.cap n := rep_reserve junk h n

/-- C35: `shrink_to_fit` makes the capacity equal to the size, changing nothing else. -/
theorem C35_shrink_to_fit (junk : Nat → Id) {s : Arr} {hd : Id} {xs : List Id} (h : Rep s hd xs) :
    Rep (shrinkToFit junk s) hd xs ∧ (shrinkToFit junk s).cap = xs.length := rep_shrink junk h

/-- C35: room is made before anything else: the order is kept, the capacity does not decrease and exceeds the size, so
that the final link of the new node always succeeds. -/
theorem C35_room_for_one (junk : Nat → Id) {s : Arr} {hd : Id} {xs : List Id} (h : Rep s hd xs) :
    Rep (roomForOne junk s) hd xs ∧ s.size < (roomForOne junk s).cap ∧ s.cap ≤ (roomForOne junk s).cap ∧
    ∀ x, x ∉ hd :: xs → ∃ s', pushBack (roomForOne junk s) x = some s' ∧ Rep s' hd (xs ++ [x]) := by
  obtain ⟨a, b, c⟩ := rep_roomForOne junk h
  refine ⟨a, by rw [h.1]; exact b, c, fun x hx => ?_⟩
  obtain ⟨s', e, r, _⟩ := rep_pushBack a hx b
  exact ⟨s', e, r⟩

/-- C35: the growth is geometric: when the array is full, `room_for_one` sets the capacity to `15` for sizes up to 10 and to
`size+size/2` otherwise; when it is not full, the array is not touched. -/
theorem C35_growth (junk : Nat → Id) {s : Arr} {hd : Id} {xs : List Id} (h : Rep s hd xs) :
    roomForOne junk s = s ∨
      (s.size = s.cap ∧ (roomForOne junk s).cap = if s.cap ≤ 10 then 15 else s.cap + s.cap / 2) := by
  unfold roomForOne
  split
  · rename_i hf
    right
    refine ⟨hf, ?_⟩
    rw [(rep_reserve junk h _).2]
    split <;> omega
  · exact Or.inl rfl

example : Rep (shrinkToFit exJunk exArr) 0 [1, 2, 3, 4, 5] ∧ (shrinkToFit exJunk exArr).cap = 5 :=
  C35_shrink_to_fit exJunk exArr_rep
example : exArr.cap = 15 := by decide +kernel

/-! ## C47: loading -/

/-- C47: a loader session with moves "put `x` right after `p`" (or first) yields exactly the sequence that results from
performing these moves one by one, with exact back pointers. -/
theorem C47_load {s : Arr} {hd : Id} {xs : List Id} (h : Rep s hd xs) (moves : List (Option Id × Id))
    (hm : ∀ mv ∈ moves, mv.2 ∈ xs ∧ ∀ p ∈ mv.1, p ∈ xs ∧ p ≠ mv.2) :
    Rep (load s moves) hd (moves.foldl (fun l mv => moveAfter l mv.1 mv.2) xs) := rep_load h moves hm

example : Rep (load exArr [(none, 4), (some 4, 2), (some 3, 1)]) 0 [4, 2, 3, 1, 5] :=
  C47_load exArr_rep [(none, 4), (some 4, 2), (some 3, 1)] (by simp)

/-! ## C36, C37: random access parts -/

/-- C36: copying (`copy_`, random_access_index.hpp:808-824) through a copy map that is injective and sends header to header
gives the images of the elements in the same order. -/
theorem C36_rnd_copy {s : Arr} {hd hd' : Id} {xs : List Id} (h : Rep s hd xs) {map : Id → Id} {t : Arr}
    (hinj : ∀ x ∈ xs ++ [hd], ∀ y ∈ xs ++ [hd], map x = map y → x = y) (hmap : map hd = hd')
    (hc : s.size ≤ t.cap) :
    Rep { copyGo s.arr map (s.size + 1) t 0 with size := s.size } hd' (xs.map map) := rep_copy h hinj hmap hc

example : Rep { copyGo exArr.arr (· + 100) (exArr.size + 1) { exArr2 with cap := 5 } 0 with size := exArr.size } 100
    [101, 102, 103, 104, 105] :=
  C36_rnd_copy exArr_rep (map := (· + 100)) (fun x _ y _ h => Nat.add_right_cancel h) rfl (by decide +kernel)

end MI.Rnd
