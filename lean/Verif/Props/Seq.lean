import Verif.Seq.AlgoLemmas
import Verif.Seq.SortLemmas
/-!
# Properties of sequenced indices (C26-C31, C43; sequenced part)

`Fam h ((a, xs) :: R)` (`Verif.Seq.Spec`) says that in the heap of links `h` the index whose header is `a` holds
exactly the nodes `xs`, in this order, both forwards and backwards, and that the other lists in the heap are `R`.
`hdOr a t` is the position designating the first element of `t`, or `end()` if `t` is empty.
-/
namespace MI.Seq
open MI

/-- A heap with the list 1 2 3 hanging from header 0 and the list 11 12 hanging from header 10, built with the
modelled operations; used to show that the theorems' hypotheses are met. -/
def exHeap : Heap :=
  let h := (Heap.emptyInit ⟨id, id⟩ 0).emptyInit 10
  let h := ((h.link 1 0).link 2 0).link 3 0
  (h.link 11 10).link 12 10

theorem exHeap_fam : Fam exHeap ((0, [1, 2, 3]) :: (10, [11, 12]) :: []) := by decide

/-! ## C26 -/

/-- C26: an accepted `insert(position,x)` puts `x` exactly before `position`; nothing else changes. -/
theorem C26_insert {h : Heap} {a x : Id} {s t : List Id} {R : List (Id × List Id)}
    (hf : Fam h ((a, s ++ t) :: R)) (hx : x ∉ famIds ((a, s ++ t) :: R)) :
    Fam (insertAt h a (hdOr a t) x true) ((a, s ++ x :: t) :: R) := fam_insertAt hf hx

/-- C26: a rejected insertion leaves every link as it was. -/
theorem C26_insert_rejected (h : Heap) (a position x : Id) : insertAt h a position x false = h := by
  simp [insertAt]

/-- C26: `push_front` puts the element first (`begin()` is the node after the header). -/
theorem C26_push_front {h : Heap} {a x : Id} {t : List Id} {R : List (Id × List Id)}
    (hf : Fam h ((a, t) :: R)) (hx : x ∉ famIds ((a, t) :: R)) :
    Fam (insertAt h a (h.next a) x true) ((a, x :: t) :: R) := by
  rw [next_hd hf]; exact fam_insertAt (s := []) hf hx

/-- C26: `push_back` puts the element last (`end()` is the header). -/
theorem C26_push_back {h : Heap} {a x : Id} {t : List Id} {R : List (Id × List Id)}
    (hf : Fam h ((a, t) :: R)) (hx : x ∉ famIds ((a, t) :: R)) :
    Fam (insertAt h a a x true) ((a, t ++ [x]) :: R) :=
  fam_insertAt (s := t) (t := []) (by simpa using hf) (by simpa using hx)

/-- C26: `insert(position,first,last)` puts the accepted values, in order, exactly before `position`. -/
theorem C26_insert_range {h : Heap} {a : Id} {s t : List Id} {R : List (Id × List Id)} {vs : List (Id × Bool)}
    (hf : Fam h ((a, s ++ t) :: R)) (hn : (vs.map (·.1)).Nodup)
    (hx : ∀ v ∈ vs, v.1 ∉ famIds ((a, s ++ t) :: R)) :
    Fam (insertIter h a (hdOr a t) vs) ((a, s ++ (vs.filter (·.2)).map (·.1) ++ t) :: R) :=
  fam_insertIter vs hf hn hx

/-- C26: `erase(position)` removes exactly that element and returns the position of the following one. -/
theorem C26_erase {h : Heap} {a x : Id} {s t : List Id} {R : List (Id × List Id)}
    (hf : Fam h ((a, s ++ x :: t) :: R)) :
    Fam (eraseAt h x).1 ((a, s ++ t) :: R) ∧ (eraseAt h x).2 = hdOr a t :=
  ⟨(fam_unlink hf).1, next_in hf⟩

/-- C26: `erase(first,last)` terminates and removes exactly the range. -/
theorem C26_erase_range {h : Heap} {a : Id} {s blk t : List Id} {R : List (Id × List Id)} {n : Nat}
    (hf : Fam h ((a, s ++ blk ++ t) :: R)) (hn : blk.length ≤ n) :
    ∃ h', eraseRange n h (hdOr a (blk ++ t)) (hdOr a t) = .ok (h', blk) ∧ Fam h' ((a, s ++ t) :: R) :=
  fam_eraseRange blk hf hn

/-- C26: shrinking by `m` (`resize`, repeated `pop_back`) keeps exactly the first elements. -/
theorem C26_shrink {h : Heap} {a : Id} {xs : List Id} {R : List (Id × List Id)} {m : Nat}
    (hf : Fam h ((a, xs) :: R)) (hm : m ≤ xs.length) :
    Fam (popBackN a m h).1 ((a, xs.take (xs.length - m)) :: R) := (fam_popBackN m hf hm).1

/-- C26: `assign` replaces the contents by the accepted values in order. -/
theorem C26_assign {h : Heap} {a : Id} {xs : List Id} {R : List (Id × List Id)} {vs : List (Id × Bool)}
    (hf : Fam h ((a, xs) :: R)) (hn : (vs.map (·.1)).Nodup)
    (hx : ∀ v ∈ vs, v.1 ∉ famIds ((a, []) :: R)) :
    Fam (assign h a vs) ((a, (vs.filter (·.2)).map (·.1)) :: R) := by
  have ha : a ∉ famIds R := by
    have := hf.1; rw [famIds_cons] at this; simp at this; exact this.1.2
  have := fam_insertIter (a := a) (s := []) (t := []) vs (h := h.emptyInit a) (by simpa using fam_emptyInit hf.tail ha)
    hn (by simpa using hx)
  simpa [assign, accepted, hdOr] using this

/-- C26: iterating with `++` from `begin()` to `end()` visits exactly the elements in order. -/
theorem C26_traverse {h : Heap} {a : Id} {xs : List Id} {R : List (Id × List Id)} {n : Nat}
    (hf : Fam h ((a, xs) :: R)) (hn : xs.length ≤ n) : traverse h a n = some xs := by
  unfold traverse
  rw [next_hd hf]
  exact traverse_from (u := []) (hf.circ (by simp)) hn

/-- C26: `--` is the inverse of `++` at every position, `end()` included. -/
theorem C26_decrement {h : Heap} {a : Id} {xs : List Id} {R : List (Id × List Id)}
    (hf : Fam h ((a, xs) :: R)) {p : Id} (hp : p ∈ a :: xs) : h.decrement (h.increment p) = p := by
  have hs := (hf.circ (a := a) (xs := xs) (by simp)).2
  simp only [Heap.decrement, Heap.increment]
  rcases List.mem_cons.1 hp with rfl | hm
  · cases xs with
    | nil => rw [hs.1]; exact hs.2
    | cons y ys => rw [hs.1]; exact hs.2.1
  · obtain ⟨u, v, rfl⟩ := List.append_of_mem hm
    have e := next_in hf
    have sp := (seg_split (h := h) (a := a) (u := u ++ [p]) (v := v) (by simpa using hs)).2
    rw [e, sp]; simp [lastOr]

example : ∃ (h : Heap), Fam h ((0, [1, 2] ++ [3]) :: [(10, [11, 12])]) ∧
    (4 : Id) ∉ famIds ((0, [1, 2] ++ [3]) :: [(10, [11, 12])]) ∧
    Fam (insertAt h 0 (hdOr 0 [3]) 4 true) ((0, [1, 2, 4, 3]) :: [(10, [11, 12])]) :=
  ⟨exHeap, by decide, by decide, C26_insert (s := [1, 2]) (t := [3]) exHeap_fam (by decide)⟩
example : ∃ h', eraseRange 2 exHeap 1 3 = .ok (h', [1, 2]) ∧ Fam h' ((0, [3]) :: [(10, [11, 12])]) :=
  C26_erase_range (s := []) (blk := [1, 2]) (t := [3]) exHeap_fam (by decide)
example : Fam (insertIter exHeap 0 2 [(4, true), (5, false), (6, true)]) ((0, [1, 4, 6, 2, 3]) :: [(10, [11, 12])]) :=
  C26_insert_range (s := [1]) (t := [2, 3]) exHeap_fam (by decide) (by decide)
example : Fam (popBackN 0 2 exHeap).1 ((0, [1]) :: [(10, [11, 12])]) := C26_shrink exHeap_fam (by decide)
example : Fam (assign exHeap 0 [(2, true), (5, true)]) ((0, [2, 5]) :: [(10, [11, 12])]) :=
  C26_assign exHeap_fam (by decide) (by decide)
example : traverse exHeap 0 3 = some [1, 2, 3] := C26_traverse exHeap_fam (by decide)

/-! ## C27 -/

/-- C27: `relocate(position,i)` / same-container `splice(position,x,i)`: the element is taken out of its place and put
exactly before `position` (also when `position` is the element itself, or the one after it). -/
theorem C27_relocate {h : Heap} {a x : Id} {u v s t : List Id} {R : List (Id × List Id)}
    (hf : Fam h ((a, u ++ x :: v) :: R)) (e : u ++ v = s ++ t) :
    Fam (relocate h (hdOr a t) x) ((a, s ++ x :: t) :: R) := by
  unfold relocate
  split
  · exact fam_relink_same hf e
  · rename_i hp
    exfalso
    have hp : hdOr a t = x := by simpa using hp
    have hn := (hf.circ (a := a) (xs := u ++ x :: v) (by simp)).1
    have : x ∈ a :: (u ++ v) := by
      rw [e, ← hp]; cases t <;> simp [hdOr]
    simp only [List.nodup_cons, List.nodup_append, List.mem_append, List.mem_cons] at hn this
    grind

/-- C27: relocating an element before itself changes nothing. -/
theorem C27_relocate_self (h : Heap) (x : Id) : relocate h x x = h := by simp [relocate]

/-- C27: `relocate(position,first,last)` / same-container range `splice`: the block is moved, in order, exactly before
`position`. -/
theorem C27_relocate_range {h : Heap} {a : Id} {u blk v s t : List Id} {R : List (Id × List Id)}
    (hf : Fam h ((a, u ++ blk ++ v) :: R)) (e : u ++ v = s ++ t) :
    Fam (relocateRange h (hdOr a t) (hdOr a (blk ++ v)) (hdOr a v)) ((a, s ++ blk ++ t) :: R) :=
  fam_relocateRange hf e

/-- C27: `reverse` terminates and reverses the order. -/
theorem C27_reverse {h : Heap} {a : Id} {xs : List Id} {R : List (Id × List Id)} {n : Nat}
    (hf : Fam h ((a, xs) :: R)) (hn : xs.length < n) :
    ∃ h', h.reverse n a = some h' ∧ Fam h' ((a, xs.reverse) :: R) := fam_reverse hf hn

/-- C27: `rearrange(first)` produces exactly the given order. -/
theorem C27_rearrange {h : Heap} {a : Id} {xs vs : List Id} {R : List (Id × List Id)}
    (hf : Fam h ((a, xs) :: R)) (hp : vs.Perm xs) : Fam (rearrange h a vs) ((a, vs) :: R) := by
  simpa using fam_rearrange (dn := []) vs (by simpa using hf) hp

/-- C27: same-container `splice(position,x,first,last)` with the range given by another index: the elements of the range
end up, in the order of the range, before `position`; the others keep their order. -/
theorem C27_splice_other_index {h : Heap} {a : Id} {s t vs : List Id} {R : List (Id × List Id)}
    (hf : Fam h ((a, s ++ t) :: R)) (hn : vs.Nodup) (hm : ∀ v ∈ vs, v ∈ s ++ t) (hp : hdOr a t ∉ vs) :
    Fam (internalSplice h (hdOr a t) vs) ((a, s.filter (· ∉ vs) ++ vs ++ t.filter (· ∉ vs)) :: R) :=
  fam_internalSplice vs hf hn hm hp

/-- C27, C37: `swap` of two indices exchanges their sequences. -/
theorem C27_swap {h : Heap} {a b : Id} {xs ys : List Id} {R : List (Id × List Id)}
    (hf : Fam h ((a, xs) :: (b, ys) :: R)) : Fam (h.swapHeaders a b) ((a, ys) :: (b, xs) :: R) :=
  fam_swapHeaders hf

example : Fam (relocate exHeap 1 3) ((0, [3, 1, 2]) :: [(10, [11, 12])]) :=
  C27_relocate (u := [1, 2]) (v := []) (s := []) (t := [1, 2]) exHeap_fam rfl
example : Fam (relocateRange exHeap 0 1 3) ((0, [3, 1, 2]) :: [(10, [11, 12])]) :=
  C27_relocate_range (u := []) (blk := [1, 2]) (v := [3]) (s := [3]) (t := []) exHeap_fam rfl
example : ∃ h', exHeap.reverse 4 0 = some h' ∧ Fam h' ((0, [3, 2, 1]) :: [(10, [11, 12])]) :=
  C27_reverse exHeap_fam (by decide)
example : Fam (rearrange exHeap 0 [2, 3, 1]) ((0, [2, 3, 1]) :: [(10, [11, 12])]) :=
  C27_rearrange exHeap_fam (by decide)
example : Fam (internalSplice exHeap 2 [3, 1]) ((0, [3, 1, 2]) :: [(10, [11, 12])]) :=
  C27_splice_other_index (s := [1]) (t := [2, 3]) exHeap_fam (by decide) (by decide) (by decide)
example : Fam (exHeap.swapHeaders 0 10) ((0, [11, 12]) :: [(10, [1, 2, 3])]) := C27_swap exHeap_fam

/-! ## C28, C29: sort -/

/-- The full claim C28 about `sort`: with a comparison that never throws, for a list of fewer than `2^W` elements
(`W` the number of bits of `std::size_t`, the counter array having `W+1` entries), `sort` returns with the same elements,
sorted, equivalent elements keeping their order. -/
def SortStable : Prop :=
  ∀ (lt : Id → Id → Bool), StrictWeak lt → ∀ (h : Heap) (header carry : Id) (cid : Nat → Id) (N W : Nat)
    (xs : List Id) (R : List (Id × List Id)), Fam h ((header, xs) :: R) → carry ∉ header :: (xs ++ famIds R) →
    Locals cid header carry xs R → xs.length ≤ N → xs.length < 2 ^ W →
    ∃ h' k' ys, sort (fun _ x y => some (lt x y)) N (W + 1) h header carry cid = .ok (h', k') ∧
      Fam h' ((header, ys) :: R) ∧ ys.Perm xs ∧ Sorted lt ys ∧ StableOf lt xs ys

/-- C28, all but stability: `sort` returns, keeps every element exactly once and sorts. Missing with respect to C28:
stability, which is false of the code (`C28_sort_not_stable`). -/
theorem C28_sort_partial {lt : Id → Id → Bool} (hl : StrictWeak lt) {h : Heap} {header carry : Id} {cid : Nat → Id}
    {N W : Nat} {xs : List Id} {R : List (Id × List Id)} (hf : Fam h ((header, xs) :: R))
    (hcar : carry ∉ header :: (xs ++ famIds R)) (hloc : Locals cid header carry xs R) (hN : xs.length ≤ N)
    (hW : xs.length < 2 ^ W) :
    ∃ h' k' ys, sort (fun _ x y => some (lt x y)) N (W + 1) h header carry cid = .ok (h', k') ∧
      Fam h' ((header, ys) :: R) ∧ ys.Perm xs ∧ Sorted lt ys := by
  rcases sort_spec (fun _ x y => some (lt x y)) hf hcar hloc hN hW with ⟨h', k', ys, e, p, f, s⟩ | ⟨_, _, _, _, _, _, k, x, y, h⟩
  · exact ⟨h', k', ys, e, f, p, s lt hl (fun _ _ _ => rfl)⟩
  · cases h

/-- Addresses of the local nodes used by the examples. -/
theorem exLocals (xs : List Id) (hx : ∀ x ∈ xs, x < 100) (R : List (Id × List Id)) (hR : ∀ x ∈ famIds R, x < 100) :
    Locals (fun i => 100 + i) 0 99 xs R where
  inj := by intro i j h; simpa using h
  fresh := by
    intro i hm
    simp only [List.mem_cons, List.mem_append] at hm
    rcases hm with h | h | h | h
    · idomega
    · idomega
    · exact absurd (hx _ h) (by idomega)
    · exact absurd (hR _ h) (by idomega)

/-- The list 1 2 hanging from header 0. -/
def exHeap2 : Heap := ((Heap.emptyInit ⟨id, id⟩ 0).link 1 0).link 2 0

/-- Sorting `exHeap2` with a comparison that makes all elements equivalent puts element 2 first. -/
theorem exHeap2_sort : (match sort (fun _ _ _ => some false) 2 (2 + 1) exHeap2 0 99 (fun i => 100 + i) with
    | .ok r => decide (r.1.next 0 = 2) | _ => true) = true := by decide +kernel

/-- C28 fails: `sort` is not stable. Witness: two elements that are equivalent are exchanged.
(The documentation promises stability.) -/
theorem C28_sort_not_stable : ¬ SortStable := by
  intro H
  have hf : Fam exHeap2 [(0, [1, 2])] := by decide
  obtain ⟨h', k', ys, e, f, p, _, st⟩ := H (fun _ _ => false) ⟨by simp, by simp, by simp⟩ exHeap2 0 99 (fun i => 100 + i) 2 2
    [1, 2] [] hf (by decide) (exLocals _ (by decide) _ (by decide)) (by decide) (by decide)
  have hys : ys = [1, 2] := by
    have := st 0
    have e2 : (equivOf (fun (_ _ : Id) => false) 0) = fun _ => true := by funext y; rfl
    rw [e2] at this
    simpa using this
  subst hys
  have hnx : h'.next 0 = 1 := by
    have hs : Seg h' 0 [1, 2] 0 := f.2 (0, [1, 2]) (by simp)
    exact hs.1
  have h2 := exHeap2_sort
  rw [e] at h2
  simp [hnx] at h2

example : ∃ h' k' ys, sort (fun _ x y => some (decide (y < x))) 3 9 exHeap 0 99 (fun i => 100 + i) = .ok (h', k') ∧
    Fam h' ((0, ys) :: [(10, [11, 12])]) ∧ ys.Perm [1, 2, 3] ∧ Sorted (fun x y => decide (y < x)) ys :=
  C28_sort_partial (lt := fun x y => decide (y < x)) ⟨by simp, by simp; idomega, by simp; idomega⟩ (W := 8) exHeap_fam
    (by decide) (exLocals _ (by decide) _ (by decide)) (by decide) (by decide)

/-- C29 for `sort`: whatever the comparison does (inconsistent answers, a throw at any call), `sort` terminates, never
exceeds its local array, and all elements are linked exactly once; an exception leaves the function only if a
comparison threw. -/
theorem C29_sort (cmp : Cmp) {h : Heap} {header carry : Id} {cid : Nat → Id} {N W : Nat} {xs : List Id}
    {R : List (Id × List Id)} (hf : Fam h ((header, xs) :: R)) (hcar : carry ∉ header :: (xs ++ famIds R))
    (hloc : Locals cid header carry xs R) (hN : xs.length ≤ N) (hW : xs.length < 2 ^ W) :
    ∃ h' k' ys, Fam h' ((header, ys) :: R) ∧ ys.Perm xs ∧
      (sort cmp N (W + 1) h header carry cid = .ok (h', k') ∨
       (sort cmp N (W + 1) h header carry cid = .threw (h', k') ∧ ∃ k x y, cmp k x y = none)) := by
  rcases sort_spec cmp hf hcar hloc hN hW with ⟨h', k', ys, e, p, f, _⟩ | ⟨h', k', ys, e, p, f, ex⟩
  · exact ⟨h', k', ys, f, p, Or.inl e⟩
  · exact ⟨h', k', ys, f, p, Or.inr ⟨e, ex⟩⟩

example : ∃ h' k' ys, Fam h' ((0, ys) :: [(10, [11, 12])]) ∧ ys.Perm [1, 2, 3] ∧
    (sort (fun k x y => if k = 1 then none else some (decide (x < y))) 3 9 exHeap 0 99 (fun i => 100 + i) = .ok (h', k') ∨
     (sort (fun k x y => if k = 1 then none else some (decide (x < y))) 3 9 exHeap 0 99 (fun i => 100 + i) = .threw (h', k') ∧
       ∃ k x y, (fun (k : Nat) (x y : Id) => if k = 1 then none else some (decide (x < y))) k x y = none)) :=
  C29_sort _ (W := 8) exHeap_fam (by decide) (exLocals _ (by decide) _ (by decide)) (by decide) (by decide)

/-- C29 for `remove_if`: whatever the predicate does, throws included, the survivors keep their order and every element
is either still linked or was erased. -/
theorem C29_remove_if (pred : Nat → Id → Option Bool) {h : Heap} {a : Id} {xs : List Id} {R : List (Id × List Id)}
    {N : Nat} (hf : Fam h ((a, xs) :: R)) (hN : xs.length ≤ N) :
    ∃ h' kept gone, (removeIf pred N h a = .ok (h', gone) ∨ removeIf pred N h a = .threw (h', gone)) ∧
      Fam h' ((a, kept) :: R) ∧ kept.Sublist xs ∧ (kept ++ gone).Perm xs := by
  obtain ⟨h', e, f⟩ := removeGo_spec pred (k := 0) (dn := []) xs hf hN
  obtain ⟨p1, p2⟩ := removeL_sublist pred 0 xs
  refine ⟨h', _, _, ?_, f, by simpa using p1, by simpa using p2⟩
  unfold removeIf
  rw [next_hd hf, e]
  cases (removeL pred 0 xs).1 <;> simp [mkOut]

/-- C29 for `unique`. -/
theorem C29_unique (pred : Nat → Id → Id → Option Bool) {h : Heap} {a : Id} {xs : List Id} {R : List (Id × List Id)}
    {N : Nat} (hf : Fam h ((a, xs) :: R)) (hN : xs.length ≤ N) :
    ∃ h' kept gone, (unique pred N h a = .ok (h', gone) ∨ unique pred N h a = .threw (h', gone)) ∧
      Fam h' ((a, kept) :: R) ∧ kept.Sublist xs ∧ (kept ++ gone).Perm xs := by
  unfold unique
  rw [next_hd hf]
  cases xs with
  | nil => exact ⟨h, [], [], by simp [hdOr], hf, by simp, by simp⟩
  | cons x xs =>
    have hx : hdOr a (x :: xs) = x := rfl
    rw [hx, if_pos (fun e => notMem_hd hf (by simp [e]))]
    obtain ⟨h', e, f⟩ := uniqueGo_spec pred (k := 0) (dn := []) (f := x) xs hf (n := N) (by simp at hN; omega)
    obtain ⟨p1, p2⟩ := uniqueL_sublist pred 0 x xs
    refine ⟨h', x :: (uniqueL pred 0 x xs).2.1, (uniqueL pred 0 x xs).2.2, ?_, f, by simpa using p1, by simpa using p2⟩
    rw [e]
    cases (uniqueL pred 0 x xs).1 <;> simp [mkOut]

/-- C29 for `merge`: whatever the comparison does and whichever transfers are accepted, rejected or throw, every element
of the two lists is linked in exactly one of them, and those left in the source keep their order. -/
theorem C29_merge (cmp : Cmp) (dec : Id → Option Bool) {h : Heap} {a b : Id} {xs ys : List Id}
    {R : List (Id × List Id)} {N : Nat} (hf : Fam h ((b, ys) :: (a, xs) :: R)) (hN : xs.length + ys.length ≤ N) :
    ∃ h' xs' ys', (merge cmp dec N h a b = .ok h' ∨ merge cmp dec N h a b = .threw h') ∧
      Fam h' ((b, ys') :: (a, xs') :: R) ∧ (xs' ++ ys').Perm (xs ++ ys) ∧ ys'.Sublist ys := by
  obtain ⟨h', e, f⟩ := mergeGo_spec cmp dec N (k := 0) (dn := []) (rj := []) hf hN
  obtain ⟨p1, p2⟩ := mergeL_perm cmp dec 0 xs ys
  have hab : a ≠ b := by
    rintro rfl
    have := hf.1; simp [famIds_cons] at this
  refine ⟨h', _, _, ?_, f, by simpa using p1, by simpa using p2⟩
  unfold merge
  rw [if_pos hab, next_hd hf, next_hd hf.swap, e]
  cases (mergeL cmp dec 0 xs ys).1 <;> simp [mkOut]

example : ∃ h' kept gone, (removeIf (fun k x => if k = 1 then none else some (x == 1)) 3 exHeap 0 = .ok (h', gone) ∨
    removeIf (fun k x => if k = 1 then none else some (x == 1)) 3 exHeap 0 = .threw (h', gone)) ∧
    Fam h' ((0, kept) :: [(10, [11, 12])]) ∧ kept.Sublist [1, 2, 3] ∧ (kept ++ gone).Perm [1, 2, 3] :=
  C29_remove_if _ exHeap_fam (by decide)

/-! ## C30 -/

/-- C30: `merge` of two sorted lists with a comparison that is a strict weak order. `acc y` tells whether the destination
container accepts element `y`. The destination becomes sorted and holds exactly its elements and the accepted ones;
equivalent elements keep their relative order, those of `*this` first; the source keeps exactly the rejected elements,
in order. -/
theorem C30_merge {lt : Id → Id → Bool} (hl : StrictWeak lt) (acc : Id → Bool) {h : Heap} {a b : Id} {xs ys : List Id}
    {R : List (Id × List Id)} {N : Nat} (hf : Fam h ((b, ys) :: (a, xs) :: R)) (hN : xs.length + ys.length ≤ N)
    (hx : Sorted lt xs) (hy : Sorted lt ys) :
    ∃ h' zs, merge (fun _ x y => some (lt x y)) (fun y => some (acc y)) N h a b = .ok h' ∧
      Fam h' ((b, ys.filter (fun y => !acc y)) :: (a, zs) :: R) ∧
      zs.Perm (xs ++ ys.filter acc) ∧ Sorted lt zs ∧ StableOf lt (xs ++ ys.filter acc) zs := by
  obtain ⟨h', e, f⟩ := mergeGo_spec (fun _ x y => some (lt x y)) (fun y => some (acc y)) N (k := 0) (dn := []) (rj := []) hf hN
  have t := mergeL_total (cmp := fun _ x y => some (lt x y)) (dec := fun y => some (acc y)) (acc := acc) (lt := lt)
    (fun _ => rfl) (fun _ _ _ => rfl) 0 xs ys
  have p := (mergeL_perm (fun _ x y => some (lt x y)) (fun y => some (acc y)) 0 xs ys).1
  have hab : a ≠ b := by
    rintro rfl
    have := hf.1; simp [famIds_cons] at this
  refine ⟨h', (mergeL (fun _ x y => some (lt x y)) (fun y => some (acc y)) 0 xs ys).2.1, ?_, ?_, ?_, ?_, ?_⟩
  · unfold merge
    rw [if_pos hab, next_hd hf, next_hd hf.swap, e, t.1]; rfl
  · rw [t.2] at f; simpa using f
  · rw [t.2] at p
    have q : (xs ++ ys).Perm ((xs ++ ys.filter acc) ++ ys.filter (fun y => !acc y)) := by
      rw [List.append_assoc]
      exact (List.filter_append_perm acc ys).symm.append_left xs
    exact (List.perm_append_right_iff _).1 (p.trans q)
  · exact mergeL_sorted hl (fun _ _ _ => rfl) 0 xs ys hx hy
  · exact mergeL_stable hl (fun _ => rfl) (fun _ _ _ => rfl) 0 xs ys hx

/-- C30: merging an index with itself does nothing. -/
theorem C30_merge_self (cmp : Cmp) (dec : Id → Option Bool) (N : Nat) (h : Heap) (a : Id) :
    merge cmp dec N h a a = .ok h := by simp [merge]

example : ∃ h' zs, merge (fun _ x y => some (decide (x % 10 < y % 10))) (fun y => some (y != 12)) 5 exHeap 0 10 = .ok h' ∧
    Fam h' ((10, [12]) :: (0, zs) :: []) ∧ zs.Perm [1, 2, 3, 11] ∧ Sorted (fun x y => decide (x % 10 < y % 10)) zs ∧
    StableOf (fun x y => decide (x % 10 < y % 10)) [1, 2, 3, 11] zs :=
  C30_merge (lt := fun x y => decide (x % 10 < y % 10)) ⟨by simp, by simp; idomega, by simp; idomega⟩ (fun y => y != 12)
    exHeap_fam.swap (by decide) (by unfold Sorted; decide) (by unfold Sorted; decide)

/-! ## C31 (sequenced part) -/

/-- C31: `remove_if(pred)` on a sequenced index erases exactly the elements satisfying the predicate. -/
theorem C31_seq_remove_if (p : Id → Bool) {h : Heap} {a : Id} {xs : List Id} {R : List (Id × List Id)}
    {N : Nat} (hf : Fam h ((a, xs) :: R)) (hN : xs.length ≤ N) :
    ∃ h', removeIf (fun _ x => some (p x)) N h a = .ok (h', xs.filter p) ∧
      Fam h' ((a, xs.filter (fun x => !p x)) :: R) := by
  obtain ⟨h', e, f⟩ := removeGo_spec (fun _ x => some (p x)) (k := 0) (dn := []) xs hf hN
  rw [removeL_pure (p := p) (fun _ _ => rfl)] at e f
  refine ⟨h', ?_, f⟩
  unfold removeIf
  rw [next_hd hf, e]; rfl

/-- C31: `unique(pred)` on a sequenced index erases exactly each element equivalent to the last kept one. -/
theorem C31_seq_unique (p : Id → Id → Bool) {h : Heap} {a : Id} {xs : List Id} {R : List (Id × List Id)}
    {N : Nat} (hf : Fam h ((a, xs) :: R)) (hN : xs.length ≤ N) :
    ∃ h' gone, unique (fun _ x y => some (p x y)) N h a = .ok (h', gone) ∧
      Fam h' ((a, uniqueSpec p xs) :: R) ∧ (uniqueSpec p xs ++ gone).Perm xs := by
  unfold unique
  rw [next_hd hf]
  cases xs with
  | nil => exact ⟨h, [], by simp [hdOr], hf, by simp [uniqueSpec]⟩
  | cons x xs =>
    have hx : hdOr a (x :: xs) = x := rfl
    rw [hx, if_pos (fun e => notMem_hd hf (by simp [e]))]
    obtain ⟨h', e, f⟩ := uniqueGo_spec (fun _ x y => some (p x y)) (k := 0) (dn := []) (f := x) xs hf (n := N) (by simp at hN; omega)
    obtain ⟨q1, q2⟩ := uniqueL_pure (pred := fun _ x y => some (p x y)) (p := p) (fun _ _ _ => rfl) xs 0 x
    have q3 := (uniqueL_sublist (fun _ x y => some (p x y)) 0 x xs).2
    rw [q1] at e
    rw [q2] at f q3
    exact ⟨h', _, e, f, by simpa [uniqueSpec] using q3⟩

example : ∃ h', removeIf (fun _ x => some (x % 2 == 1)) 3 exHeap 0 = .ok (h', [1, 3]) ∧
    Fam h' ((0, [2]) :: [(10, [11, 12])]) := C31_seq_remove_if (fun x => x % 2 == 1) exHeap_fam (by decide)
example : ∃ h' gone, unique (fun _ x y => some (x / 2 == y / 2)) 3 exHeap 0 = .ok (h', gone) ∧
    Fam h' ((0, [1, 2]) :: [(10, [11, 12])]) ∧ ([1, 2] ++ gone).Perm [1, 2, 3] :=
  C31_seq_unique (fun x y => x / 2 == y / 2) exHeap_fam (by decide)

/-! ## C43: splicing a range from another container -/

/-- The elements of the range transferred before the first throwing transfer. -/
def movedBeforeThrow (dec : Id → Option Bool) (vs : List Id) : List Id :=
  (vs.takeWhile (fun x => (dec x).isSome)).filter (fun x => dec x == some true)

/-- The full claim C43: when some transfer throws, the exception leaves `splice`, and the elements transferred so far are
before `position`, the source keeping the rest. -/
def SpliceThrowSafe : Prop :=
  ∀ (h : Heap) (a b : Id) (s t ys vs : List Id) (R : List (Id × List Id)) (dec : Id → Option Bool),
    Fam h ((b, ys) :: (a, s ++ t) :: R) → vs.Nodup → (∀ v ∈ vs, v ∈ ys) → (∃ x ∈ vs, dec x = none) →
    ∃ h', externalSplice h a (hdOr a t) dec vs = .threw h' ∧
      Fam h' ((b, ys.filter (· ∉ movedBeforeThrow dec vs)) :: (a, s ++ movedBeforeThrow dec vs ++ t) :: R)

/-- C43 fails. Witness: a transfer into the middle of a list throws; the call returns normally (the exception is
swallowed) and, following `next` from the header, the destination list is empty although it has elements. -/
theorem C43_splice_throw_unsafe : ¬ SpliceThrowSafe := by
  intro H
  obtain ⟨h', e, _⟩ := H exHeap 0 10 [1] [2, 3] [11, 12] [11, 12] [] (fun _ => none) exHeap_fam.swap (by decide) (by decide)
    ⟨11, by decide, rfl⟩
  simp [externalSplice, transferRange, hdOr] at e

/-- C43, why: splicing before an element (not `end()`), an exception thrown by a transfer never leaves the function. -/
theorem C43_exception_swallowed (h : Heap) (a p : Id) (dec : Id → Option Bool) (vs : List Id) (hp : p ≠ a)
    {h1 : Heap} (ht : transferRange h a dec vs = .threw h1) : ∃ h', externalSplice h a p dec vs = .ok h' := by
  unfold externalSplice
  rw [if_neg hp, ht]
  exact ⟨_, rfl⟩

/-- C43, consequence: in the witness the destination loses all its elements: its header is linked to itself. -/
theorem C43_elements_lost : ∃ h', externalSplice exHeap 0 2 (fun _ => none) [11, 12] = .ok h' ∧
    h'.next 0 = 0 ∧ traverse h' 0 10 = some [] := by
  refine ⟨_, rfl, ?_, ?_⟩ <;> decide

/-- C43, the part that holds: when nothing throws, the accepted elements of the range are, in order, exactly before
`position` (which may be `end()`), and the source keeps the others in order. Missing: the behaviour under
exceptions for a position other than `end()`, which is false of the code (`C43_splice_throw_unsafe`). -/
theorem C43_splice_partial {a b : Id} {R : List (Id × List Id)} {dec : Id → Option Bool} {vs ys s t : List Id}
    {h : Heap} (hf : Fam h ((b, ys) :: (a, s ++ t) :: R)) (hn : vs.Nodup) (hm : ∀ v ∈ vs, v ∈ ys)
    (hd : ∀ x ∈ vs, (dec x).isSome) :
    ∃ h', externalSplice h a (hdOr a t) dec vs = .ok h' ∧
      Fam h' ((b, ys.filter (fun y => !(decide (y ∈ vs) && dec y == some true))) ::
        (a, s ++ vs.filter (fun y => dec y == some true) ++ t) :: R) := fam_externalSplice hf hn hm hd

/-- C43, the other part that holds: at `end()` an exception does leave the function, the elements transferred so far
are last in the destination and the source keeps the rest. -/
theorem C43_splice_end_partial {a b : Id} {R : List (Id × List Id)} {dec : Id → Option Bool} {vs ys s : List Id}
    {h : Heap} (hf : Fam h ((b, ys) :: (a, s) :: R)) (hn : vs.Nodup) (hm : ∀ v ∈ vs, v ∈ ys)
    (hd : ∃ x ∈ vs, dec x = none) :
    ∃ h', externalSplice h a a dec vs = .threw h' ∧
      Fam h' ((b, ys.filter (· ∉ movedBeforeThrow dec vs)) :: (a, s ++ movedBeforeThrow dec vs) :: R) := by
  obtain ⟨h', e, f⟩ := fam_transferRange dec vs hf hn hm
  have key : ∀ vs : List Id, (∃ x ∈ vs, dec x = none) → (transL dec vs).1 = false := by
    intro vs
    induction vs with
    | nil => simp
    | cons v vs ih =>
      intro hd
      simp only [transL]
      rcases (Option.eq_none_or_eq_some (dec v)) with hv | ⟨b, hv⟩
      · simp [hv]
      · simp only [hv]
        obtain ⟨x, hx, hxd⟩ := hd
        rcases List.mem_cons.1 hx with rfl | hx
        · rw [hv] at hxd; cases hxd
        · exact ih ⟨x, hx, hxd⟩
  have key2 : ∀ vs : List Id, (transL dec vs).2 = vs.takeWhile (fun x => (dec x).isSome) := by
    intro vs
    induction vs with
    | nil => rfl
    | cons v vs ih =>
      simp only [transL]
      rcases (Option.eq_none_or_eq_some (dec v)) with hv | ⟨b, hv⟩
      · simp [hv]
      · simp [hv, ih]
  rw [key vs hd] at e
  rw [key2] at f
  refine ⟨h', by simpa [externalSplice] using e, ?_⟩
  have E : ys.filter (· ∉ movedBeforeThrow dec vs) =
      ys.filter (fun y => !(decide (y ∈ vs.takeWhile (fun x => (dec x).isSome)) && dec y == some true)) := by
    apply List.filter_congr
    intro y _
    by_cases hy : dec y = some true <;> simp [movedBeforeThrow, List.mem_filter, hy]
  rw [E]; exact f

example : ∃ h', externalSplice exHeap 0 2 (fun y => some (y == 12)) [11, 12] = .ok h' ∧
    Fam h' ((10, [11]) :: (0, [1, 12, 2, 3]) :: []) :=
  C43_splice_partial (s := [1]) (t := [2, 3]) exHeap_fam.swap (by decide) (by decide) (by decide)
example : ∃ h', externalSplice exHeap 0 0 (fun y => if y = 12 then none else some true) [11, 12] = .threw h' ∧
    Fam h' ((10, [12]) :: (0, [1, 2, 3, 11]) :: []) :=
  C43_splice_end_partial exHeap_fam.swap (by decide) (by decide) ⟨12, by decide, by decide⟩

end MI.Seq
