import Verif.Seq.StepsLemmas
import Verif.Props.Seq
import Verif.Props.Costs
import Verif.Cont.ListSteps
import Verif.Props.ContApi
/-!
# C84: list operations of sequenced indices take the documented time

`sortS`, `reverseS`, `removeIfS`, `uniqueS` and `mergeS` (Verif/Seq/Steps.lean) are the operations with the rounds of all their loops counted. Each
theorem says that the counted operation does what the operation does (first part) and bounds the rounds (second part), for every list, every comparison or
predicate, also one that throws, and every budget that covers the list.
-/
namespace MI.Seq
open MI

/-- C84: `sort` of `n` elements takes O(n log n) rounds of its loops in all (comparing, moving and the clean-up after an exception), whatever the
comparison answers and wherever it throws. -/
theorem C84_sort (cmp : Cmp) {h : Heap} {header carry : Id} {cid : Nat → Id} {N W : Nat} {xs : List Id}
    {R : List (Id × List Id)} (hf : Fam h ((header, xs) :: R)) (hcar : carry ∉ header :: (xs ++ famIds R))
    (hloc : Locals cid header carry xs R) (hN : xs.length ≤ N) (hW : xs.length < 2 ^ W) :
    (sortS cmp N (W + 1) h header carry cid).1 = sort cmp N (W + 1) h header carry cid ∧
    (sortS cmp N (W + 1) h header carry cid).2 ≤ (xs.length + 2) * (2 * Nat.log2 xs.length + 3) :=
  ⟨sortS_fst .., sortS_rounds cmp hf hcar hloc hN hW⟩

example : (sortS (fun _ x y => some (decide (y < x))) 30 65 exHeap 0 99 (fun i => 100 + i)).2 ≤ (3 + 2) * (2 * Nat.log2 3 + 3) :=
  (C84_sort _ (W := 64) exHeap_fam (by decide) (exLocals _ (by decide) _ (by decide)) (by decide) (by decide)).2

/-- Rounds are counted: three main rounds, comparisons and merges. -/
example : (sortS (fun _ x y => some (decide (y < x))) 30 65 exHeap 0 99 (fun i => 100 + i)).2 = 7 := by decide +kernel

/-- The clean-up after an exception is counted. -/
example : (sortS (fun _ _ _ => none) 30 65 exHeap 0 99 (fun i => 100 + i)).2 = 6 := by decide +kernel

/-- C84: `reverse` of `n` elements takes `n+1` rounds. -/
theorem C84_reverse {h : Heap} {a : Id} {xs : List Id} {R : List (Id × List Id)} {N : Nat} (hf : Fam h ((a, xs) :: R)) (hN : xs.length < N) :
    (reverseS N h a).1 = Heap.reverse N h a ∧ (reverseS N h a).2 ≤ xs.length + 1 := by
  refine ⟨reverseGoS_fst .., ?_⟩
  obtain ⟨h', e, _⟩ := fam_reverse (n := xs.length + 1) hf (by omega)
  unfold reverseS
  rw [reverseGoS_mono a (xs.length + 1) h a N (by omega) (by rw [reverseGoS_fst]; intro c; exact nomatch c.symm.trans e)]
  exact reverseGoS_le ..

example : (reverseS 100 exHeap 0).2 ≤ 3 + 1 := (C84_reverse exHeap_fam (by decide)).2

example : (reverseS 100 exHeap 0).2 = 4 := by decide +kernel

/-- C84: `remove_if` on `n` elements takes at most `n` rounds, each calling the predicate once and erasing at most one element. -/
theorem C84_remove_if (pred : Nat → Id → Option Bool) {h : Heap} {a : Id} {xs : List Id} {R : List (Id × List Id)} {N : Nat}
    (hf : Fam h ((a, xs) :: R)) (hN : xs.length ≤ N) :
    (removeIfS pred N h a).1 = removeIf pred N h a ∧ (removeIfS pred N h a).2 ≤ xs.length := by
  refine ⟨removeGoS_fst .., ?_⟩
  obtain ⟨h', e, _⟩ := removeGo_spec pred (k := 0) (dn := []) xs hf (Nat.le_refl _)
  unfold removeIfS
  rw [next_hd hf, removeGoS_mono pred a xs.length h 0 _ N hN (by rw [removeGoS_fst, e]; exact Ends_mkOut ..)]
  exact removeGoS_le ..

example : (removeIfS (fun k x => if k < 2 then some (x == 2) else none) 99 exHeap 0).2 ≤ 3 := (C84_remove_if _ exHeap_fam (by decide)).2

example : (removeIfS (fun k x => if k < 2 then some (x == 2) else none) 99 exHeap 0).2 = 3 := by decide +kernel

/-- C84: `unique` on `n` elements takes at most `n-1` rounds, each calling the predicate once and erasing at most one element. -/
theorem C84_unique (pred : Nat → Id → Id → Option Bool) {h : Heap} {a : Id} {xs : List Id} {R : List (Id × List Id)} {N : Nat}
    (hf : Fam h ((a, xs) :: R)) (hN : xs.length ≤ N) :
    (uniqueS pred N h a).1 = unique pred N h a ∧ (uniqueS pred N h a).2 ≤ xs.length - 1 := by
  constructor
  · unfold uniqueS unique
    split
    · exact uniqueGoS_fst ..
    · rfl
  · unfold uniqueS
    rw [next_hd hf]
    cases xs with
    | nil => simp [hdOr]
    | cons x xs =>
      have hx : hdOr a (x :: xs) = x := rfl
      rw [hx, if_pos (fun e => notMem_hd hf (by simp [e]))]
      obtain ⟨h', e, _⟩ := uniqueGo_spec pred (k := 0) (dn := []) (f := x) xs hf (Nat.le_refl _)
      rw [uniqueGoS_mono pred a xs.length h 0 x N (by simp at hN; omega) (by rw [uniqueGoS_fst, e]; exact Ends_mkOut ..)]
      simpa using uniqueGoS_le pred a xs.length h 0 x

example : (uniqueS (fun _ x y => some (x == y + 1)) 99 exHeap 0).2 ≤ 2 := (C84_unique _ exHeap_fam (by decide)).2

example : (uniqueS (fun _ x y => some (x == y + 1)) 99 exHeap 0).2 = 2 := by decide +kernel

/-- C84: `merge` of lists of `m` and `n` elements takes at most `m+n` rounds, each calling the comparison at most once and transferring at most one
element; also when the comparison or a transfer throws, or transfers are rejected. -/
theorem C84_merge (cmp : Cmp) (dec : Id → Option Bool) {h : Heap} {a b : Id} {xs ys : List Id} {R : List (Id × List Id)} {N : Nat}
    (hf : Fam h ((b, ys) :: (a, xs) :: R)) (hN : xs.length + ys.length ≤ N) :
    (mergeS cmp dec N h a b).1 = merge cmp dec N h a b ∧ (mergeS cmp dec N h a b).2 ≤ xs.length + ys.length := by
  constructor
  · unfold mergeS merge
    split
    · exact mergeGoS_fst ..
    · rfl
  · obtain ⟨h', e, _⟩ := mergeGo_spec cmp dec (xs.length + ys.length) (k := 0) (dn := []) (rj := []) hf (Nat.le_refl _)
    unfold mergeS
    split
    · rw [next_hd hf, next_hd hf.swap, mergeGoS_mono cmp dec a b (xs.length + ys.length) h 0 _ _ N hN (by
        rw [mergeGoS_fst, e]; exact Ends_mkOut ..)]
      exact mergeGoS_le ..
    · simp

example : (mergeS (fun _ x y => some (decide (x < y))) (fun y => some (y != 2)) 99 exHeap 10 0).2 ≤ 2 + 3 :=
  (C84_merge _ _ (xs := [11, 12]) (ys := [1, 2, 3]) (R := []) exHeap_fam (by decide)).2

example : (mergeS (fun _ x y => some (decide (x < y))) (fun y => some (y != 2)) 99 exHeap 10 0).2 = 3 := by decide +kernel

end MI.Seq

namespace MI.Cont
open MI
variable {V : Type} {w : World V} {i : Nat} {c : Container V}

/-- The rounds a rearrangement of a sequenced index of `n` elements may take: `sort` O(n log n), `reverse` and `rearrange` O(n), `splice` of a range of
another index of the same container as many as the range has elements, `relocate` of an element or range none. -/
def Rearr.rounds (n : Nat) : Rearr V → Nat
  | .sort _ _ _ _ => (n + 2) * (2 * Nat.log2 n + 3)
  | .reverse => n + 1
  | .rearrange _ => n
  | .splice _ vs => vs.length
  | _ => 0

/-- C84: a rearrangement of a sequenced index of a container with any other indices, after any history. -/
theorem C84_rearrange {k : Nat} {a : Rearr V} {h : Seq.Heap} (r : Reach w) (hc : w.cs[i]? = some c) (hL : c.ls[k]? = some (.seq h))
    (l : w.Legal (.rearrange i k a)) :
    (rearrangeSeqS c.budget c.hd w.m.val a h).1 = Layer.rearrange c.budget c.hd w.m.val a (.seq h) ∧
    (rearrangeSeqS c.budget c.hd w.m.val a h).2 ≤ a.rounds c.count := by
  refine ⟨rearrangeSeqS_fst .., ?_⟩
  obtain ⟨c', L, xs, hi, hL', kd, hxs, ok⟩ := l
  obtain rfl := Option.some.inj (hi.symm.trans hc)
  obtain rfl := Option.some.inj (hL'.symm.trans hL)
  have s := r.sound (List.mem_of_getElem? hc)
  obtain ⟨ys, g1, g2, g3⟩ := fit_get s.fit hL
  obtain rfl := Option.some.inj (hxs.symm.trans g1)
  have hn : xs.length = c'.count := by rw [g3.length_eq, s.count]
  have hf : Seq.Fam h [(c'.hd, xs)] := g2
  cases a with
  | relocateRange pos first last => exact Nat.zero_le _
  | reverse =>
    have := (Seq.C84_reverse (N := c'.budget) hf (by rw [hn, Container.budget]; omega)).2
    simp only [rearrangeSeqS, Rearr.rounds, ← hn]
    rcases g : Seq.reverseS c'.budget h c'.hd with ⟨_ | _, t⟩ <;> rw [g] at this <;> exact this
  | rearrange vs => exact Nat.le_of_eq ((show vs.Perm xs from ok).length_eq.trans hn)
  | splice pos vs => exact Nat.le_refl _
  | sort cmp carry cid ssort =>
    obtain ⟨h1, h2, h3, -⟩ := ok
    have := (Seq.C84_sort (fun t x y => cmp t (w.m.val x) (w.m.val y)) (carry := carry) (cid := cid) (N := c'.budget) (W := c'.count + 3) hf
      (by simpa [Seq.famIds] using h1) ⟨h2, by simpa [Seq.famIds] using h3⟩ (by rw [hn, Container.budget]; omega)
      (Nat.lt_of_lt_of_le (Nat.lt_two_pow_self) (Nat.pow_le_pow_right (by omega) (by omega)))).2
    simp only [rearrangeSeqS, Rearr.rounds, ← hn]
    rw [← hn] at this
    have e : c'.budget = xs.length + 3 + 1 := by rw [hn]; rfl
    rw [e] at this ⊢
    rcases g : Seq.sortS (fun t x y => cmp t (w.m.val x) (w.m.val y)) (xs.length + 3 + 1) (xs.length + 3 + 1) h c'.hd carry cid with ⟨_ | _ | _ | _, t⟩ <;>
      rw [g] at this <;> exact this
  | reserve => exact Nat.zero_le _
  | shrink => exact Nat.zero_le _
  | remove => exact Nat.zero_le _
  | unique => exact Nat.zero_le _
  | merge => exact Nat.zero_le _

section
open Ex

/-- The list of the sequenced index of a container with an ordered, a hashed, a sequenced and a random access index and four elements. -/
def exList : Seq.Heap := match (d0.ls[2]? : Option (Layer Val)) with | some (Layer.seq h) => h | _ => ⟨id, id⟩

theorem exList_at : d0.ls[2]? = some (.seq exList) := by
  have h : (match d0.ls[2]? with | some (.seq _) => true | _ => false) = true := by decide +kernel
  unfold exList
  split at h
  · rename_i h' e; rw [e]
  · exact nomatch h

/-- Sorting by the second component, with a comparison that throws at its fourth call. -/
def exSort : Rearr Val := .sort (fun n a b => if n < 3 then some (decide (a.2 < b.2)) else none) 50 (fun n => 100 + n) (fun _ => none)

theorem exSort_legal : w4.Legal (.rearrange 0 2 exSort) := by
  refine ⟨d0, .seq exList, [11, 12, 22, 23], hd0, exList_at, rfl, by rw [d0_seqs]; rfl, ?_⟩
  have hd : d0.hd = 1 := by decide +kernel
  rw [hd]
  refine ⟨by decide, fun i j (e : 100 + i = 100 + j) => by omega, fun i => ?_, fun ys e => nomatch e⟩
  simp only [List.mem_cons, List.not_mem_nil, or_false]
  idomega

example : (rearrangeSeqS d0.budget d0.hd w4.m.val exSort exList).2 ≤ (d0.count + 2) * (2 * Nat.log2 d0.count + 3) :=
  (C84_rearrange w4_reach hd0 exList_at exSort_legal).2
end

end MI.Cont
