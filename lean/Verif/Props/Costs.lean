import Verif.Ord.CallsLemmas
import Verif.Props.Ord
import Verif.Props.Seq
/-!
# C64: how often user functions are called

Complexity guarantees of the documentation, as numbers of calls of user functions, for indices of every size.

Ordered indices: `c.Computes ans r m` (`Verif.Spec.Calls`) says that the computation `c`, in which calls of the comparison object are explicit,
returns `r` when the comparison object answers as `ans` does, and makes at most `m` calls, whatever a comparison object answers. In each theorem
`r` is the result of the function of `Verif/Ord/Search.lean` to which the other properties of ordered indices apply.

Lists: the outcome of the `k`-th call of the user function is a parameter, so that it may throw at any call.
"At most `m` calls are made" is stated so: if the first `m` calls do not throw, the operation does not, whatever later calls would do.
-/
namespace MI.Ord
open MI Asks

section
variable {K CK : Type} {key : Id → K} {ltk : K → CK → Bool} {gtk : CK → K → Bool} {lt : K → K → Bool}
variable {h : Heap} {hd : Id} {xs : List Id} {n : Nat} {k : K}

theorem computes {Q α : Type} {c : Asks Q α} {ans : Q → Bool} {r : α} {m : Nat} (hr : c.run ans = r) (hc : c.AtMost m) : c.Computes ans r m :=
  ⟨hr, hc.calls ans, hc⟩

/-- C64: `lower_bound` and `upper_bound` in an ordered index of `xs.length` elements: at most `2*log2(size+1)` comparisons. -/
theorem C64_bounds (hr : Rep h hd xs) (x : CK) :
    (lowerBoundA key n h hd x).Computes (Cmp.ans ltk gtk) (lowerBound key ltk n h hd x) (2 * Nat.log2 (xs.length + 1)) ∧
    (upperBoundA key n h hd x).Computes (Cmp.ans ltk gtk) (upperBound key gtk n h hd x) (2 * Nat.log2 (xs.length + 1)) := by
  obtain ⟨t, p, e, ha, h0, hh⟩ := rep_tree hr
  refine ⟨computes (lowerBoundA_run ..) ?_, computes (upperBoundA_run ..) ?_⟩
  · rw [lowerBoundA, e]; exact (boundLoopA_atMost (fun _ => notAsk1 (ask1 _)) t ha h0).mono hh
  · rw [upperBoundA, e]; exact (boundLoopA_atMost (fun _ => ask1 _) t ha h0).mono hh

/-- C64: `find` makes one comparison more. -/
theorem C64_find (hr : Rep h hd xs) (x : CK) :
    (findA key n h hd x).Computes (Cmp.ans ltk gtk) (find key ltk gtk n h hd x) (2 * Nat.log2 (xs.length + 1) + 1) := by
  obtain ⟨t, p, e, ha, h0, hh⟩ := rep_tree hr
  refine computes (findA_run ..) ?_
  simp only [findA, pure_def, bind_def, e]
  refine AtMost.bind' (boundLoopA_atMost (fun _ => notAsk1 (ask1 _)) t ha h0) (b := 1) (fun r => ?_) (by omega)
  split
  · exact AtMost.done _
  · split
    · exact AtMost.done _
    · refine AtMost.bind' (ask1 _) (b := 0) (fun _ => ?_) (by omega)
      split <;> exact AtMost.done _

/-- C64: `equal_range` and `count`, for any number of equivalent elements: at most `4*log2(size+1)` comparisons. -/
theorem C64_equal_range (hr : Rep h hd xs) (x : CK) :
    (equalRangeA key n h hd x).Computes (Cmp.ans ltk gtk) (equalRange key ltk gtk n h hd x) (4 * Nat.log2 (xs.length + 1)) ∧
    (countA key n h hd x).Computes (Cmp.ans ltk gtk) (count key ltk gtk n h hd x) (4 * Nat.log2 (xs.length + 1)) := by
  obtain ⟨t, p, e, ha, h0, hh⟩ := rep_tree hr
  have m : (equalRangeA key n h hd x).AtMost (4 * Nat.log2 (xs.length + 1)) := by
    rw [equalRangeA, e]
    exact (rangeLoopA_atMost (fun _ => ask1 _) (fun _ => ask1 _) (fun _ => notAsk1 (ask1 _)) (fun _ => ask1 _) t ha h0).mono (by omega)
  refine ⟨computes (equalRangeA_run ..) m, computes (countA_run ..) ?_⟩
  simp only [countA, pure_def, bind_def]
  refine AtMost.bind' m (b := 0) (fun r => ?_) (by omega)
  split <;> exact AtMost.done _

/-- C64: `range(lower,upper)`: at most `4*log2(size+1)` calls of the two bounds. -/
theorem C64_range (hr : Rep h hd xs) (lower upper : Option (K → Bool)) :
    (rangeA key lower.isSome upper.isSome n h hd).Computes (Bnd.ans (lower.getD fun _ => true) (upper.getD fun _ => true))
      (range key lower upper n h hd) (4 * Nat.log2 (xs.length + 1)) := by
  obtain ⟨t, p, e, ha, h0, hh⟩ := rep_tree hr
  refine computes (rangeA_run ..) ?_
  have q1 : ∀ p, (inLower key p).AtMost 1 := fun _ => ask1 _
  have q2 : ∀ p, (notLower key p).AtMost 1 := fun _ => notAsk1 (ask1 _)
  have q3 : ∀ p, (notUpper key p).AtMost 1 := fun _ => notAsk1 (ask1 _)
  cases lower <;> cases upper <;> simp only [rangeA, Option.isSome, pure_def, bind_def, e]
  · exact AtMost.done _
  · exact AtMost.bind' (boundLoopA_atMost q3 t ha h0) (b := 0) (fun r => AtMost.done _) (by omega)
  · exact AtMost.bind' (boundLoopA_atMost q1 t ha h0) (b := 0) (fun r => AtMost.done _) (by omega)
  · exact (rangeLoopA_atMost q2 q3 q1 q3 t ha h0).mono (by omega)

/-- C64: lookups by rank in ranked indices: the same bounds, `count` included. -/
theorem C64_ranked (hr : Rep h hd xs) (x : CK) :
    (lowerBoundRankA key n h hd x).Computes (Cmp.ans ltk gtk) (lowerBoundRank key ltk n h hd x) (2 * Nat.log2 (xs.length + 1)) ∧
    (upperBoundRankA key n h hd x).Computes (Cmp.ans ltk gtk) (upperBoundRank key gtk n h hd x) (2 * Nat.log2 (xs.length + 1)) ∧
    (findRankA key n h hd x).Computes (Cmp.ans ltk gtk) (findRank key ltk gtk n h hd x) (2 * Nat.log2 (xs.length + 1) + 1) ∧
    (equalRangeRankA key n h hd x).Computes (Cmp.ans ltk gtk) (equalRangeRank key ltk gtk n h hd x) (4 * Nat.log2 (xs.length + 1)) ∧
    (countRankedA key n h hd x).Computes (Cmp.ans ltk gtk) (countRanked key ltk gtk n h hd x) (4 * Nat.log2 (xs.length + 1)) := by
  obtain ⟨t, p, e, ha, h0, hh⟩ := rep_tree hr
  have m : (equalRangeRankA key n h hd x).AtMost (4 * Nat.log2 (xs.length + 1)) := by
    simp only [equalRangeRankA, pure_def, e]
    split
    · exact AtMost.done _
    · rename_i z
      exact (rangeRankLoopA_atMost (fun _ => ask1 _) (fun _ => ask1 _) (fun _ => notAsk1 (ask1 _)) (fun _ => ask1 _) t
        (by rintro rfl; exact z rfl) ha h0).mono (by omega)
  refine ⟨computes (lowerBoundRankA_run ..) ?_, computes (upperBoundRankA_run ..) ?_, computes (findRankA_run ..) ?_,
    computes (equalRangeRankA_run ..) m, computes (countRankedA_run ..) ?_⟩
  · rw [lowerBoundRankA, e]; exact (boundRankA_atMost (fun _ => notAsk1 (ask1 _)) t ha h0).mono hh
  · rw [upperBoundRankA, e]; exact (boundRankA_atMost (fun _ => ask1 _) t ha h0).mono hh
  · simp only [findRankA, pure_def, bind_def, e]
    split
    · exact AtMost.done _
    · rename_i z
      refine AtMost.bind' (rankLoopA_atMost (fun _ => notAsk1 (ask1 _)) t (by rintro rfl; exact z rfl) ha h0) (b := 1) (fun r => ?_) (by omega)
      split
      · exact AtMost.done _
      · split
        · exact AtMost.done _
        · refine AtMost.bind' (ask1 _) (b := 0) (fun _ => ?_) (by omega)
          split <;> exact AtMost.done _
  · exact AtMost.bind' m (b := 0) (fun _ => AtMost.done _) (by omega)

/-- C64: finding the place of a new element: at most `2*log2(size+1)` comparisons in a non-unique index, one more in a unique one. Linking
the element there calls no comparison. -/
theorem C64_insert (hr : Rep h hd xs) :
    (linkPointUA key n h hd k).Computes (fun p => lt p.1 p.2) (pointU key lt n h hd k none) (2 * Nat.log2 (xs.length + 1) + 1) ∧
    (linkPointNA key n h hd k).Computes (fun p => lt p.1 p.2) (pointN key lt n h hd k none) (2 * Nat.log2 (xs.length + 1)) :=
  ⟨computes (linkPointUA_run ..) (linkPointUA_atMost hr), computes (linkPointNA_run ..) (linkPointNA_atMost hr)⟩

/-- C64: a useless hint costs at most two comparisons more. -/
theorem C64_hint (hr : Rep h hd xs) (position : Id) :
    (hintedPointUA key n h hd k position).Computes (fun p => lt p.1 p.2) (pointU key lt n h hd k (some position))
      (2 * Nat.log2 (xs.length + 1) + 3) ∧
    (hintedPointNA key n h hd k position).Computes (fun p => lt p.1 p.2) (pointN key lt n h hd k (some position))
      (2 * Nat.log2 (xs.length + 1) + 2) :=
  ⟨computes (hintedPointUA_run ..) (hintedPointUA_atMost hr position), computes (hintedPointNA_run ..) (hintedPointNA_atMost hr position)⟩

/-- C64: with a right hint in a unique index (the new key is greater than the keys of the elements `b` before the hint and less than those of the elements
`a` from the hint on) there are at most two comparisons, and at most one if the hint is the beginning or the end. -/
theorem C64_right_hint_unique {b a : List Id} (hr : Rep h hd (b ++ a)) (hn : (b ++ a).length + 3 ≤ n)
    (hb : ∀ c ∈ b, lt (key c) k = true) (ha : ∀ c ∈ a, lt k (key c) = true) :
    ((hintedPointUA key n h hd k (hdOr hd a)).calls (fun p => lt p.1 p.2)).length ≤ (if b = [] ∨ a = [] then 1 else 2) := by
  have hfirst := rep_first hr
  have hlast := rep_last hr
  have hnd := rep_nodup hr
  simp only [hintedPointUA, pure_def, bind_def]
  by_cases eb : b = []
  · subst eb
    rw [if_pos (by rw [hfirst]; rfl)]
    cases a with
    | nil =>
      rw [if_neg (by simp [(rep_root hr).2 rfl])]
      have := (linkPointUA_atMost (key := key) (n := n) (k := k) hr).calls (fun p => lt p.1 p.2)
      simp only [List.append_nil, List.length_nil, Nat.zero_add] at this
      have e : Nat.log2 1 = 0 := by decide +kernel
      rw [e] at this
      simp only [or_self, if_true]
      omega
    | cons p a =>
      rw [if_pos (by intro e; have := (rep_root hr).1 e; simp at this)]
      have : lt k (key p) = true := ha p (by simp)
      simp [hdOr, this]
  · have hne : hdOr hd a ≠ h.left hd := by
      rw [hfirst]
      cases b with
      | nil => exact absurd rfl eb
      | cons c b =>
        cases a with
        | nil => intro e; have : hd = c := e; subst this; simp at hnd
        | cons p a => intro e; have : p = c := e; subst this; simp at hnd
    rw [if_neg hne]
    obtain ⟨w, z, rfl⟩ := (List.eq_nil_or_concat' b).resolve_left eb
    have hz : lt (key z) k = true := hb z (by simp)
    cases a with
    | nil =>
      rw [List.append_nil] at *
      rw [if_pos (show hdOr hd [] = hd from rfl), hlast, List.getLastD_concat]
      simp [hz]
    | cons p a =>
      have hph : p ≠ hd := by rintro rfl; simp at hnd
      have hp : lt k (key p) = true := ha p (by simp)
      rw [if_neg (show hdOr hd (p :: a) ≠ hd from hph), show hdOr hd (p :: a) = p from rfl, decrement_spec hr (by simp) hn,
        List.getLastD_concat]
      simp only [calls_bind, calls_ask, run_ask, hz, hp, if_true]
      split <;> simp

/-- C64: with a right hint in a non-unique index (the new key is not less than the keys before the hint and not greater than those from the hint on)
there are at most two comparisons, and at most one if the hint is the beginning or the end. -/
theorem C64_right_hint_nonunique {b a : List Id} (hr : Rep h hd (b ++ a)) (hn : (b ++ a).length + 3 ≤ n)
    (hb : ∀ c ∈ b, lt k (key c) = false) (ha : ∀ c ∈ a, lt (key c) k = false) :
    ((hintedPointNA key n h hd k (hdOr hd a)).calls (fun p => lt p.1 p.2)).length ≤ (if b = [] ∨ a = [] then 1 else 2) := by
  have hfirst := rep_first hr
  have hlast := rep_last hr
  have hnd := rep_nodup hr
  simp only [hintedPointNA, pure_def, bind_def]
  by_cases eb : b = []
  · subst eb
    rw [if_pos (by rw [hfirst]; rfl)]
    cases a with
    | nil =>
      rw [if_neg (by simp [(rep_root hr).2 rfl])]
      have := (lowerLinkPointA_atMost (key := key) (n := n) (k := k) hr).calls (fun p => lt p.1 p.2)
      simp only [List.append_nil, List.length_nil, Nat.zero_add] at this
      have e : Nat.log2 1 = 0 := by decide +kernel
      rw [e] at this
      simp only [or_self, if_true]
      omega
    | cons p a =>
      rw [if_pos (by intro e; have := (rep_root hr).1 e; simp at this)]
      have : lt (key p) k = false := ha p (by simp)
      simp [hdOr, this]
  · have hne : hdOr hd a ≠ h.left hd := by
      rw [hfirst]
      cases b with
      | nil => exact absurd rfl eb
      | cons c b =>
        cases a with
        | nil => intro e; have : hd = c := e; subst this; simp at hnd
        | cons p a => intro e; have : p = c := e; subst this; simp at hnd
    rw [if_neg hne]
    obtain ⟨w, z, rfl⟩ := (List.eq_nil_or_concat' b).resolve_left eb
    have hz : lt k (key z) = false := hb z (by simp)
    cases a with
    | nil =>
      rw [List.append_nil] at *
      rw [if_pos (show hdOr hd [] = hd from rfl), hlast, List.getLastD_concat]
      simp [hz]
    | cons p a =>
      have hph : p ≠ hd := by rintro rfl; simp at hnd
      have hp : lt (key p) k = false := ha p (by simp)
      rw [if_neg (show hdOr hd (p :: a) ≠ hd from hph), show hdOr hd (p :: a) = p from rfl, decrement_spec hr (by simp) hn,
        List.getLastD_concat]
      simp only [calls_bind, calls_ask, run_ask, hz, hp, Bool.not_false, if_true]
      split <;> simp

/-- C64: whether a modified or replaced element `x` can stay where it is takes at most two comparisons, in an index of any size. -/
theorem C64_in_place (x : Id) :
    (inPlaceUA key n h hd k x).Computes (fun p => lt p.1 p.2) (inPlaceU key lt n h hd k x) 2 ∧
    (inPlaceNA key n h hd k x).Computes (fun p => lt p.1 p.2) (inPlaceN key lt n h hd k x) 2 :=
  ⟨computes (inPlaceUA_run ..) (inPlaceUA_atMost x), computes (inPlaceNA_run ..) (inPlaceNA_atMost x)⟩

end

/-- The hypotheses are met by the example index of eight elements: at most 7 comparisons for a `find` there, and these are the calls made. -/
example : ((findA exKey 40 exTree 100 20).calls (Cmp.ans natLt natLt)).length ≤ 7 :=
  (C64_find (ltk := natLt) (gtk := natLt) (n := 40) exTree_rep 20).2.1

example : ((findA exKey 40 exTree 100 20).calls (Cmp.ans natLt natLt)).map (fun | .before k _ => k | .after _ k => k) = [40, 20, 10, 20] := by
  decide +kernel

/-- A right hint: key 25 goes before element 5 (key 30), after 1 2 3 4. -/
example : ((hintedPointUA exKey 40 exTree 100 25 5).calls (fun p => natLt p.1 p.2)).length ≤ 2 :=
  C64_right_hint_unique (b := [1, 2, 3, 4]) (a := [5, 6, 7, 8]) exTree_rep (by decide) (by decide +kernel) (by decide +kernel)

example : ((hintedPointNA exKey 40 exTree 100 20 3).calls (fun p => natLt p.1 p.2)).length ≤ 2 :=
  C64_right_hint_nonunique (b := [1, 2]) (a := [3, 4, 5, 6, 7, 8]) exTree_rep (by decide) (by decide +kernel) (by decide +kernel)

end MI.Ord

namespace MI.Seq
open MI

/-- C64: `sort` of a list of `xs.length` elements calls the comparison at most `n*(log2 n+1)` times, whatever it answers; `k'` is the number of calls
made. The same bound holds if a call throws. -/
theorem C64_sort (cmp : Cmp) {h : Heap} {header carry : Id} {cid : Nat → Id} {N W : Nat} {xs : List Id}
    {R : List (Id × List Id)} (hf : Fam h ((header, xs) :: R)) (hcar : carry ∉ header :: (xs ++ famIds R))
    (hloc : Locals cid header carry xs R) (hN : xs.length ≤ N) (hW : xs.length < 2 ^ W) :
    ∃ h' k', (sort cmp N (W + 1) h header carry cid = .ok (h', k') ∨ sort cmp N (W + 1) h header carry cid = .threw (h', k')) ∧
      k' ≤ xs.length * (Nat.log2 xs.length + 1) := by
  rcases sort_spec_count cmp hf hcar hloc hN hW with ⟨h', k', ys, e, _, _, _, c⟩ | ⟨h', k', ys, e, _, _, _, c⟩
  · exact ⟨h', k', Or.inl e, c⟩
  · exact ⟨h', k', Or.inr e, c⟩

example : ∃ h' k', (sort (fun _ x y => some (decide (y < x))) 3 9 exHeap 0 99 (fun i => 100 + i) = .ok (h', k') ∨
    sort (fun _ x y => some (decide (y < x))) 3 9 exHeap 0 99 (fun i => 100 + i) = .threw (h', k')) ∧ k' ≤ 3 * (Nat.log2 3 + 1) :=
  C64_sort _ (W := 8) exHeap_fam (by decide) (exLocals _ (by decide) _ (by decide)) (by decide) (by decide)

theorem transL2_ok {dec : Id → Option Bool} (hd : ∀ y, (dec y).isSome) (ys : List Id) : (transL2 dec ys).1 = true := by
  induction ys with
  | nil => rfl
  | cons y ys ih =>
    have := hd y
    simp only [transL2]
    rcases h : dec y with _ | _ | _
    · simp [h] at this
    · exact ih
    · exact ih

theorem mergeL_ok {cmp : Cmp} {dec : Id → Option Bool} (hd : ∀ y, (dec y).isSome) (k : Nat) (xs ys : List Id) :
    (∀ j, k ≤ j → j < k + (xs.length + ys.length - 1) → ∀ x y, (cmp j x y).isSome) → (mergeL cmp dec k xs ys).1 = true := by
  fun_induction mergeL cmp dec k xs ys with
  | case1 => intro _; exact transL2_ok hd _
  | case2 => intro _; rfl
  | case3 k x xs y ys hc =>
    intro ht
    have := ht k (Nat.le_refl _) (by simp only [List.length_cons]; omega) y x
    simp [hc] at this
  | case4 k x xs y ys hc hdy => intro _; have := hd y; simp [hdy] at this
  | case5 k x xs y ys hc hdy r ih =>
    intro ht
    exact ih (fun j h1 h2 => ht j (by omega) (by simp only [List.length_cons] at *; omega))
  | case6 k x xs y ys hc hdy r ih =>
    intro ht
    exact ih (fun j h1 h2 => ht j (by omega) (by simp only [List.length_cons] at *; omega))
  | case7 k x xs y ys hc r ih =>
    intro ht
    exact ih (fun j h1 h2 => ht j (by omega) (by simp only [List.length_cons] at *; omega))

/-- C64: `merge` of lists of `m` and `n` elements calls the comparison at most `m+n-1` times: if none of its first `m+n-1` calls throws (and
no transfer does), `merge` returns, whatever later calls would do. -/
theorem C64_merge (cmp : Cmp) (dec : Id → Option Bool) {h : Heap} {a b : Id} {xs ys : List Id}
    {R : List (Id × List Id)} {N : Nat} (hf : Fam h ((b, ys) :: (a, xs) :: R)) (hN : xs.length + ys.length ≤ N)
    (hd : ∀ y, (dec y).isSome) (hc : ∀ k, k < xs.length + ys.length - 1 → ∀ x y, (cmp k x y).isSome) :
    ∃ h', merge cmp dec N h a b = .ok h' := by
  obtain ⟨h', e, f⟩ := mergeGo_spec cmp dec N (k := 0) (dn := []) (rj := []) hf hN
  have hab : a ≠ b := by
    rintro rfl
    have := hf.1; simp [famIds_cons] at this
  refine ⟨h', ?_⟩
  unfold merge
  rw [if_pos hab, next_hd hf, next_hd hf.swap, e, mergeL_ok hd 0 xs ys (fun j _ h2 => hc j (by omega))]
  rfl

/-- A comparison that throws at its fifth call (number 4) is not called so often in merging lists of 2 and 3 elements. -/
example : ∃ h', merge (fun k x y => if k < 4 then some (decide (x < y)) else none) (fun _ => some true) 9 exHeap 10 0 = .ok h' :=
  C64_merge _ _ (xs := [11, 12]) (ys := [1, 2, 3]) (R := []) exHeap_fam (by decide) (by simp)
    (by intro k hk x y; simp only [List.length_cons, List.length_nil] at hk; rw [if_pos (by omega)]; rfl)

/-- C64: `remove_if` calls the predicate exactly once for every element: it returns exactly if none of its first `n` calls, with the elements in order,
throws. -/
theorem C64_remove_if (pred : Nat → Id → Option Bool) {h : Heap} {a : Id} {xs : List Id} {R : List (Id × List Id)}
    {N : Nat} (hf : Fam h ((a, xs) :: R)) (hN : xs.length ≤ N) :
    (∃ r, removeIf pred N h a = .ok r) ↔ ∀ (k : Nat) (hk : k < xs.length), (pred k xs[k]).isSome := by
  have key : ∀ (xs : List Id) (k : Nat), (removeL pred k xs).1 = true ↔ ∀ (j : Nat) (hj : j < xs.length), (pred (k + j) xs[j]).isSome := by
    intro xs
    induction xs with
    | nil => intro k; simp [removeL]
    | cons x xs ih =>
      intro k
      have e : (removeL pred k (x :: xs)).1 = true ↔ (pred k x).isSome ∧ (removeL pred (k + 1) xs).1 = true := by
        simp only [removeL]
        rcases pred k x with _ | _ | _ <;> simp
      rw [e, ih (k + 1)]
      constructor
      · rintro ⟨h1, h2⟩ j hj
        cases j with
        | zero => exact h1
        | succ j => have := h2 j (by simpa using hj); simpa [Nat.add_assoc, Nat.add_comm 1] using this
      · intro hall
        refine ⟨hall 0 (by simp), fun j hj => ?_⟩
        have := hall (j + 1) (by simpa using hj)
        simpa [Nat.add_assoc, Nat.add_comm 1] using this
  obtain ⟨h', e, f⟩ := removeGo_spec pred (k := 0) (dn := []) xs hf hN
  unfold removeIf
  rw [next_hd hf, e]
  have := key xs 0
  simp only [Nat.zero_add] at this
  rw [← this]
  cases (removeL pred 0 xs).1 <;> simp [mkOut]

example : (∃ r, removeIf (fun k x => if k < 3 then some (x == 2) else none) 9 exHeap 0 = .ok r) :=
  (C64_remove_if _ exHeap_fam (by decide)).2 (by decide +kernel)

theorem uniqueL_ok {pred : Nat → Id → Id → Option Bool} : ∀ (xs : List Id) (k : Nat) (f : Id),
    (∀ j, k ≤ j → j < k + xs.length → ∀ x y, (pred j x y).isSome) → (uniqueL pred k f xs).1 = true := by
  intro xs
  induction xs with
  | nil => intro k f _; rfl
  | cons x xs ih =>
    intro k f ht
    have h0 := ht k (Nat.le_refl _) (by simp) x f
    have h1 := fun j h1 h2 => ht j (Nat.le_of_succ_le h1) (by simp only [List.length_cons]; omega : j < k + (x :: xs).length)
    simp only [uniqueL]
    rcases hp : pred k x f with _ | _ | _
    · simp [hp] at h0
    · exact ih (k + 1) x (fun j h2 h3 => h1 j h2 (by omega))
    · exact ih (k + 1) f (fun j h2 h3 => h1 j h2 (by omega))

/-- C64: `unique` of a list of `n` elements calls the predicate at most `n-1` times. -/
theorem C64_unique (pred : Nat → Id → Id → Option Bool) {h : Heap} {a : Id} {xs : List Id} {R : List (Id × List Id)}
    {N : Nat} (hf : Fam h ((a, xs) :: R)) (hN : xs.length ≤ N)
    (hc : ∀ k, k < xs.length - 1 → ∀ x y, (pred k x y).isSome) : ∃ r, unique pred N h a = .ok r := by
  unfold unique
  rw [next_hd hf]
  cases xs with
  | nil => exact ⟨_, by simp [hdOr]; rfl⟩
  | cons x xs =>
    have hx : hdOr a (x :: xs) = x := rfl
    rw [hx, if_pos (fun e => notMem_hd hf (by simp [e]))]
    obtain ⟨h', e, f⟩ := uniqueGo_spec pred (k := 0) (dn := []) (f := x) xs hf (n := N) (by simp at hN; omega)
    refine ⟨_, by rw [e, uniqueL_ok xs 0 x (fun j _ h2 => hc j (by simp only [List.length_cons]; omega))]; rfl⟩

example : ∃ r, unique (fun k x y => if k < 2 then some (x == y) else none) 9 exHeap 0 = .ok r :=
  C64_unique _ exHeap_fam (by decide)
    (by intro k hk x y; simp only [List.length_cons, List.length_nil] at hk; rw [if_pos (by omega)]; rfl)

end MI.Seq
