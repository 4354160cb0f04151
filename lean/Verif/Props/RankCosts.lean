import Verif.Ord.RankStepsLemmas
import Verif.Props.OrdCosts
/-!
C73: what the operations of ranked indices cost (doc/reference/rnk_indices.html:456-476, 524-674): all rank operations are
logarithmic, and so are all updates, keeping the counters of the nodes included. The numbers are numbers of rounds of loops: searching, walking to
a neighbour, adjusting the counters, and rebalancing (`Verif/Ord/RankSteps.lean`, the twin of the model that counts them).
-/
namespace MI.Ord
open MI

variable {K CK : Type} {key : Id → K} {lt : K → K → Bool} {ltk : K → CK → Bool} {gtk : CK → K → Bool} {u : Bool}
variable {h : Heap} {hd : Id} {xs : List Id} {n : Nat}

/-- A loop that ends takes at most as many rounds as it was allowed, and takes the same when allowed more. -/
theorem rounds_of {α : Type} {f : Nat → Option (α × Nat)} {g : Nat → Option α} {B : Nat → Nat} {L n : Nat} {r : α} (hf : ∀ n, (f n).map (·.1) = g n)
    (hb : ∀ {n r c}, f n = some (r, c) → c ≤ B n ∧ ∀ m, n ≤ m → f m = some (r, c)) (hg : g L = some r) (hn : L ≤ n) : ∃ c, f n = some (r, c) ∧ c ≤ B L := by
  have := hf L
  rw [hg] at this
  cases e : f L with
  | none => rw [e] at this; cases this
  | some o =>
    obtain ⟨r', c⟩ := o
    rw [e] at this
    cases this
    exact ⟨c, (hb e).2 n hn, (hb e).1⟩

/-- C73: `nth(i)` is the `i`-th element (or `end()`), after at most 2·log2(size+1)+1 rounds. -/
theorem C73_nth (hr : Rep h hd xs) (hn : 2 * Nat.log2 (xs.length + 1) + 2 ≤ n) (i : Nat) :
    ∃ c, nthS n h hd i = some (xs.getD i hd, c) ∧ c ≤ 2 * Nat.log2 (xs.length + 1) + 1 := by
  refine rounds_of (B := fun n => n - 1) (f := fun n => nthS n h hd i) (fun n => nthS_fst n h hd i) (fun {n r c} e => ?_) (C18_nth hr (Nat.le_refl _) i) hn
  unfold nthS at e ⊢
  simp only at e ⊢
  split at e
  · rename_i q
    cases e
    exact ⟨Nat.zero_le _, fun m _ => by rw [if_pos q]⟩
  · rename_i q
    have := nthGoS_bound h e
    exact ⟨by omega, fun m hm => by rw [if_neg q]; exact this.2 m hm⟩

/-- C73: `rank(it)` is the number of elements before `it`, the size for `end()`, after at most 2·log2(size+1)+1 rounds. -/
theorem C73_rank {a b : List Id} (hr : Rep h hd (a ++ b)) (hn : 2 * Nat.log2 ((a ++ b).length + 1) + 2 ≤ n) :
    ∃ c, rankS n h hd (hdOr hd b) = some (a.length, c) ∧ c ≤ 2 * Nat.log2 ((a ++ b).length + 1) + 1 := by
  refine rounds_of (B := fun n => n - 1) (f := fun n => rankS n h hd (hdOr hd b)) (fun n => rankS_fst n h hd _) (fun {n r c} e => ?_) ?_ hn
  · unfold rankS at e ⊢
    simp only at e ⊢
    split at e
    · rename_i q
      cases e
      exact ⟨Nat.zero_le _, fun m _ => by rw [if_pos q]⟩
    · rename_i q
      split at e
      · rename_i q2
        cases e
        exact ⟨Nat.zero_le _, fun m _ => by rw [if_neg q, if_pos q2]⟩
      · rename_i q2
        have := rankGoS_bound h _ e
        exact ⟨by omega, fun m hm => by rw [if_neg q, if_neg q2]; exact this.2 m hm⟩
  · cases b with
    | nil =>
      rw [List.append_nil] at hr ⊢
      exact rank_end hr
    | cons x b => exact rank_spec hr (Nat.le_refl _)

/-- C73: `lower_bound_rank`. -/
theorem C73_lower_bound_rank (hr : Rep h hd xs) (hs : SortedBy key lt xs) (ce : CompatExt lt ltk gtk) (hn : 2 * Nat.log2 (xs.length + 1) + 2 ≤ n) (x : CK) :
    ∃ c, lowerBoundRankS key ltk n h hd x = some (xs.countP (fun a => ltk (key a) x), c) ∧ c ≤ 2 * Nat.log2 (xs.length + 1) + 2 :=
  rounds_of (B := fun n => n) (f := fun n => lowerBoundRankS key ltk n h hd x) (fun n => boundRankS_fst _ n h _ _) (fun e => boundRankS_bound e)
    (C19_lower_bound_rank hr hs ce (Nat.le_refl _) x) hn

/-- C73: `upper_bound_rank`. -/
theorem C73_upper_bound_rank (hr : Rep h hd xs) (hs : SortedBy key lt xs) (ce : CompatExt lt ltk gtk) (hn : 2 * Nat.log2 (xs.length + 1) + 2 ≤ n) (x : CK) :
    ∃ c, upperBoundRankS key gtk n h hd x = some (xs.countP (fun a => !gtk x (key a)), c) ∧ c ≤ 2 * Nat.log2 (xs.length + 1) + 2 :=
  rounds_of (B := fun n => n) (f := fun n => upperBoundRankS key gtk n h hd x) (fun n => boundRankS_fst _ n h _ _) (fun e => boundRankS_bound e)
    (C19_upper_bound_rank hr hs ce (Nat.le_refl _) x) hn

/-- C73: `find_rank`. -/
theorem C73_find_rank (hr : Rep h hd xs) (hs : SortedBy key lt xs) (ce : CompatExt lt ltk gtk) (hn : 2 * Nat.log2 (xs.length + 1) + 2 ≤ n) (x : CK) :
    ∃ c, findRankS key ltk gtk n h hd x = some (xs.findIdx (fun a => equivTo ltk gtk x (key a)), c) ∧ c ≤ 2 * Nat.log2 (xs.length + 1) + 2 := by
  refine rounds_of (B := fun n => n) (f := fun n => findRankS key ltk gtk n h hd x) (fun n => findRankS_fst key ltk gtk n h hd x) (fun {n r c} e => ?_)
    (C19_find_rank hr hs ce (Nat.le_refl _) x) hn
  unfold findRankS at e ⊢
  simp only at e ⊢
  split at e
  · rename_i q
    cases e
    exact ⟨Nat.zero_le _, fun m _ => by rw [if_pos q]⟩
  · rename_i q
    cases e1 : rankLoopS (fun p => !ltk (key p) x) h n (h.parent hd) hd (h.size (h.parent hd)) with
    | none => rw [e1] at e; cases e
    | some o =>
      obtain ⟨⟨s, y⟩, d⟩ := o
      have := rankLoopS_bound _ h e1
      rw [e1] at e
      cases e
      exact ⟨this.1, fun m hm => by rw [if_neg q, this.2 m hm]⟩

/-- C73: `equal_range_rank`, with at most twice as many. -/
theorem C73_equal_range_rank (hr : Rep h hd xs) (hs : SortedBy key lt xs) (ce : CompatExt lt ltk gtk) (hn : 2 * Nat.log2 (xs.length + 1) + 2 ≤ n) (x : CK) :
    ∃ c, equalRangeRankS key ltk gtk n h hd x = some ((xs.countP (fun a => ltk (key a) x), xs.countP (fun a => !gtk x (key a))), c) ∧
      c ≤ 4 * Nat.log2 (xs.length + 1) + 4 := by
  have := rounds_of (B := fun n => 2 * n) (f := fun n => equalRangeRankS key ltk gtk n h hd x) (fun n => equalRangeRankS_fst key ltk gtk n h hd x) (fun {n r c} e => ?_)
    (C19_equal_range_rank hr hs ce (Nat.le_refl _) x) hn
  · obtain ⟨c, e, hc⟩ := this
    exact ⟨c, e, by omega⟩
  · unfold equalRangeRankS at e ⊢
    simp only at e ⊢
    split at e
    · rename_i q
      cases e
      exact ⟨Nat.zero_le _, fun m _ => by rw [if_pos q]⟩
    · rename_i q
      have := rangeRankLoopS_bound _ _ _ _ h e
      exact ⟨this.1, fun m hm => by rw [if_neg q]; exact this.2 m hm⟩

/-- C73: `count` of a ranked index does not depend on how many elements it counts. -/
theorem C73_count (hr : Rep h hd xs) (hs : SortedBy key lt xs) (ce : CompatExt lt ltk gtk) (hn : 2 * Nat.log2 (xs.length + 1) + 2 ≤ n) (x : CK) :
    ∃ c, countRankedS key ltk gtk n h hd x = some (xs.countP (fun a => equivTo ltk gtk x (key a)), c) ∧ c ≤ 4 * Nat.log2 (xs.length + 1) + 4 := by
  obtain ⟨c, e, hc⟩ := C73_equal_range_rank hr hs ce hn x
  refine ⟨c, ?_, hc⟩
  have h1 := countRankedS_fst key ltk gtk n h hd x
  rw [C19_count hr hs ce hn x] at h1
  unfold countRankedS at h1 ⊢
  rw [e] at h1 ⊢
  simp only [Option.map_some, Option.some.injEq] at h1 ⊢
  rw [h1]

/-- C73: `range_rank(lower,upper)`: the numbers of elements before the range, and before its end. -/
theorem C73_range_rank (hr : Rep h hd xs) (hs : SortedBy key lt xs) (hn : 2 * Nat.log2 (xs.length + 1) + 2 ≤ n)
    (lower upper : Option (K → Bool)) (hlo : ∀ p, lower = some p → LowerBounder lt p) (hup : ∀ p, upper = some p → UpperBounder lt p) :
    ∃ a m b c, xs = a ++ m ++ b ∧ m = xs.filter (fun a => holds lower (key a) && holds upper (key a)) ∧
      rangeRankS key lower upper n h hd xs.length = some ((a.length, a.length + m.length), c) ∧ c ≤ 4 * Nat.log2 (xs.length + 1) + 4 := by
  obtain ⟨a, m, b, e, hm, -, e1, -⟩ := C19_range_rank hr hs (Nat.le_refl _) lower upper hlo hup
  have := rounds_of (B := fun n => 2 * n) (f := fun n => rangeRankS key lower upper n h hd xs.length) (fun n => rangeRankS_fst key lower upper n h hd _)
    (fun {n r c} e => ?_) e1 hn
  · obtain ⟨c, e2, hc⟩ := this
    exact ⟨a, m, b, c, e, hm, e2, by omega⟩
  · have bd : ∀ {q : Id → Bool} {f : Nat → Nat × Nat} {n : Nat} {r : Nat × Nat} {c : Nat}, (boundRankS q n h (h.parent hd) hd).map (fun b => (f b.1, b.2)) = some (r, c) →
        c ≤ 2 * n ∧ ∀ m, n ≤ m → (boundRankS q m h (h.parent hd) hd).map (fun b => (f b.1, b.2)) = some (r, c) := by
      intro q f n r c e
      cases e1 : boundRankS q n h (h.parent hd) hd with
      | none => rw [e1] at e; cases e
      | some o =>
        obtain ⟨o, d⟩ := o
        have := boundRankS_bound e1
        rw [e1] at e
        cases e
        exact ⟨by omega, fun m hm => by rw [this.2 m hm]; rfl⟩
    rcases lower with _ | lo <;> rcases upper with _ | up
    · simp only [rangeRankS] at e ⊢
      cases e
      exact ⟨Nat.zero_le _, fun _ _ => rfl⟩
    · exact bd (f := fun b => (0, b)) e
    · exact bd (f := fun a => (a, xs.length)) e
    · simp only [rangeRankS] at e ⊢
      split at e
      · rename_i q
        cases e
        exact ⟨Nat.zero_le _, fun m _ => by rw [if_pos q]⟩
      · rename_i q
        have := rangeRankLoopS_bound _ _ _ _ h e
        exact ⟨this.1, fun m hm => by rw [if_neg q]; exact this.2 m hm⟩

/-- C73: every update of a ranked index (insertion, with or without a hint, deletion, replacement and modification) ends in the state in which the same update of an ordered index
ends, and takes logarithmic time, counters included. -/
theorem C73_updates (sw : StrictWeak lt) {s : Idx K} {a : Act K} (w : s.Holds lt u hd xs) (hl : a.Legal hd xs) (hn : xs.length + 4 ≤ n) :
    ∃ s' c xs', actR lt u n hd s a = some (s', c) ∧ (act lt u n hd s a).map (·.1) = some s' ∧ s'.Holds lt u hd xs' ∧ a.Effect u xs xs' ∧
      c ≤ 24 * Nat.log2 (xs.length + 1) + 3 := by
  obtain ⟨s', r, xs', e, w', ef, hc⟩ := C69_log sw w hl hn
  obtain ⟨d, e', hd'⟩ := actR_at sw w.1 w.2.1 hn hl e
  refine ⟨s', _, xs', e', by rw [e]; rfl, w', ef, ?_⟩
  unfold lg at hd'; omega

/-- C73: after any update all ranks are right again: `nth` runs through the elements as they are now, in logarithmic time. -/
theorem C73_updates_nth (sw : StrictWeak lt) {s : Idx K} {a : Act K} (w : s.Holds lt u hd xs) (hl : a.Legal hd xs) (hn : xs.length + 4 ≤ n) :
    ∃ s' c xs', actR lt u n hd s a = some (s', c) ∧ a.Effect u xs xs' ∧ OrderedBy lt u s'.key xs' ∧ ∀ m i, 2 * Nat.log2 (xs'.length + 1) + 2 ≤ m →
      ∃ c', nthS m s'.h hd i = some (xs'.getD i hd, c') ∧ c' ≤ 2 * Nat.log2 (xs'.length + 1) + 1 := by
  obtain ⟨s', c, xs', e, -, w', ef, -⟩ := C73_updates sw w hl hn
  exact ⟨s', c, xs', e, ef, w'.2.1, fun m i hm => C73_nth w'.1 hm i⟩

/-! ## Examples: the index with eight elements of `Verif/Props/Ord.lean` -/

example : ∃ c, nthS 8 exTree 100 5 = some (6, c) ∧ c ≤ 7 := C73_nth exTree_rep (by decide) 5
example : ∃ c, rankS 8 exTree 100 5 = some (4, c) ∧ c ≤ 7 := C73_rank (a := [1, 2, 3, 4]) (b := [5, 6, 7, 8]) exTree_rep (by decide)
example : ∃ c, lowerBoundRankS exKey natLt 8 exTree 100 20 = some (1, c) ∧ c ≤ 8 := C73_lower_bound_rank exTree_rep exTree_sorted natLt_sw.compat (by decide) 20
example : ∃ c, upperBoundRankS exKey natLt 8 exTree 100 20 = some (4, c) ∧ c ≤ 8 := C73_upper_bound_rank exTree_rep exTree_sorted natLt_sw.compat (by decide) 20
example : ∃ c, findRankS exKey natLt natLt 8 exTree 100 30 = some (4, c) ∧ c ≤ 8 := C73_find_rank exTree_rep exTree_sorted natLt_sw.compat (by decide) 30
example : ∃ c, equalRangeRankS exKey natLt natLt 8 exTree 100 20 = some ((1, 4), c) ∧ c ≤ 16 := C73_equal_range_rank exTree_rep exTree_sorted natLt_sw.compat (by decide) 20
example : ∃ c, countRankedS exKey natLt natLt 8 exTree 100 20 = some (3, c) ∧ c ≤ 16 := C73_count exTree_rep exTree_sorted natLt_sw.compat (by decide) 20
example : rangeRankS exKey (some (fun k => decide (20 < k))) (some (fun k => decide (k ≤ 50))) 8 exTree 100 8 = some ((4, 7), 6) := by decide +kernel
example : (actR natLt false 30 100 ⟨exKey, exTree, 8⟩ (.erase 4)).map (·.2) = some 3 := by decide +kernel

example : ∃ s' c xs', actR natLt false 30 100 ⟨exKey, exTree, 8⟩ (.modify 4 75) = some (s', c) ∧
    (act natLt false 30 100 ⟨exKey, exTree, 8⟩ (.modify 4 75)).map (·.1) = some s' ∧ s'.Holds natLt false 100 xs' ∧
    Act.Effect false [1, 2, 3, 4, 5, 6, 7, 8] (.modify 4 75) xs' ∧ c ≤ 24 * Nat.log2 (8 + 1) + 3 :=
  C73_updates natLt_sw exIdx_holds (by decide : (4 : Id) ∈ [1, 2, 3, 4, 5, 6, 7, 8]) (by decide)

end MI.Ord
