import Verif.Ord.History
/-!
# Properties of ordered and ranked indices (C12-C19, C45)

`Rep h hd xs` (`Verif.Ord.Tree`) says that the tree with header `hd` in the memory `h` is red-black, has exact subtree counts, exact
first/last shortcuts, and holds exactly the elements `xs` in traversal order. `hdOr hd q` is the position designating
the first element of `q`, or `end()` if `q` is empty. `SortedBy key lt xs` says that the elements are sorted by key.
`CompatExt`, `LowerBounder`, `UpperBounder` (`Verif.Spec.Lookup`) are the documented requirements on user predicates. `n` bounds the
number of iterations of each loop; every theorem about a lookup holds as soon as `n ≥ 2*log2(size+1)+2`.
-/
namespace MI.Ord
open MI

/-! ## Examples: an index with header 100 -/

/-- Fresh memory. -/
def exHeap : Heap := emptyInit ⟨fun _ => 77, fun _ => 78, fun _ => 79, fun _ => .black, fun _ => 55⟩ 100

/-- Keys: elements 1…9 have keys 10, 20, 20, 20, 30, 40, 50, 60, 70. -/
def exKey (x : Id) : Nat := if x ≤ 1 then 10 else if x ≤ 4 then 20 else (x - 2) * 10

def natLt (a b : Nat) : Bool := decide (a < b)

theorem natLt_sw : StrictWeak natLt := by
  refine ⟨by simp [natLt], ?_, ?_⟩
  · simp only [natLt, decide_eq_true_eq]; intros; omega
  · simp only [natLt, decide_eq_false_iff_not]; intros; omega

/-- A history: eight elements are linked at various places, some are unlinked and restored. -/
def exOps : List Op :=
  [.link 5 .left 100, .link 2 .left 5, .link 6 .right 5, .link 7 .right 6, .link 8 .right 7, .link 1 .left 2, .link 4 .right 2,
   .extract 6, .restore 6 7, .link 3 .left 4, .extract 5, .restore 5 6, .link 9 .right 8, .extract 9]

def exTree : Heap := (run 40 100 exOps exHeap).getD exHeap

theorem exHeap_rep : Rep exHeap 100 [] := emptyInit_rep _ (by decide)

theorem exOps_valid : Valid 40 100 exOps exHeap [] := valid_of _ (by decide +kernel)

theorem exTree_rep : Rep exTree 100 [1, 2, 3, 4, 5, 6, 7, 8] := by
  obtain ⟨h', e, r⟩ := run_effects exOps exHeap_rep (by decide) exOps_valid
  have h1 : exOps.foldl effect [] = [1, 2, 3, 4, 5, 6, 7, 8] := by decide +kernel
  rw [h1] at r
  unfold exTree
  rw [e]
  exact r

theorem exTree_sorted : SortedBy exKey natLt [1, 2, 3, 4, 5, 6, 7, 8] := by
  unfold SortedBy Sorted
  decide +kernel

/-! ## C12: lookup -/

section Lookup
variable {K CK : Type} {key : Id → K} {lt : K → K → Bool} {ltk : K → CK → Bool} {gtk : CK → K → Bool}
variable {h : Heap} {hd : Id} {xs : List Id} {n : Nat}

/-- C12: `lower_bound(x,comp)` is the first element not less than `x`, or `end()`. -/
theorem C12_lower_bound (hr : Rep h hd xs) (hs : SortedBy key lt xs) (ce : CompatExt lt ltk gtk)
    (hn : 2 * Nat.log2 (xs.length + 1) + 2 ≤ n) (x : CK) :
    lowerBound key ltk n h hd x = some ((xs.find? (fun a => !ltk (key a) x)).getD hd) := by
  obtain ⟨u, m, v, e, hu, hm, hv⟩ := compat_split ce hs x
  have h1 : ∀ a ∈ u, (!ltk (key a) x) = false := fun a ha => by simp [(hu a ha).1]
  have h2 : ∀ a ∈ m ++ v, (!ltk (key a) x) = true := fun a ha => by
    rcases List.mem_append.1 ha with ha | ha
    · simp [(hm a ha).1]
    · simp [(hv a ha).1]
  unfold lowerBound lowerBoundFrom
  rw [bound_on hr hn e h1 h2, e, find?_split h1 h2]

/-- C12: `upper_bound(x,comp)` is the first element greater than `x`, or `end()`. -/
theorem C12_upper_bound (hr : Rep h hd xs) (hs : SortedBy key lt xs) (ce : CompatExt lt ltk gtk)
    (hn : 2 * Nat.log2 (xs.length + 1) + 2 ≤ n) (x : CK) :
    upperBound key gtk n h hd x = some ((xs.find? (fun a => gtk x (key a))).getD hd) := by
  obtain ⟨u, m, v, e, hu, hm, hv⟩ := compat_split ce hs x
  have h1 : ∀ a ∈ u ++ m, gtk x (key a) = false := fun a ha => by
    rcases List.mem_append.1 ha with ha | ha
    · exact (hu a ha).2
    · exact (hm a ha).2
  have h2 : ∀ a ∈ v, gtk x (key a) = true := fun a ha => (hv a ha).2
  have e' : xs = (u ++ m) ++ v := by simpa using e
  unfold upperBound upperBoundFrom
  rw [bound_on hr hn e' h1 h2, e', find?_split h1 h2]

/-- C12: `find(x,comp)` is the first element equivalent to `x`, or `end()` if there is none. -/
theorem C12_find (hr : Rep h hd xs) (hs : SortedBy key lt xs) (ce : CompatExt lt ltk gtk)
    (hn : 2 * Nat.log2 (xs.length + 1) + 2 ≤ n) (x : CK) :
    find key ltk gtk n h hd x = some ((xs.find? (fun a => equivTo ltk gtk x (key a))).getD hd) := by
  obtain ⟨u, m, v, e, hu, hm, hv⟩ := compat_split ce hs x
  have h1 : ∀ a ∈ u, (!ltk (key a) x) = false := fun a ha => by simp [(hu a ha).1]
  have h2 : ∀ a ∈ m ++ v, (!ltk (key a) x) = true := fun a ha => by
    rcases List.mem_append.1 ha with ha | ha
    · simp [(hm a ha).1]
    · simp [(hv a ha).1]
  have hnd := rep_nodup hr
  unfold find
  rw [bound_on hr hn e h1 h2]
  simp only [Option.some.injEq]
  have e3 : (xs.find? (fun a => equivTo ltk gtk x (key a))) = (m ++ v).find? (fun a => equivTo ltk gtk x (key a)) := by
    rw [e, List.find?_append, List.find?_eq_none.2 (by intro a ha; simp [equivTo, (hu a ha).1]), Option.none_or]
  rw [e3]
  cases m with
  | cons a m =>
    have ha := hm a (by simp)
    have hah : a ≠ hd := by rintro rfl; rw [e] at hnd; simp at hnd
    have e4 : hdOr hd (a :: m ++ v) = a := rfl
    rw [e4, if_neg (by rintro (q | q); exact hah q; rw [ha.2] at q; cases q)]
    simp [equivTo, ha.1, ha.2]
  | nil =>
    have e4 : ((([] : List Id) ++ v).find? (fun a => equivTo ltk gtk x (key a))) = none :=
      List.find?_eq_none.2 (by intro a ha; simp [equivTo, (hv a ha).2])
    rw [e4]
    cases v with
    | nil => rw [if_pos (Or.inl (show hdOr hd ([] ++ []) = hd from rfl))]; rfl
    | cons b v =>
      have e5 : hdOr hd ([] ++ b :: v) = b := rfl
      rw [e5, if_pos (Or.inr (hv b (by simp)).2)]; rfl

/-- C12: `equal_range(x,comp)` delimits exactly the elements equivalent to `x`: the elements before its first position are less,
those from its second position on are greater. -/
theorem C12_equal_range (hr : Rep h hd xs) (hs : SortedBy key lt xs) (ce : CompatExt lt ltk gtk)
    (hn : 2 * Nat.log2 (xs.length + 1) + 2 ≤ n) (x : CK) :
    ∃ u m v, xs = u ++ m ++ v ∧ equalRange key ltk gtk n h hd x = some (hdOr hd (m ++ v), hdOr hd v) ∧
      m = xs.filter (fun a => equivTo ltk gtk x (key a)) ∧
      (∀ a ∈ u, ltk (key a) x = true) ∧ (∀ a ∈ v, gtk x (key a) = true) := by
  obtain ⟨u, m, v, e, hu, hm, hv⟩ := compat_split ce hs x
  refine ⟨u, m, v, by simpa using e, ?_, ?_, fun a ha => (hu a ha).1, fun a ha => (hv a ha).2⟩
  · unfold equalRange
    refine range_on hr hn e (fun a ha => ?_) (fun a ha => ?_) (fun a ha => ?_)
    · simp [(hu a ha).1]
    · simp [(hm a ha).1, (hm a ha).2]
    · simp [(hv a ha).1, (hv a ha).2]
  · rw [e, List.filter_append, List.filter_append, List.filter_eq_nil_iff.2, List.filter_eq_self.2, List.filter_eq_nil_iff.2]
    · simp
    · intro a ha; simp [equivTo, (hv a ha).2]
    · intro a ha; simp [equivTo, hm a ha]
    · intro a ha; simp [equivTo, (hu a ha).1]

/-- C12: `count(x,comp)` is the number of elements equivalent to `x`. -/
theorem C12_count (hr : Rep h hd xs) (hs : SortedBy key lt xs) (ce : CompatExt lt ltk gtk) (hn : xs.length + 3 ≤ n) (x : CK) :
    count key ltk gtk n h hd x = some (xs.countP (fun a => equivTo ltk gtk x (key a))) := by
  obtain ⟨u, m, v, e, er, em, _, _⟩ := C12_equal_range hr hs ce (Nat.le_trans (log_le _) hn) x
  unfold count
  rw [er]
  simp only
  rw [List.append_assoc] at e
  rw [e] at hr hn
  rw [distance_spec hr hn (by simp at hn; omega), List.countP_eq_length_filter, ← em]

/-- C12: `contains(x,comp)` tells whether some element is equivalent to `x`. -/
theorem C12_contains (hr : Rep h hd xs) (hs : SortedBy key lt xs) (ce : CompatExt lt ltk gtk)
    (hn : 2 * Nat.log2 (xs.length + 1) + 2 ≤ n) (x : CK) :
    contains key ltk gtk n h hd x = some (xs.any (fun a => equivTo ltk gtk x (key a))) := by
  unfold contains
  rw [C12_find hr hs ce hn x]
  simp only [Option.map_some, Option.some.injEq]
  have hnd := rep_nodup hr
  cases hf : xs.find? (fun a => equivTo ltk gtk x (key a)) with
  | none =>
    have := List.find?_eq_none.1 hf
    simp only [Option.getD_none, ne_eq, not_true_eq_false, decide_false]
    symm; rw [List.any_eq_false]; exact this
  | some a =>
    have hm := List.mem_of_find?_eq_some hf
    have hp := List.find?_some hf
    have : a ≠ hd := by rintro rfl; simp [hm] at hnd
    simp only [Option.getD_some, ne_eq, this, not_false_eq_true, decide_true]
    symm; rw [List.any_eq_true]; exact ⟨a, hm, hp⟩

/-! ## C13: ranges -/

/-- C13: `range(lower,upper)` delimits exactly the elements that satisfy both bounds; an absent bound (`unbounded`) does not restrict.
The first position is that of the first element which satisfies the lower bound, or `end()`, also if no element satisfies both; then the two
positions coincide. -/
theorem C13_range (hr : Rep h hd xs) (hs : SortedBy key lt xs) (hn : 2 * Nat.log2 (xs.length + 1) + 2 ≤ n)
    (lower upper : Option (K → Bool)) (hlo : ∀ p, lower = some p → LowerBounder lt p) (hup : ∀ p, upper = some p → UpperBounder lt p) :
    ∃ u m v, xs = u ++ m ++ v ∧ range key lower upper n h hd = some (hdOr hd (m ++ v), hdOr hd v) ∧
      m = xs.filter (fun a => holds lower (key a) && holds upper (key a)) ∧
      (∀ a ∈ u, holds lower (key a) = false) ∧ ∀ a ∈ m ++ v, holds lower (key a) = true := by
  have triv1 : LowerBounder lt (fun _ : K => true) := fun _ _ _ _ => rfl
  have triv2 : UpperBounder lt (fun _ : K => true) := fun _ _ _ _ => rfl
  have key1 : ∀ (p : Id → Bool) (u m v : List Id), xs = u ++ (m ++ v) → (∀ a ∈ u, p a = false) → (∀ a ∈ m, p a = true) → (∀ a ∈ v, p a = false) →
      m = xs.filter p := by
    intro p u m v e hu hm hv
    rw [e, List.filter_append, List.filter_append, List.filter_eq_nil_iff.2, List.filter_eq_self.2, List.filter_eq_nil_iff.2]
    · simp
    · intro a ha; simp [hv a ha]
    · exact hm
    · intro a ha; simp [hu a ha]
  cases lower with
  | some lo =>
    cases upper with
    | some up =>
      obtain ⟨u, m, v, e, hu, hm, hv⟩ := bound_split (hlo lo rfl) (hup up rfl) hs
      refine ⟨u, m, v, by simpa using e, ?_, key1 _ u m v e ?_ ?_ ?_, fun a ha => hu a ha,
        fun a ha => (List.mem_append.1 ha).elim (fun q => (hm a q).1) (fun q => (hv a q).1)⟩
      · unfold range
        refine range_on hr hn e (fun a ha => ?_) (fun a ha => ?_) (fun a ha => ?_)
        · simp [hu a ha]
        · simp [(hm a ha).1, (hm a ha).2]
        · simp [(hv a ha).1, (hv a ha).2]
      · intro a ha; simp [holds, hu a ha]
      · intro a ha; simp [holds, hm a ha]
      · intro a ha; simp [holds, hv a ha]
    | none =>
      obtain ⟨u, m, v, e, hu, hm, hv⟩ := bound_split (hlo lo rfl) triv2 hs
      have : v = [] := by
        cases v with
        | nil => rfl
        | cons b v => simpa using (hv b (by simp)).2
      subst this
      refine ⟨u, m, [], by simpa using e, ?_, key1 _ u m [] e ?_ ?_ (by simp), fun a ha => hu a ha, fun a ha => (hm a (by simpa using ha)).1⟩
      · unfold range
        simp only
        rw [bound_on hr hn (v := m) (by simpa using e) hu (fun a ha => (hm a ha).1)]
        simp [hdOr]
      · intro a ha; simp [holds, hu a ha]
      · intro a ha; simp [holds, hm a ha]
  | none =>
    cases upper with
    | some up =>
      obtain ⟨u, m, v, e, hu, hm, hv⟩ := bound_split triv1 (hup up rfl) hs
      have : u = [] := by
        cases u with
        | nil => rfl
        | cons b v => simpa using hu b (by simp)
      subst this
      refine ⟨[], m, v, by simpa using e, ?_, key1 _ [] m v e (by simp) ?_ ?_, fun a ha => absurd ha List.not_mem_nil, fun _ _ => rfl⟩
      · unfold range
        simp only
        rw [bound_on hr hn (u := m) (v := v) (by simpa using e) (fun a ha => by simp [(hm a ha).2]) (fun a ha => by simp [(hv a ha).2]),
          rep_first hr]
        simp [e]
      · intro a ha; simp [holds, hm a ha]
      · intro a ha; simp [holds, hv a ha]
    | none =>
      refine ⟨[], xs, [], by simp, ?_, by simp [holds], fun a ha => absurd ha List.not_mem_nil, fun _ _ => rfl⟩
      unfold range
      simp only
      rw [rep_first hr]; simp [hdOr]

example : lowerBound exKey natLt 8 exTree 100 20 = some 2 ∧ upperBound exKey natLt 8 exTree 100 20 = some 5 ∧
    find exKey natLt natLt 8 exTree 100 25 = some 100 ∧ count exKey natLt natLt 20 exTree 100 20 = some 3 ∧
    equalRange exKey natLt natLt 8 exTree 100 35 = some (6, 6) ∧
    range exKey (some (fun k => decide (20 < k))) (some (fun k => decide (k ≤ 50))) 8 exTree 100 = some (5, 8) ∧
    range exKey (some (fun k => decide (45 < k))) (some (fun k => decide (k ≤ 25))) 8 exTree 100 = some (7, 7) := by decide +kernel

/-- The hypotheses of C12 hold for the example and a key type of its own: a pair (integer, fraction present). -/
example : Rep exTree 100 [1, 2, 3, 4, 5, 6, 7, 8] ∧ SortedBy exKey natLt [1, 2, 3, 4, 5, 6, 7, 8] ∧
    CompatExt natLt (fun k (c : Nat × Bool) => decide (k < c.1) || (decide (k = c.1) && c.2)) (fun c k => decide (c.1 < k)) := by
  refine ⟨exTree_rep, exTree_sorted, ?_, ?_, ?_⟩
  · intro ck k; simp; intros; omega
  · intro ck k1 k2; simp [natLt]; omega
  · intro ck k1 k2; simp [natLt]; intro h1 h2 h3
    refine ⟨by omega, fun h => h2 (by omega)⟩

example : LowerBounder natLt (fun k => decide (20 < k)) ∧ UpperBounder natLt (fun k => decide (k ≤ 50)) := by
  constructor <;> intro k1 k2 <;> simp [natLt] <;> omega

end Lookup

/-! ## C14: insertion positions -/

section Insert
variable {K : Type} {key : Id → K} {lt : K → K → Bool}
variable {h : Heap} {hd x : Id} {xs : List Id} {n : Nat}

/-- C14: unhinted insertion in a non-unique index puts the element after all elements not greater than it, in particular after all
equivalent ones, and before all greater ones; nothing else moves. -/
theorem C14_insert_nonunique (sw : StrictWeak lt) (hr : Rep h hd xs) (hs : SortedBy key lt xs) (hx : x ∉ hd :: xs) (hx0 : x ≠ 0)
    (hn : xs.length + 3 ≤ n) :
    ∃ h', insertAt n h hd x (linkPointN key lt n h hd (key x)) = some (h', x) ∧
      Rep h' hd (xs.filter (fun a => !lt (key x) (key a)) ++ x :: xs.filter (fun a => lt (key x) (key a))) := by
  obtain ⟨side, pos, u, v, e1, rfl, hp, hu, hv⟩ := linkPointN_spec sw hr hs hn (key x)
  obtain ⟨h', e, r, _⟩ := link_at hp hx hx0 hn
  refine ⟨h', by simp [insertAt, e1, e], ?_⟩
  have f1 : (u ++ v).filter (fun a => !lt (key x) (key a)) = u := by
    rw [List.filter_append, List.filter_eq_self.2 (fun a ha => by simp [hu a ha]), List.filter_eq_nil_iff.2 (fun a ha => by simp [hv a ha])]
    simp
  have f2 : (u ++ v).filter (fun a => lt (key x) (key a)) = v := by
    rw [List.filter_append, List.filter_eq_nil_iff.2 (fun a ha => by simp [hu a ha]), List.filter_eq_self.2 (fun a ha => by simp [hv a ha])]
    simp
  rw [f1, f2]; exact r

/-- C14: hinted insertion in a non-unique index with hint before the elements `a` (`hdOr hd a`; `end()` if `a` is empty): the result is
sorted, and no other sorted place is closer to the hint. -/
theorem C14_hint_nonunique (sw : StrictWeak lt) {b a : List Id} (hr : Rep h hd (b ++ a)) (hs : SortedBy key lt (b ++ a))
    (hx : x ∉ hd :: (b ++ a)) (hx0 : x ≠ 0) (hn : (b ++ a).length + 3 ≤ n) :
    ∃ h' u v, insertAt n h hd x (hintedPointN key lt n h hd (key x) (hdOr hd a)) = some (h', x) ∧ b ++ a = u ++ v ∧
      Rep h' hd (u ++ x :: v) ∧ SortedBy key lt (u ++ x :: v) ∧
      (∀ u' v', b ++ a = u' ++ v' → SortedBy key lt (u' ++ x :: v') →
        ((u.length : Int) - b.length).natAbs ≤ ((u'.length : Int) - b.length).natAbs ∧
        (((u.length : Int) - b.length).natAbs = ((u'.length : Int) - b.length).natAbs → u' = u)) := by
  obtain ⟨side, pos, u, v, e1, e2, hp, fit, close⟩ := hintedPointN_spec sw hr hs hn (key x)
  rw [e2] at hx hn
  obtain ⟨h', e, r, _⟩ := link_at hp hx hx0 hn
  refine ⟨h', u, v, by simp [insertAt, e1, e], e2, r, ?_, ?_⟩
  · rw [e2] at hs
    obtain ⟨s1, s2, s3⟩ := List.pairwise_append.1 hs
    refine List.pairwise_append.2 ⟨s1, List.pairwise_cons.2 ⟨fun c hc => fit.2 c hc, s2⟩, fun c hc d hd' => ?_⟩
    rcases List.mem_cons.1 hd' with rfl | hd'
    · exact fit.1 c hc
    · exact s3 c hc d hd'
  · intro u' v' e3 hs'
    obtain ⟨s1, s2, s3⟩ := List.pairwise_append.1 hs'
    have g1 : ∀ c ∈ u', lt (key x) (key c) = false := fun c hc => s3 c hc x (by simp)
    have g2 : ∀ c ∈ v', lt (key c) (key x) = false := fun c hc => (List.pairwise_cons.1 s2).1 c hc
    have ee : u ++ v = u' ++ v' := by rw [← e2, e3]
    have hlen : u'.length = u.length → u' = u := fun hl => (List.append_inj ee hl.symm).1.symm
    rcases close with ⟨rfl, rfl⟩ | ⟨c1, c2⟩ | ⟨c1, c2⟩
    · refine ⟨by simp, fun hh => hlen (by omega)⟩
    · have : u.length ≤ u'.length := by
        by_contra hlt
        rcases List.append_eq_append_iff.1 ee with ⟨w, rfl, q⟩ | ⟨w, q1, q2⟩
        · simp at hlt
        · cases w with
          | nil => simp at q1; subst q1; simp at hlt
          | cons c w =>
            have := c2 c (by rw [q1]; simp)
            rw [g2 c (by rw [q2]; simp)] at this; cases this
      refine ⟨by omega, fun hh => hlen (by omega)⟩
    · have : u'.length ≤ u.length := by
        by_contra hlt
        rcases List.append_eq_append_iff.1 ee with ⟨w, rfl, q⟩ | ⟨w, q1, q2⟩
        · cases w with
          | nil => simp at hlt
          | cons c w =>
            have := c2 c (by rw [q]; simp)
            rw [g1 c (by simp)] at this; cases this
        · rw [q1] at hlt; simp at hlt
      refine ⟨by omega, fun hh => hlen (by omega)⟩

/-- The elements of a unique index have pairwise different keys. -/
def UniqueBy (key : Id → K) (lt : K → K → Bool) (xs : List Id) : Prop := xs.Pairwise (fun a b => lt (key a) (key b) = true)

/-- C14: insertion in a unique index, whatever the hint (`none`: no hint; otherwise an element or `end()`): the
element is rejected, and the equivalent element reported, exactly if there is one; otherwise it goes to its sorted place. The
outcome does not depend on the hint. -/
theorem C14_insert_unique (sw : StrictWeak lt) (hr : Rep h hd xs) (hs : UniqueBy key lt xs) (hx : x ∉ hd :: xs) (hx0 : x ≠ 0)
    (hn : xs.length + 3 ≤ n) (hint : Option Id) (hh : ∀ q, hint = some q → q ∈ xs ++ [hd]) :
    ∃ h' p, insertAt n h hd x (pointU key lt n h hd (key x) hint) = some (h', p) ∧
      p = (xs.find? (fun a => equivOf lt (key a) (key x))).getD x ∧
      Rep h' hd (if xs.any (fun a => equivOf lt (key a) (key x)) then xs
        else xs.filter (fun a => lt (key a) (key x)) ++ x :: xs.filter (fun a => lt (key x) (key a))) := by
  have hss : SortedBy key lt xs := hs.imp (fun h => sw.asymm h)
  have hU : UniquePoint key lt h hd xs (key x) (pointU key lt n h hd (key x) hint) := by
    cases hint with
    | none => exact linkPointU_spec sw hr hss hn (key x)
    | some q =>
      rcases List.mem_append.1 (hh q rfl) with hq | hq
      · obtain ⟨b, a, rfl⟩ := List.append_of_mem hq
        exact hintedPointU_spec sw hr hss hn (key x)
      · simp at hq; subst hq
        have := hintedPointU_spec (b := xs) (a := []) sw (by simpa using hr) (by simpa using hss) (by simpa using hn) (key x)
        rw [List.append_nil] at this
        exact this
  generalize pointU key lt n h hd (key x) hint = r at hU ⊢
  rcases hU with ⟨side, pos, u, v, rfl, rfl, hp, hu, hv⟩ | ⟨p, hpm, rfl, hpe⟩
  · obtain ⟨h', e, rr, _⟩ := link_at hp hx hx0 hn
    have f0 : ∀ a ∈ u ++ v, equivOf lt (key a) (key x) = false := by
      intro a ha
      rcases List.mem_append.1 ha with ha | ha
      · simp [equivOf, hu a ha]
      · simp [equivOf, hv a ha]
    refine ⟨h', x, by simp [insertAt, e], ?_, ?_⟩
    · rw [List.find?_eq_none.2 (fun a ha => by simp [f0 a ha])]; rfl
    · rw [if_neg (by simp only [List.any_eq_true, not_exists, not_and]; intro a ha; simp [f0 a ha])]
      have f1 : (u ++ v).filter (fun a => lt (key a) (key x)) = u := by
        rw [List.filter_append, List.filter_eq_self.2 (fun a ha => by simp [hu a ha]),
          List.filter_eq_nil_iff.2 (fun a ha => by simp [sw.asymm (hv a ha)])]
        simp
      have f2 : (u ++ v).filter (fun a => lt (key x) (key a)) = v := by
        rw [List.filter_append, List.filter_eq_nil_iff.2 (fun a ha => by simp [sw.asymm (hu a ha)]),
          List.filter_eq_self.2 (fun a ha => by simp [hv a ha])]
        simp
      rw [f1, f2]; exact rr
  · refine ⟨h, p, rfl, ?_, ?_⟩
    · -- the equivalent element is unique
      cases hf : xs.find? (fun a => equivOf lt (key a) (key x)) with
      | none => have := List.find?_eq_none.1 hf p hpm; rw [hpe] at this; simp at this
      | some q =>
        have hq := List.find?_some hf
        have hqm := List.mem_of_find?_eq_some hf
        simp only [Option.getD_some]
        by_contra hne
        have hq2 : equivOf lt (key x) (key q) = true := by rw [StrictWeak.equiv_symm]; exact hq
        have := StrictWeak.equiv_iff.1 (sw.equiv_trans hpe hq2)
        have h2 : lt (key p) (key q) = true ∨ lt (key q) (key p) = true := by
          obtain ⟨u, v, rfl⟩ := List.append_of_mem hpm
          obtain ⟨_, s2, s3⟩ := List.pairwise_append.1 hs
          rcases List.mem_append.1 hqm with hq3 | hq3
          · right; exact s3 q hq3 p (by simp)
          · rcases List.mem_cons.1 hq3 with rfl | hq3
            · exact absurd rfl hne
            · left; exact (List.pairwise_cons.1 s2).1 q hq3
        rcases h2 with h2 | h2
        · rw [this.1] at h2; cases h2
        · rw [this.2] at h2; cases h2
    · rw [if_pos (List.any_eq_true.2 ⟨p, hpm, hpe⟩)]; exact hr

example : ∃ h', insertAt 20 exTree 100 9 (hintedPointN exKey natLt 20 exTree 100 20 3) = some (h', 9) ∧
    increment h' 20 2 = some 9 ∧ increment h' 20 9 = some 3 := by
  refine ⟨((insertAt 20 exTree 100 9 (hintedPointN exKey natLt 20 exTree 100 20 3)).getD (exTree, 0)).1, ?_⟩
  refine ⟨?_, by decide +kernel, by decide +kernel⟩
  have h1 : (insertAt 20 exTree 100 9 (hintedPointN exKey natLt 20 exTree 100 20 3)).map (·.2) = some 9 := by decide +kernel
  cases h2 : insertAt 20 exTree 100 9 (hintedPointN exKey natLt 20 exTree 100 20 3) with
  | none => rw [h2] at h1; cases h1
  | some p => rw [h2] at h1; simp at h1; obtain ⟨a, b⟩ := p; subst h1; rfl

/-- The hypotheses of C14 hold for the example: element 9 (key 70) is new, and elements 1 2 5 6 7 8 of it would be a unique index. -/
example : Rep exTree 100 ([1, 2] ++ [3, 4, 5, 6, 7, 8]) ∧ 9 ∉ 100 :: [1, 2, 3, 4, 5, 6, 7, 8] ∧
    UniqueBy (fun x => x) natLt [1, 2, 3, 4, 5, 6, 7, 8] := ⟨exTree_rep, by decide, by unfold UniqueBy; decide +kernel⟩

end Insert

/-! ## C15: balance -/

/-- C15: the tree of an ordered index is red-black and its height is at most `2*log2(size+1)`. -/
theorem C15_height {h : Heap} {hd : Id} {xs : List Id} (hr : Rep h hd xs) :
    ∃ t, RepT h hd t ∧ t.ids = xs ∧ RBTree t ∧ t.height ≤ 2 * Nat.log2 (xs.length + 1) := by
  obtain ⟨t, R, hb, hs, rfl⟩ := hr
  exact ⟨t, R, rfl, hb, rb_height hb⟩

/-- C15: after every history of linkings, unlinkings and restorations starting from an empty index, the tree is red-black and of
logarithmic height, and no operation runs out of its loops. -/
theorem C15_history {h0 : Heap} {hd : Id} (h0' : hd ≠ 0) {n : Nat} (ops : List Op) (hn : ops.length + 3 ≤ n)
    (hv : Valid n hd ops (emptyInit h0 hd) []) :
    ∃ h t, run n hd ops (emptyInit h0 hd) = some h ∧ RepT h hd t ∧ t.ids = ops.foldl effect [] ∧ RBTree t ∧
      t.height ≤ 2 * Nat.log2 (t.ids.length + 1) := by
  obtain ⟨h, e, r⟩ := run_effects ops (emptyInit_rep h0 h0') (by simpa using hn) hv
  obtain ⟨t, R, ei, hb, hh⟩ := C15_height r
  exact ⟨h, t, e, R, ei, hb, by rw [ei]; exact hh⟩

example : Valid 40 100 exOps exHeap [] ∧ exOps.foldl effect [] = [1, 2, 3, 4, 5, 6, 7, 8] := ⟨exOps_valid, by decide +kernel⟩

/-! ## C16: tree surgery -/

/-- C16: linking `x` as left child of the element `pos` puts it just before `pos`. -/
theorem C16_link_left {h : Heap} {hd x pos : Id} {u v : List Id} {n : Nat} (hr : Rep h hd (u ++ pos :: v)) (hl : h.left pos = 0)
    (hx : x ∉ hd :: (u ++ pos :: v)) (hx0 : x ≠ 0) (hn : (u ++ pos :: v).length + 3 ≤ n) :
    ∃ h', link n h x .left pos hd = some h' ∧ Rep h' hd (u ++ x :: pos :: v) ∧ Frame h h' (hd :: x :: (u ++ pos :: v)) :=
  link_at (pointAt_left hr hl) hx hx0 hn

/-- C16: linking `x` as right child of the element `pos` puts it just after `pos`. -/
theorem C16_link_right {h : Heap} {hd x pos : Id} {u v : List Id} {n : Nat} (hr : Rep h hd (u ++ pos :: v)) (hl : h.right pos = 0)
    (hx : x ∉ hd :: (u ++ pos :: v)) (hx0 : x ≠ 0) (hn : (u ++ pos :: v).length + 3 ≤ n) :
    ∃ h', link n h x .right pos hd = some h' ∧ Rep h' hd (u ++ pos :: x :: v) ∧ Frame h h' (hd :: x :: (u ++ pos :: v)) := by
  have := link_at (N := n) (pointAt_right hr hl) (x := x) (by simpa using hx) hx0 (by simpa using hn)
  simpa using this

/-- C16: linking into an empty index. -/
theorem C16_link_first {h : Heap} {hd x : Id} {n : Nat} (hr : Rep h hd []) (hx : x ≠ hd) (hx0 : x ≠ 0) (hn : 3 ≤ n) :
    ∃ h', link n h x .left hd hd = some h' ∧ Rep h' hd [x] ∧ Frame h h' [hd, x] :=
  link_at (pointAt_empty hr) (by simpa using hx) hx0 (by simpa using hn)

/-- C16: unlinking removes exactly that node. -/
theorem C16_extract {h : Heap} {hd x : Id} {u v : List Id} {n : Nat} (hr : Rep h hd (u ++ x :: v)) (hn : (u ++ x :: v).length + 3 ≤ n) :
    ∃ h', extract n h hd x = some h' ∧ Rep h' hd (u ++ v) ∧ Frame h h' (hd :: (u ++ x :: v)) := rep_extract hr hn

/-- C16: unlinking a node and restoring it before its former successor gives back the original sequence. -/
theorem C16_restore {h : Heap} {hd x : Id} {u v : List Id} {n : Nat} (hr : Rep h hd (u ++ x :: v)) (hn : (u ++ x :: v).length + 3 ≤ n) :
    ∃ next h1 h2, increment h n x = some next ∧ extract n h hd x = some h1 ∧ restore n h1 x next hd = some h2 ∧
      Rep h2 hd (u ++ x :: v) ∧ Frame h h2 (hd :: (u ++ x :: v)) := by
  obtain ⟨h1, e1, r1, f1⟩ := rep_extract hr hn
  have hnd := rep_nodup hr
  have hx0 : x ≠ 0 := fun e => rep_nz hr (by simp [e])
  have hxn : x ∉ hd :: (u ++ v) := by
    intro hm
    have : (x :: hd :: (u ++ v)).Nodup := by
      refine (List.Perm.nodup_iff ?_).1 hnd
      refine (List.Perm.trans (List.Perm.cons hd ?_) (List.Perm.swap x hd _))
      exact List.perm_middle
    exact (List.nodup_cons.1 this).1 hm
  obtain ⟨h2, e2, r2, f2⟩ := restore_spec r1 hxn hx0 (N := n) (by simp at hn ⊢; omega)
  refine ⟨hdOr hd v, h1, h2, increment_spec hr hn, e1, e2, r2, ?_⟩
  intro z hz
  have a := f1 z hz
  have b := f2 z (by simp at hz ⊢; tauto)
  exact ⟨b.1.trans a.1, b.2.1.trans a.2.1, b.2.2.1.trans a.2.2.1, b.2.2.2.1.trans a.2.2.2.1, b.2.2.2.2.trans a.2.2.2.2⟩

/-- C16: `begin()` (`header->left`) is the first element, `header->right` the last; both the header itself in an empty index. -/
theorem C16_ends {h : Heap} {hd : Id} {xs : List Id} (hr : Rep h hd xs) : h.left hd = hdOr hd xs ∧ h.right hd = xs.getLastD hd :=
  ⟨rep_first hr, rep_last hr⟩

/-- C16: every legal history runs to completion and has exactly the specified effect on the sequence. -/
theorem C16_history {h : Heap} {hd : Id} {xs : List Id} {n : Nat} (hr : Rep h hd xs) (ops : List Op) (hn : xs.length + ops.length + 3 ≤ n)
    (hv : Valid n hd ops h xs) : ∃ h', run n hd ops h = some h' ∧ Rep h' hd (ops.foldl effect xs) := run_effects ops hr hn hv

example : exTree.left 100 = 1 ∧ exTree.right 100 = 8 ∧ exTree.parent 100 ≠ 0 ∧ exTree.left 1 = 0 := by decide +kernel

/-! ## C17: iterators -/

/-- C17: `++it` is the next element, or `end()` after the last. -/
theorem C17_increment {h : Heap} {hd x : Id} {u v : List Id} {n : Nat} (hr : Rep h hd (u ++ x :: v)) (hn : (u ++ x :: v).length + 3 ≤ n) :
    increment h n x = some (hdOr hd v) := increment_spec hr hn

/-- C17: `--it` is the previous element, from every position but the first; from `end()` it is the last element. -/
theorem C17_decrement {h : Heap} {hd x : Id} {u v : List Id} {n : Nat} (hr : Rep h hd (u ++ x :: v)) (hn : (u ++ x :: v).length + 3 ≤ n) :
    decrement h n (hdOr hd v) = some x := by
  cases v with
  | nil =>
    rw [show hdOr hd [] = hd from rfl, decrement_end hr (by simp), List.getLastD_concat]
  | cons b v =>
    have hr' : Rep h hd ((u ++ [x]) ++ b :: v) := by simpa using hr
    rw [show hdOr hd (b :: v) = b from rfl, decrement_spec hr' (by simp) (by simp at hn ⊢; omega), List.getLastD_concat]

example : increment exTree 11 8 = some 100 ∧ decrement exTree 11 100 = some 8 ∧ increment exTree 11 4 = some 5 := by decide +kernel

/-! ## C18, C19: ranked indices -/

section Ranked
variable {K CK : Type} {key : Id → K} {lt : K → K → Bool} {ltk : K → CK → Bool} {gtk : CK → K → Bool}
variable {h : Heap} {hd : Id} {xs : List Id} {n : Nat}

/-- C18: `nth(i)` is the `i`-th element, `end()` if there are not so many. -/
theorem C18_nth (hr : Rep h hd xs) (hn : 2 * Nat.log2 (xs.length + 1) + 2 ≤ n) (i : Nat) : nth n h hd i = some (xs.getD i hd) := by
  rw [nth_spec hr hn i]
  congr 1
  split
  · rename_i hi; simp [List.getD, hi]
  · rename_i hi; rw [List.getD, List.getElem?_eq_none (by omega)]; rfl

/-- C18: `rank(it)` is the number of elements before `it`. -/
theorem C18_rank {x : Id} {u v : List Id} (hr : Rep h hd (u ++ x :: v)) (hn : 2 * Nat.log2 ((u ++ x :: v).length + 1) + 2 ≤ n) :
    rank n h hd x = some u.length := rank_spec hr hn

/-- C18: `rank(end())` is the size. -/
theorem C18_rank_end (hr : Rep h hd xs) : rank n h hd hd = some xs.length := rank_end hr

/-- C18: `nth(rank(it))==it` for every position, `end()` included. -/
theorem C18_inverse (hr : Rep h hd xs) (hn : 2 * Nat.log2 (xs.length + 1) + 2 ≤ n) (x : Id) (hx : x ∈ xs ++ [hd]) :
    ∃ i, rank n h hd x = some i ∧ nth n h hd i = some x := by
  rcases List.mem_append.1 hx with hx | hx
  · obtain ⟨u, v, rfl⟩ := List.append_of_mem hx
    refine ⟨u.length, rank_spec hr hn, ?_⟩
    rw [C18_nth hr hn]; simp [List.getD]
  · simp at hx; subst hx
    refine ⟨xs.length, rank_end hr, ?_⟩
    rw [C18_nth hr hn]; simp [List.getD]

/-- C18: ranks stay exact after every history of linkings, unlinkings and restorations. -/
theorem C18_history {h0 : Heap} (h0' : hd ≠ 0) (ops : List Op) (hn : ops.length + 3 ≤ n) (hv : Valid n hd ops (emptyInit h0 hd) []) :
    ∃ h, run n hd ops (emptyInit h0 hd) = some h ∧
      (∀ m, 2 * Nat.log2 ((ops.foldl effect []).length + 1) + 2 ≤ m → ∀ i, nth m h hd i = some ((ops.foldl effect []).getD i hd)) ∧
      (∀ m, 2 * Nat.log2 ((ops.foldl effect []).length + 1) + 2 ≤ m → ∀ u x v, ops.foldl effect [] = u ++ x :: v →
        rank m h hd x = some u.length) := by
  obtain ⟨h, e, r⟩ := run_effects ops (emptyInit_rep h0 h0') (by simpa using hn) hv
  refine ⟨h, e, fun m hm i => C18_nth r hm i, fun m hm u x v hu => ?_⟩
  rw [hu] at r hm
  exact rank_spec r hm

/-- C19: `lower_bound_rank` is the number of elements less than `x`, hence the rank of `lower_bound(x)`. -/
theorem C19_lower_bound_rank (hr : Rep h hd xs) (hs : SortedBy key lt xs) (ce : CompatExt lt ltk gtk)
    (hn : 2 * Nat.log2 (xs.length + 1) + 2 ≤ n) (x : CK) :
    lowerBoundRank key ltk n h hd x = some (xs.countP (fun a => ltk (key a) x)) := by
  obtain ⟨u, m, v, e, hu, hm, hv⟩ := compat_split ce hs x
  unfold lowerBoundRank
  rw [boundRank_on hr hn e (fun a ha => by simp [(hu a ha).1]) (fun a ha => by
    rcases List.mem_append.1 ha with ha | ha
    · simp [(hm a ha).1]
    · simp [(hv a ha).1])]
  rw [e, List.countP_append, List.countP_append, List.countP_eq_length.2 (fun a ha => (hu a ha).1),
    List.countP_eq_zero.2 (fun a ha => by simp [(hm a ha).1]), List.countP_eq_zero.2 (fun a ha => by simp [(hv a ha).1])]
  simp

/-- C19: `upper_bound_rank` is the number of elements not greater than `x`. -/
theorem C19_upper_bound_rank (hr : Rep h hd xs) (hs : SortedBy key lt xs) (ce : CompatExt lt ltk gtk)
    (hn : 2 * Nat.log2 (xs.length + 1) + 2 ≤ n) (x : CK) :
    upperBoundRank key gtk n h hd x = some (xs.countP (fun a => !gtk x (key a))) := by
  obtain ⟨u, m, v, e, hu, hm, hv⟩ := compat_split ce hs x
  unfold upperBoundRank
  rw [boundRank_on hr hn (u := u ++ m) (by simpa using e) (fun a ha => by
    rcases List.mem_append.1 ha with ha | ha
    · exact (hu a ha).2
    · exact (hm a ha).2) (fun a ha => (hv a ha).2)]
  rw [e, List.countP_append, List.countP_append, List.countP_eq_length.2 (fun a ha => by simp [(hu a ha).2]),
    List.countP_eq_length.2 (fun a ha => by simp [(hm a ha).2]), List.countP_eq_zero.2 (fun a ha => by simp [(hv a ha).2])]
  simp

/-- C19: `equal_range_rank` gives both. -/
theorem C19_equal_range_rank (hr : Rep h hd xs) (hs : SortedBy key lt xs) (ce : CompatExt lt ltk gtk)
    (hn : 2 * Nat.log2 (xs.length + 1) + 2 ≤ n) (x : CK) :
    equalRangeRank key ltk gtk n h hd x =
      some (xs.countP (fun a => ltk (key a) x), xs.countP (fun a => !gtk x (key a))) := by
  by_cases hx : xs = []
  · subst hx
    unfold equalRangeRank
    simp only
    rw [if_pos ((rep_root hr).2 rfl)]; rfl
  · obtain ⟨u, m, v, e, hu, hm, hv⟩ := compat_split ce hs x
    obtain ⟨hr0, hsz⟩ := root_size hr hx
    unfold equalRangeRank
    simp only
    rw [if_neg hr0, hsz, rangeRank_on hr hx hn e (fun a ha => by simp [(hu a ha).1]) (fun a ha => by simp [hm a ha]) (fun a ha => by simp [hv a ha])]
    rw [e]
    simp only [List.countP_append]
    rw [List.countP_eq_length.2 (fun a ha => (hu a ha).1),
      List.countP_eq_zero.2 (fun a ha => by simp [(hm a ha).1]), List.countP_eq_zero.2 (fun a ha => by simp [(hv a ha).1]),
      List.countP_eq_length.2 (fun a ha => by simp [(hu a ha).2]),
      List.countP_eq_length.2 (fun a ha => by simp [(hm a ha).2]), List.countP_eq_zero.2 (fun a ha => by simp [(hv a ha).2])]
    simp

/-- C19: `count` of a ranked index is the number of equivalent elements. -/
theorem C19_count (hr : Rep h hd xs) (hs : SortedBy key lt xs) (ce : CompatExt lt ltk gtk)
    (hn : 2 * Nat.log2 (xs.length + 1) + 2 ≤ n) (x : CK) :
    countRanked key ltk gtk n h hd x = some (xs.countP (fun a => equivTo ltk gtk x (key a))) := by
  unfold countRanked
  rw [C19_equal_range_rank hr hs ce hn x]
  simp only [Option.map_some, Option.some.injEq]
  obtain ⟨u, m, v, e, hu, hm, hv⟩ := compat_split ce hs x
  have c1 : xs.countP (fun a => ltk (key a) x) = u.length := by
    rw [e, List.countP_append, List.countP_append, List.countP_eq_length.2 (fun a ha => (hu a ha).1),
      List.countP_eq_zero.2 (fun a ha => by simp [(hm a ha).1]), List.countP_eq_zero.2 (fun a ha => by simp [(hv a ha).1])]
    simp
  have c2 : xs.countP (fun a => !gtk x (key a)) = u.length + m.length := by
    rw [e, List.countP_append, List.countP_append, List.countP_eq_length.2 (fun a ha => by simp [(hu a ha).2]),
      List.countP_eq_length.2 (fun a ha => by simp [(hm a ha).2]), List.countP_eq_zero.2 (fun a ha => by simp [(hv a ha).2])]
    simp
  have c3 : xs.countP (fun a => equivTo ltk gtk x (key a)) = m.length := by
    rw [e, List.countP_append, List.countP_append, List.countP_eq_zero.2 (fun a ha => by simp [equivTo, (hu a ha).1]),
      List.countP_eq_length.2 (fun a ha => by simp [equivTo, hm a ha]), List.countP_eq_zero.2 (fun a ha => by simp [equivTo, (hv a ha).2])]
    simp
  rw [c1, c2, c3]; omega

/-- C19: `find_rank` is the rank of `find`: the number of elements before the first equivalent one, or the size. -/
theorem C19_find_rank (hr : Rep h hd xs) (hs : SortedBy key lt xs) (ce : CompatExt lt ltk gtk)
    (hn : 2 * Nat.log2 (xs.length + 1) + 2 ≤ n) (x : CK) :
    findRank key ltk gtk n h hd x = some (xs.findIdx (fun a => equivTo ltk gtk x (key a))) := by
  by_cases hx : xs = []
  · subst hx
    unfold findRank
    simp only
    rw [if_pos ((rep_root hr).2 rfl)]; rfl
  · obtain ⟨u, m, v, e, hu, hm, hv⟩ := compat_split ce hs x
    obtain ⟨hr0, hsz⟩ := root_size hr hx
    have h1 : ∀ a ∈ u, (!ltk (key a) x) = false := fun a ha => by simp [(hu a ha).1]
    have h2 : ∀ a ∈ m ++ v, (!ltk (key a) x) = true := fun a ha => by
      rcases List.mem_append.1 ha with ha | ha
      · simp [(hm a ha).1]
      · simp [(hv a ha).1]
    have hnd := rep_nodup hr
    unfold findRank
    simp only
    rw [if_neg hr0, hsz, rankLoop_on hr hx hn e h1 h2]
    simp only [Option.some.injEq]
    have hidx : ∀ (p : Id → Bool) (w : List Id), (∀ a ∈ u, p a = false) → (u ++ w).findIdx p = u.length + w.findIdx p := by
      intro p w hp
      rw [List.findIdx_append]
      have : u.findIdx p = u.length := List.findIdx_eq_length.2 (fun a ha => by simp [hp a ha])
      rw [if_neg (by omega)]; omega
    rw [e, hidx _ _ (fun a ha => by simp [equivTo, (hu a ha).1])]
    cases m with
    | cons a m =>
      have ha := hm a (by simp)
      have hah : a ≠ hd := by rintro rfl; rw [e] at hnd; simp at hnd
      have e4 : hdOr hd (a :: m ++ v) = a := rfl
      rw [e4, if_neg (by rintro (q | q); exact hah q; rw [ha.2] at q; cases q)]
      simp [List.findIdx_cons, equivTo, ha.1, ha.2]
    | nil =>
      have e4 : (([] : List Id) ++ v).findIdx (fun a => equivTo ltk gtk x (key a)) = v.length :=
        List.findIdx_eq_length.2 (by intro a ha; simp [equivTo, (hv a ha).2])
      rw [e4]
      cases v with
      | nil => rw [if_pos (Or.inl (show hdOr hd ([] ++ []) = hd from rfl))]; simp
      | cons b v =>
        have e5 : hdOr hd ([] ++ b :: v) = b := rfl
        rw [e5, if_pos (Or.inr (hv b (by simp)).2)]; simp

/-- C19: `range_rank(lower,upper)` are the ranks of the positions `range(lower,upper)` returns. -/
theorem C19_range_rank (hr : Rep h hd xs) (hs : SortedBy key lt xs) (hn : 2 * Nat.log2 (xs.length + 1) + 2 ≤ n)
    (lower upper : Option (K → Bool)) (hlo : ∀ p, lower = some p → LowerBounder lt p) (hup : ∀ p, upper = some p → UpperBounder lt p) :
    ∃ u m v, xs = u ++ m ++ v ∧ m = xs.filter (fun a => holds lower (key a) && holds upper (key a)) ∧
      range key lower upper n h hd = some (hdOr hd (m ++ v), hdOr hd v) ∧
      rangeRank key lower upper n h hd xs.length = some (u.length, u.length + m.length) ∧
      (∀ a ∈ u, holds lower (key a) = false) ∧ ∀ a ∈ m ++ v, holds lower (key a) = true := by
  have triv1 : LowerBounder lt (fun _ : K => true) := fun _ _ _ _ => rfl
  have triv2 : UpperBounder lt (fun _ : K => true) := fun _ _ _ _ => rfl
  have key1 : ∀ (p : Id → Bool) (u m v : List Id), xs = u ++ (m ++ v) → (∀ a ∈ u, p a = false) → (∀ a ∈ m, p a = true) → (∀ a ∈ v, p a = false) →
      m = xs.filter p := by
    intro p u m v e hu hm hv
    rw [e, List.filter_append, List.filter_append, List.filter_eq_nil_iff.2, List.filter_eq_self.2, List.filter_eq_nil_iff.2]
    · simp
    · intro a ha; simp [hv a ha]
    · exact hm
    · intro a ha; simp [hu a ha]
  cases lower with
  | some lo =>
    cases upper with
    | some up =>
      obtain ⟨u, m, v, e, hu, hm, hv⟩ := bound_split (hlo lo rfl) (hup up rfl) hs
      refine ⟨u, m, v, by simpa using e, key1 _ u m v e ?_ ?_ ?_, ?_, ?_, fun a ha => hu a ha,
        fun a ha => (List.mem_append.1 ha).elim (fun q => (hm a q).1) (fun q => (hv a q).1)⟩
      · intro a ha; simp [holds, hu a ha]
      · intro a ha; simp [holds, hm a ha]
      · intro a ha; simp [holds, hv a ha]
      · unfold range
        exact range_on hr hn e (fun a ha => by simp [hu a ha]) (fun a ha => by simp [hm a ha]) (fun a ha => by simp [hv a ha])
      · unfold rangeRank
        simp only
        by_cases hx : xs = []
        · rw [if_pos ((rep_root hr).2 hx)]
          rw [hx] at e
          have := e.symm
          simp only [List.append_eq_nil_iff] at this
          obtain ⟨rfl, rfl, rfl⟩ := this
          rfl
        · obtain ⟨hr0, hsz⟩ := root_size hr hx
          rw [if_neg hr0, hsz, rangeRank_on hr hx hn e (fun a ha => by simp [hu a ha]) (fun a ha => by simp [hm a ha]) (fun a ha => by simp [hv a ha])]
          simp
    | none =>
      obtain ⟨u, m, v, e, hu, hm, hv⟩ := bound_split (hlo lo rfl) triv2 hs
      have : v = [] := by
        cases v with
        | nil => rfl
        | cons b v => simpa using (hv b (by simp)).2
      subst this
      refine ⟨u, m, [], by simpa using e, key1 _ u m [] e ?_ ?_ (by simp), ?_, ?_, fun a ha => hu a ha, fun a ha => (hm a (by simpa using ha)).1⟩
      · intro a ha; simp [holds, hu a ha]
      · intro a ha; simp [holds, hm a ha]
      · unfold range
        simp only
        rw [bound_on hr hn (v := m) (by simpa using e) hu (fun a ha => (hm a ha).1)]
        simp [hdOr]
      · unfold rangeRank
        simp only
        rw [boundRank_on hr hn (v := m) (by simpa using e) hu (fun a ha => (hm a ha).1)]
        simp [e]
  | none =>
    cases upper with
    | some up =>
      obtain ⟨u, m, v, e, hu, hm, hv⟩ := bound_split triv1 (hup up rfl) hs
      have : u = [] := by
        cases u with
        | nil => rfl
        | cons b v => simpa using hu b (by simp)
      subst this
      refine ⟨[], m, v, by simpa using e, key1 _ [] m v e (by simp) ?_ ?_, ?_, ?_, fun a ha => absurd ha List.not_mem_nil, fun _ _ => rfl⟩
      · intro a ha; simp [holds, hm a ha]
      · intro a ha; simp [holds, hv a ha]
      · unfold range
        simp only
        rw [bound_on hr hn (u := m) (v := v) (by simpa using e) (fun a ha => by simp [(hm a ha).2]) (fun a ha => by simp [(hv a ha).2]),
          rep_first hr]
        simp [e]
      · unfold rangeRank
        simp only
        rw [boundRank_on hr hn (u := m) (v := v) (by simpa using e) (fun a ha => by simp [(hm a ha).2]) (fun a ha => by simp [(hv a ha).2])]
        simp
    | none =>
      refine ⟨[], xs, [], by simp, by simp [holds], ?_, ?_, fun a ha => absurd ha List.not_mem_nil, fun _ _ => rfl⟩
      · unfold range
        simp only
        rw [rep_first hr]; simp [hdOr]
      · simp [rangeRank]

example : nth 8 exTree 100 4 = some 5 ∧ nth 8 exTree 100 8 = some 100 ∧ rank 8 exTree 100 5 = some 4 ∧ rank 8 exTree 100 100 = some 8 ∧
    countRanked exKey natLt natLt 8 exTree 100 20 = some 3 ∧ findRank exKey natLt natLt 8 exTree 100 30 = some 4 ∧
    equalRangeRank exKey natLt natLt 8 exTree 100 20 = some (1, 4) ∧
    rangeRank exKey (some (fun k => decide (20 < k))) (some (fun k => decide (k ≤ 50))) 8 exTree 100 8 = some (4, 7) := by decide +kernel

end Ranked

/-! ## C45: colour and parent in one word -/

/-- One update of a node's word: of its parent pointer or of its colour. -/
inductive BitOp (w : Nat) where
  | parent (p : BitVec w)
  | color (c : Color)

/-- The word after an update. -/
def BitOp.word {w : Nat} (r : BitVec w) : BitOp w → BitVec w
  | .parent p => putParent r p
  | .color c => putColor r c

/-- Parent and colour after an update of separate fields. -/
def BitOp.fields {w : Nat} (s : BitVec w × Color) : BitOp w → BitVec w × Color
  | .parent p => (p, s.2)
  | .color c => (s.1, c)

/-- Addresses of nodes are even (the compressed representation is used only then: ord_index_node.hpp:229-241). -/
def BitOp.Even {w : Nat} : BitOp w → Prop
  | .parent p => p &&& 1#w = 0#w
  | .color _ => True

/-- C45: setting the colour or the parent of a word changes what is read back of this one only. -/
theorem C45_step {w : Nat} (hw : 0 < w) (r : BitVec w) (op : BitOp w) (he : op.Even) :
    (getParent (op.word r), getColor (op.word r)) = op.fields (getParent r, getColor r) := by
  cases op with
  | parent p =>
    have hp := even_bit hw he
    simp only [BitOp.word, BitOp.fields, Prod.mk.injEq, getColor_bit hw]
    constructor
    · apply bit_ext
      intro i hi
      by_cases h0 : i = 0
      · subst h0; simp [getParent, putParent, hp]
      · simp [getParent, putParent, h0, hi]
    · have h1 : (1#w).getLsbD 0 = true := by simp [hw]
      rw [putParent, BitVec.getLsbD_or, hp, Bool.false_or, BitVec.getLsbD_and, h1, Bool.and_true]
  | color c =>
    simp only [BitOp.word, BitOp.fields, Prod.mk.injEq, getColor_bit hw]
    constructor
    · apply bit_ext
      intro i hi
      by_cases h0 : i = 0
      · subst h0; simp [getParent, putColor]
      · cases c <;> simp [getParent, putColor, h0, hi, Color.toBits]
    · cases c <;> simp [putColor, hw, Color.toBits]

/-- C45: after every sequence of updates, the word reads back exactly the last parent and the last colour stored. -/
theorem C45_color_bit {w : Nat} (hw : 0 < w) (ops : List (BitOp w)) (he : ∀ op ∈ ops, op.Even) (r : BitVec w) :
    (getParent (ops.foldl BitOp.word r), getColor (ops.foldl BitOp.word r)) = ops.foldl BitOp.fields (getParent r, getColor r) := by
  induction ops generalizing r with
  | nil => rfl
  | cons op ops ih =>
    simp only [List.foldl_cons]
    rw [ih (fun o ho => he o (by simp [ho])), C45_step hw r op (he op (by simp))]

example : (BitOp.parent (0x7f3a10#64)).Even ∧
    getParent (putColor (putParent (0#64) 0x7f3a10#64) .black) = 0x7f3a10#64 ∧
    getColor (putParent (putColor (0#64) .black) 0x7f3a10#64) = .black := by
  refine ⟨?_, ?_, ?_⟩
  · unfold BitOp.Even; decide +kernel
  · decide +kernel
  · decide +kernel

end MI.Ord
