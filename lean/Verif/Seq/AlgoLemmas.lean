import Verif.Seq.IndexLemmas
import Verif.Spec.Lists
/-! Helper lemmas: remove_if, unique, merge on the sequenced index. -/
namespace MI.Seq
open MI

/-- List level `remove_if`: success flag, what stays, what is erased. -/
def removeL (pred : Nat → Id → Option Bool) : Nat → List Id → Bool × List Id × List Id
  | _, [] => (true, [], [])
  | k, x :: xs =>
    match pred k x with
    | none => (false, x :: xs, [])
    | some true => let r := removeL pred (k + 1) xs; (r.1, r.2.1, x :: r.2.2)
    | some false => let r := removeL pred (k + 1) xs; (r.1, x :: r.2.1, r.2.2)

theorem removeGo_spec (pred : Nat → Id → Option Bool) {a : Id} {R : List (Id × List Id)} (xs : List Id) :
    ∀ {h : Heap} {k n : Nat} {dn : List Id}, Fam h ((a, dn ++ xs) :: R) → xs.length ≤ n →
    ∃ h', removeGo pred a n h k (hdOr a xs) = mkOut (removeL pred k xs).1 (h', (removeL pred k xs).2.2) ∧
      Fam h' ((a, dn ++ (removeL pred k xs).2.1) :: R) := by
  induction xs with
  | nil =>
    intro h k n dn hf _
    unfold removeGo
    exact ⟨h, by simp [hdOr, removeL, mkOut], by simpa [removeL] using hf⟩
  | cons x xs ih =>
    intro h k n dn hf hn
    obtain ⟨n, rfl⟩ : ∃ m, n = m + 1 := ⟨n - 1, by simp at hn; omega⟩
    have ha := notMem_hd hf
    have hne : x ≠ a := fun e => ha (by simp [e])
    have hnx := next_in hf
    unfold removeGo
    have hx : hdOr a (x :: xs) = x := rfl
    rw [hx, if_pos hne]
    rcases (Option.eq_none_or_eq_some (pred k x)) with hd | ⟨b, hd⟩
    · exact ⟨h, by simp [hd, removeL, mkOut], by simpa [removeL, hd] using hf⟩
    · cases b with
      | true =>
        obtain ⟨f1, _⟩ := fam_unlink hf
        obtain ⟨h', e', f'⟩ := ih (k := k + 1) (n := n) f1 (by simp at hn; omega)
        refine ⟨h', ?_, by simpa [removeL, hd] using f'⟩
        simp only [hd, hnx, eraseAt, e', removeL]
        cases (removeL pred (k + 1) xs).1 <;> simp [mkOut]
      | false =>
        obtain ⟨h', e', f'⟩ := ih (k := k + 1) (n := n) (dn := dn ++ [x]) (h := h) (by simpa using hf) (by simp at hn; omega)
        refine ⟨h', ?_, by simpa [removeL, hd] using f'⟩
        simp only [hd, hnx, e', removeL]

theorem removeL_pure {pred : Nat → Id → Option Bool} {p : Id → Bool} (hp : ∀ k x, pred k x = some (p x))
    (k : Nat) (xs : List Id) : removeL pred k xs = (true, xs.filter (fun x => !p x), xs.filter p) := by
  induction xs generalizing k with
  | nil => rfl
  | cons x xs ih =>
    simp only [removeL, hp, ih]
    cases hx : p x <;> simp [hx]

theorem removeL_sublist (pred : Nat → Id → Option Bool) (k : Nat) (xs : List Id) :
    (removeL pred k xs).2.1.Sublist xs ∧ ((removeL pred k xs).2.1 ++ (removeL pred k xs).2.2).Perm xs := by
  induction xs generalizing k with
  | nil => simp [removeL]
  | cons x xs ih =>
    obtain ⟨i1, i2⟩ := ih (k + 1)
    simp only [removeL]
    cases pred k x with
    | none => simp
    | some b =>
      cases b with
      | true => exact ⟨i1.cons x, List.perm_middle.trans (i2.cons x)⟩
      | false => exact ⟨i1.cons_cons x, i2.cons x⟩

/-- List level loop of `unique` with current element `f`: success flag, what stays after `f`, what is erased. -/
def uniqueL (pred : Nat → Id → Id → Option Bool) : Nat → Id → List Id → Bool × List Id × List Id
  | _, _, [] => (true, [], [])
  | k, f, x :: xs =>
    match pred k x f with
    | none => (false, x :: xs, [])
    | some true => let r := uniqueL pred (k + 1) f xs; (r.1, r.2.1, x :: r.2.2)
    | some false => let r := uniqueL pred (k + 1) x xs; (r.1, x :: r.2.1, r.2.2)

theorem uniqueGo_spec (pred : Nat → Id → Id → Option Bool) {a : Id} {R : List (Id × List Id)} (xs : List Id) :
    ∀ {h : Heap} {k n : Nat} {dn : List Id} {f : Id}, Fam h ((a, dn ++ f :: xs) :: R) → xs.length ≤ n →
    ∃ h', uniqueGo pred a n h k f = mkOut (uniqueL pred k f xs).1 (h', (uniqueL pred k f xs).2.2) ∧
      Fam h' ((a, dn ++ f :: (uniqueL pred k f xs).2.1) :: R) := by
  induction xs with
  | nil =>
    intro h k n dn f hf _
    have hnx := next_in hf
    unfold uniqueGo
    exact ⟨h, by simp [hnx, hdOr, uniqueL, mkOut], by simpa [uniqueL] using hf⟩
  | cons x xs ih =>
    intro h k n dn f hf hn
    obtain ⟨n, rfl⟩ : ∃ m, n = m + 1 := ⟨n - 1, by simp at hn; omega⟩
    have ha := notMem_hd hf
    have hne : x ≠ a := fun e => ha (by simp [e])
    have hnx := next_in hf
    have hx : hdOr a (x :: xs) = x := rfl
    rw [hx] at hnx
    unfold uniqueGo
    simp only [hnx]
    rw [if_pos hne]
    rcases (Option.eq_none_or_eq_some (pred k x f)) with hd | ⟨b, hd⟩
    · exact ⟨h, by simp [hd, uniqueL, mkOut], by simpa [uniqueL, hd] using hf⟩
    · cases b with
      | true =>
        obtain ⟨f1, _⟩ := fam_unlink (u := dn ++ [f]) (by simpa using hf)
        obtain ⟨h', e', f'⟩ := ih (k := k + 1) (n := n) (dn := dn) (f := f) (by simpa using f1) (by simp at hn; omega)
        refine ⟨h', ?_, by simpa [uniqueL, hd] using f'⟩
        simp only [hd, eraseAt, e', uniqueL]
        cases (uniqueL pred (k + 1) f xs).1 <;> simp [mkOut]
      | false =>
        obtain ⟨h', e', f'⟩ := ih (k := k + 1) (n := n) (dn := dn ++ [f]) (f := x) (h := h) (by simpa using hf) (by simp at hn; omega)
        refine ⟨h', ?_, by simpa [uniqueL, hd] using f'⟩
        simp only [hd, e', uniqueL]

theorem uniqueL_sublist (pred : Nat → Id → Id → Option Bool) (k : Nat) (f : Id) (xs : List Id) :
    (uniqueL pred k f xs).2.1.Sublist xs ∧ ((uniqueL pred k f xs).2.1 ++ (uniqueL pred k f xs).2.2).Perm xs := by
  induction xs generalizing k f with
  | nil => simp [uniqueL]
  | cons x xs ih =>
    simp only [uniqueL]
    cases pred k x f with
    | none => simp
    | some b =>
      cases b with
      | true => obtain ⟨i1, i2⟩ := ih (k + 1) f; exact ⟨i1.cons x, List.perm_middle.trans (i2.cons x)⟩
      | false => obtain ⟨i1, i2⟩ := ih (k + 1) x; exact ⟨i1.cons_cons x, i2.cons x⟩

/-! ### merge -/

/-- Splitting a transferred range: success flag, what moved, what stayed. -/
def transL2 (dec : Id → Option Bool) : List Id → Bool × List Id × List Id
  | [] => (true, [], [])
  | y :: ys =>
    match dec y with
    | none => (false, [], y :: ys)
    | some true => let r := transL2 dec ys; (r.1, y :: r.2.1, r.2.2)
    | some false => let r := transL2 dec ys; (r.1, r.2.1, y :: r.2.2)

/-- List level merge: success flag, what the destination holds, what stays in the source. -/
def mergeL (cmp : Cmp) (dec : Id → Option Bool) : Nat → List Id → List Id → Bool × List Id × List Id
  | _, [], ys => transL2 dec ys
  | _, x :: xs, [] => (true, x :: xs, [])
  | k, x :: xs, y :: ys =>
    match cmp k y x with
    | none => (false, x :: xs, y :: ys)
    | some true =>
      match dec y with
      | none => (false, x :: xs, y :: ys)
      | some true => let r := mergeL cmp dec (k + 1) (x :: xs) ys; (r.1, y :: r.2.1, r.2.2)
      | some false => let r := mergeL cmp dec (k + 1) (x :: xs) ys; (r.1, r.2.1, y :: r.2.2)
    | some false => let r := mergeL cmp dec (k + 1) xs (y :: ys); (r.1, x :: r.2.1, r.2.2)
  termination_by _ xs ys => xs.length + ys.length

theorem transferRange_suffix {a b : Id} {R : List (Id × List Id)} (dec : Id → Option Bool) (ys : List Id) :
    ∀ {h : Heap} {rj xs : List Id}, Fam h ((b, rj ++ ys) :: (a, xs) :: R) →
    ∃ h', transferRange h a dec ys = mkOut (transL2 dec ys).1 h' ∧
      Fam h' ((b, rj ++ (transL2 dec ys).2.2) :: (a, xs ++ (transL2 dec ys).2.1) :: R) := by
  induction ys with
  | nil => intro h rj xs hf; exact ⟨h, by simp [transferRange, transL2, mkOut], by simpa [transL2] using hf⟩
  | cons y ys ih =>
    intro h rj xs hf
    rcases (Option.eq_none_or_eq_some (dec y)) with hd | ⟨b, hd⟩
    · exact ⟨h, by simp [transferRange, transL2, hd, mkOut], by simpa [transL2, hd] using hf⟩
    · cases b with
      | true =>
        obtain ⟨h', e', f'⟩ := ih (fam_transfer hf)
        exact ⟨h', by simpa [transferRange, hd, transL2] using e', by simpa [transL2, hd] using f'⟩
      | false =>
        obtain ⟨h', e', f'⟩ := ih (rj := rj ++ [y]) (h := h) (xs := xs) (by simpa using hf)
        exact ⟨h', by simpa [transferRange, hd, transL2, transfer] using e', by simpa [transL2, hd] using f'⟩

theorem mergeGo_spec (cmp : Cmp) (dec : Id → Option Bool) {a b : Id} {R : List (Id × List Id)} :
    ∀ (n : Nat) {h : Heap} {k : Nat} {dn rj xs ys : List Id},
    Fam h ((b, rj ++ ys) :: (a, dn ++ xs) :: R) → xs.length + ys.length ≤ n →
    ∃ h', mergeGo cmp dec a b n h k (hdOr a xs) (hdOr b ys) = mkOut (mergeL cmp dec k xs ys).1 h' ∧
      Fam h' ((b, rj ++ (mergeL cmp dec k xs ys).2.2) :: (a, dn ++ (mergeL cmp dec k xs ys).2.1) :: R) := by
  intro n
  induction n with
  | zero =>
    intro h k dn rj xs ys hf hn
    obtain ⟨rfl, rfl⟩ : xs = [] ∧ ys = [] := by cases xs <;> cases ys <;> simp at hn ⊢
    unfold mergeGo
    rw [if_neg (by simp [hdOr])]
    unfold deleteAllGo
    simp only [hdOr, List.headD_nil, ne_eq, not_true_eq_false, if_false, externalSplice, if_true, transferRange]
    exact ⟨h, by simp [mergeL, transL2, mkOut], by simpa [mergeL, transL2] using hf⟩
  | succ n ih =>
    intro h k dn rj xs ys hf hn
    have hab := notMem_hd hf
    have haa := notMem_hd hf.swap
    cases xs with
    | nil =>
      unfold mergeGo
      rw [if_neg (by simp [hdOr])]
      rw [traverse_from (u := rj) (v := ys) (hf.circ (by simp)) (by simpa using hn)]
      obtain ⟨h', e', f'⟩ := transferRange_suffix dec ys hf
      refine ⟨h', ?_, ?_⟩
      · simp only [externalSplice, if_true, e', mergeL]
      · simpa [mergeL] using f'
    | cons x xs =>
      cases ys with
      | nil =>
        unfold mergeGo
        rw [if_neg (by simp [hdOr])]
        unfold deleteAllGo
        simp only [hdOr, List.headD_nil, ne_eq, not_true_eq_false, if_false, externalSplice, if_true, transferRange]
        exact ⟨h, by simp [mergeL, mkOut], by simpa [mergeL] using hf⟩
      | cons y ys =>
        have hx : hdOr a (x :: xs) = x := rfl
        have hy : hdOr b (y :: ys) = y := rfl
        have hxa : x ≠ a := fun e => haa (by simp [e])
        have hyb : y ≠ b := fun e => hab (by simp [e])
        have hnx := next_in hf.swap
        have hny := next_in hf
        unfold mergeGo
        rw [hx, hy, if_pos ⟨hxa, hyb⟩]
        simp only [mergeL]
        rcases (Option.eq_none_or_eq_some (cmp k y x)) with hc | ⟨c, hc⟩
        · exact ⟨h, by simp [hc, mkOut], by simpa [hc] using hf⟩
        · cases c with
          | false =>
            obtain ⟨h', e', f'⟩ := ih (h := h) (k := k + 1) (dn := dn ++ [x]) (rj := rj) (xs := xs) (ys := y :: ys)
              (by simpa using hf) (by simp at hn ⊢; omega)
            refine ⟨h', ?_, by simpa [hc] using f'⟩
            simp only [hc, hnx, ← e', hy]
          | true =>
            rcases (Option.eq_none_or_eq_some (dec y)) with hd | ⟨acc, hd⟩
            · exact ⟨h, by simp [hc, hd, externalSplice1, mkOut], by simpa [hc, hd] using hf⟩
            · cases acc with
              | true =>
                have f1 := fam_transfer hf
                have f2 := fam_relink_same (a := a) (x := y) (u := dn ++ x :: xs) (v := []) (s := dn) (t := x :: xs)
                  (by simpa using f1.swap) (by simp)
                obtain ⟨h', e', f'⟩ := ih (k := k + 1) (dn := dn ++ [y]) (rj := rj) (xs := x :: xs) (ys := ys)
                  (h := (transfer h a y true).relink x y) (by simpa [hdOr] using f2.swap) (by simp at hn ⊢; omega)
                refine ⟨h', ?_, by simpa [hc, hd] using f'⟩
                simp only [hc, hd, hny, externalSplice1]
                rw [if_pos ⟨trivial, hxa⟩]
                exact e'
              | false =>
                obtain ⟨h', e', f'⟩ := ih (k := k + 1) (dn := dn) (rj := rj ++ [y]) (xs := x :: xs) (ys := ys)
                  (h := h) (by simpa using hf) (by simp at hn ⊢; omega)
                refine ⟨h', ?_, by simpa [hc, hd] using f'⟩
                simp only [hc, hd, hny, externalSplice1, transfer]
                simp only [Bool.false_eq_true, false_and, if_false]
                exact e'

theorem transL2_perm (dec : Id → Option Bool) (ys : List Id) :
    ((transL2 dec ys).2.1 ++ (transL2 dec ys).2.2).Perm ys ∧ (transL2 dec ys).2.1.Sublist ys ∧
      (transL2 dec ys).2.2.Sublist ys := by
  induction ys with
  | nil => simp [transL2]
  | cons y ys ih =>
    simp only [transL2]
    cases dec y with
    | none => simp
    | some b =>
      cases b with
      | true => exact ⟨ih.1.cons y, ih.2.1.cons_cons y, ih.2.2.cons y⟩
      | false => exact ⟨List.perm_middle.trans (ih.1.cons y), ih.2.1.cons y, ih.2.2.cons_cons y⟩

theorem transL2_total {dec : Id → Option Bool} {acc : Id → Bool} (hd : ∀ y, dec y = some (acc y)) (ys : List Id) :
    transL2 dec ys = (true, ys.filter acc, ys.filter (fun y => !acc y)) := by
  induction ys with
  | nil => rfl
  | cons y ys ih =>
    simp only [transL2, hd, ih]
    cases hy : acc y <;> simp [hy]

theorem mergeL_perm (cmp : Cmp) (dec : Id → Option Bool) (k : Nat) (xs ys : List Id) :
    ((mergeL cmp dec k xs ys).2.1 ++ (mergeL cmp dec k xs ys).2.2).Perm (xs ++ ys) ∧
    (mergeL cmp dec k xs ys).2.2.Sublist ys := by
  fun_induction mergeL cmp dec k xs ys with
  | case1 k ys => exact ⟨by simpa using (transL2_perm dec ys).1, (transL2_perm dec ys).2.2⟩
  | case2 => simp
  | case3 => simp
  | case4 => simp
  | case5 k x xs y ys hc hd r ih =>
    refine ⟨?_, ih.2.cons y⟩
    simp only [List.cons_append] at ih ⊢
    exact (ih.1.cons y).trans (List.perm_middle (l₁ := x :: xs)).symm
  | case6 k x xs y ys hc hd r ih =>
    refine ⟨?_, ih.2.cons_cons y⟩
    refine List.perm_middle.trans ?_
    exact (ih.1.cons y).trans (List.perm_middle (l₁ := x :: xs)).symm
  | case7 k x xs y ys hc r ih => exact ⟨ih.1.cons x, ih.2⟩

theorem mergeL_total {cmp : Cmp} {dec : Id → Option Bool} {acc : Id → Bool} {lt : Id → Id → Bool}
    (hd : ∀ y, dec y = some (acc y)) (ht : ∀ k x y, cmp k x y = some (lt x y)) (k : Nat) (xs ys : List Id) :
    (mergeL cmp dec k xs ys).1 = true ∧ (mergeL cmp dec k xs ys).2.2 = ys.filter (fun y => !acc y) := by
  fun_induction mergeL cmp dec k xs ys with
  | case1 k ys => rw [transL2_total hd]; simp
  | case2 => simp
  | case3 k x xs y ys hc => rw [ht] at hc; cases hc
  | case4 k x xs y ys hc hdy => rw [hd] at hdy; cases hdy
  | case5 k x xs y ys hc hdy r ih =>
    have : acc y = true := by rw [hd] at hdy; simpa using hdy
    simp [this]; exact ih
  | case6 k x xs y ys hc hdy r ih =>
    have : acc y = false := by rw [hd] at hdy; simpa using hdy
    simp [this]; exact ih
  | case7 k x xs y ys hc r ih => exact ih

theorem mergeL_mem {cmp : Cmp} {dec : Id → Option Bool} {k : Nat} {xs ys : List Id} {w : Id}
    (hw : w ∈ (mergeL cmp dec k xs ys).2.1) : w ∈ xs ∨ w ∈ ys := by
  have := (mergeL_perm cmp dec k xs ys).1.mem_iff.1 (List.mem_append_left _ hw)
  simpa using this

theorem mergeL_sorted {cmp : Cmp} {dec : Id → Option Bool} {lt : Id → Id → Bool} (hl : StrictWeak lt)
    (ht : ∀ k x y, cmp k x y = some (lt x y)) (k : Nat) (xs ys : List Id)
    (hx : Sorted lt xs) (hy : Sorted lt ys) : Sorted lt (mergeL cmp dec k xs ys).2.1 := by
  fun_induction mergeL cmp dec k xs ys with
  | case1 k ys => exact List.Pairwise.sublist (transL2_perm dec ys).2.1 hy
  | case2 => exact hx
  | case3 k x xs y ys hc => rw [ht] at hc; cases hc
  | case4 => exact hx
  | case5 k x xs y ys hc hd r ih =>
    have hy' := List.pairwise_cons.1 hy
    refine List.pairwise_cons.2 ⟨?_, ih hx hy'.2⟩
    intro w hw
    have hlt : lt y x = true := by rw [ht] at hc; simpa using hc
    rcases mergeL_mem hw with hm | hm
    · rcases List.mem_cons.1 hm with rfl | hm
      · exact hl.asymm hlt
      · exact hl.le_trans (hl.asymm hlt) ((List.pairwise_cons.1 hx).1 w hm)
    · exact hy'.1 w hm
  | case6 k x xs y ys hc hd r ih => exact ih hx (List.pairwise_cons.1 hy).2
  | case7 k x xs y ys hc r ih =>
    have hx' := List.pairwise_cons.1 hx
    refine List.pairwise_cons.2 ⟨?_, ih hx'.2 hy⟩
    intro w hw
    have hlt : lt y x = false := by rw [ht] at hc; simpa using hc
    rcases mergeL_mem hw with hm | hm
    · exact hx'.1 w hm
    · rcases List.mem_cons.1 hm with rfl | hm
      · exact hlt
      · exact hl.le_trans hlt ((List.pairwise_cons.1 hy).1 w hm)

theorem mergeL_stable {cmp : Cmp} {dec : Id → Option Bool} {acc : Id → Bool} {lt : Id → Id → Bool} (hl : StrictWeak lt)
    (hd : ∀ y, dec y = some (acc y)) (ht : ∀ k x y, cmp k x y = some (lt x y)) (k : Nat) (xs ys : List Id)
    (hx : Sorted lt xs) : StableOf lt (xs ++ ys.filter acc) (mergeL cmp dec k xs ys).2.1 := by
  intro w
  fun_induction mergeL cmp dec k xs ys with
  | case1 k ys => rw [transL2_total hd]; simp
  | case2 => simp
  | case3 k x xs y ys hc => rw [ht] at hc; cases hc
  | case4 k x xs y ys hc hdy => rw [hd] at hdy; cases hdy
  | case5 k x xs y ys hc hdy r ih =>
    have ha : acc y = true := by rw [hd] at hdy; simpa using hdy
    have hlt : lt y x = true := by rw [ht] at hc; simpa using hc
    have ih := ih hx
    rw [List.filter_cons, ih, List.filter_cons, if_pos ha]
    simp only [List.filter_append]
    by_cases hwy : equivOf lt w y = true
    · have hnone : (x :: xs).filter (equivOf lt w) = [] := by
        rw [List.filter_eq_nil_iff]
        intro z hz hwz
        have hyz := hl.equiv_trans (StrictWeak.equiv_symm ▸ hwy) hwz
        rw [StrictWeak.equiv_iff] at hyz
        have hxz : lt z x = false := by
          rcases List.mem_cons.1 hz with rfl | hz
          · exact hl.irrefl _
          · exact (List.pairwise_cons.1 hx).1 z hz
        have := hl.lt_le_trans hlt hxz
        rw [hyz.1] at this; cases this
      simp [hwy, hnone]
    · simp only [hwy, Bool.false_eq_true, if_false]
      simp [hwy]
  | case6 k x xs y ys hc hdy r ih =>
    have ha : acc y = false := by rw [hd] at hdy; simpa using hdy
    have ih := ih hx
    rw [ih, List.filter_cons]
    simp [ha]
  | case7 k x xs y ys hc r ih =>
    have ih := ih (List.pairwise_cons.1 hx).2
    rw [List.filter_cons, ih]
    simp [List.filter_cons]

end MI.Seq

namespace MI.Seq
open MI

theorem uniqueL_pure {pred : Nat → Id → Id → Option Bool} {p : Id → Id → Bool}
    (hp : ∀ k x y, pred k x y = some (p x y)) (xs : List Id) : ∀ (k : Nat) (f : Id),
    (uniqueL pred k f xs).1 = true ∧ (uniqueL pred k f xs).2.1 = keepUnique p f xs := by
  induction xs with
  | nil => intro k f; exact ⟨rfl, rfl⟩
  | cons x xs ih =>
    intro k f
    simp only [uniqueL, hp, keepUnique]
    cases hx : p x f with
    | true => simpa using ih (k + 1) f
    | false => simpa using ih (k + 1) x

theorem fam_popBackN {a : Id} {R : List (Id × List Id)} (m : Nat) :
    ∀ {h : Heap} {xs : List Id}, Fam h ((a, xs) :: R) → m ≤ xs.length →
    Fam (popBackN a m h).1 ((a, xs.take (xs.length - m)) :: R) ∧
      (popBackN a m h).2 = (xs.drop (xs.length - m)).reverse := by
  induction m with
  | zero => intro h xs hf _; simpa [popBackN] using hf
  | succ m ih =>
    intro h xs hf hm
    rcases List.eq_nil_or_concat' xs with rfl | ⟨u, x, rfl⟩
    · simp at hm
    · have hp := prior_hd hf
      have hl : lastOr a (u ++ [x]) = x := by simp [lastOr]
      rw [hl] at hp
      obtain ⟨f1, _⟩ := fam_unlink (v := []) hf
      simp only [List.append_nil] at f1
      obtain ⟨i1, i2⟩ := ih f1 (by simp at hm; omega)
      simp only [popBackN, hp, eraseAt]
      have e : (u ++ [x]).length - (m + 1) = u.length - m := by simp
      rw [e]
      refine ⟨?_, ?_⟩
      · rw [List.take_append_of_le_length (by omega)]; exact i1
      · rw [i2, List.drop_append_of_le_length (by omega)]; simp

theorem fam_externalSplice {a b : Id} {R : List (Id × List Id)} {dec : Id → Option Bool} {vs ys s t : List Id}
    {h : Heap} (hf : Fam h ((b, ys) :: (a, s ++ t) :: R)) (hn : vs.Nodup) (hm : ∀ v ∈ vs, v ∈ ys)
    (hd : ∀ x ∈ vs, (dec x).isSome) :
    ∃ h', externalSplice h a (hdOr a t) dec vs = .ok h' ∧
      Fam h' ((b, ys.filter (fun y => !(decide (y ∈ vs) && dec y == some true))) ::
        (a, s ++ vs.filter (fun y => dec y == some true) ++ t) :: R) := by
  obtain ⟨h1, e1, f1⟩ := fam_transferRange dec vs hf hn hm
  rw [transL_total hd, if_pos rfl] at e1
  rw [transL_ok (transL_total hd)] at f1
  unfold externalSplice
  split
  · rename_i hp
    have ht : t = [] := by
      cases t with
      | nil => rfl
      | cons x t =>
        have hxa : x = a := hp
        exact absurd (by simp [hxa]) (notMem_hd hf.swap)
    subst ht
    exact ⟨h1, e1, by simpa using f1⟩
  · have hp := prior_hd hf.swap
    have hnx : h1.next (h.prior a) = hdOr a (vs.filter (fun y => dec y == some true)) := by
      rw [hp]
      rcases List.eq_nil_or_concat' (s ++ t) with e | ⟨u, x, e⟩
      · rw [e] at f1 ⊢
        simpa [lastOr] using next_hd f1.swap
      · rw [e] at f1 ⊢
        have := next_in (u := u) (x := x) (v := vs.filter (fun y => dec y == some true)) (by simpa using f1.swap)
        simpa [lastOr] using this
    simp only [e1, hnx]
    refine ⟨_, rfl, ?_⟩
    have := fam_relinkRange_same (a := a) (u := s ++ t) (blk := vs.filter (fun y => dec y == some true)) (v := [])
      (s := s) (t := t) (by simpa using f1.swap) (by simp)
    simpa [hdOr] using this.swap

theorem fam_copy {hx h : Heap} {map : Id → Id} {xa : Id} {xs : List Id} {n : Nat} (hc : Circ hx xa xs)
    (hn : xs.length < n) (hinj : ∀ y z, y ∈ xa :: xs → z ∈ xa :: xs → map y = map z → y = z) :
    ∃ h', copyGo hx map xa n h xa (map xa) = some h' ∧ Circ h' (map xa) (xs.map map) ∧
      ∀ w, w ∉ (xa :: xs).map map → h'.next w = h.next w ∧ h'.prior w = h.prior w := by
  obtain ⟨h', e, h1, h2, h3, h4⟩ := copyGo_spec (h := h) (map := map) xs (NextPath.of_seg hc.2)
    (List.nodup_cons.1 hc.1).1 hn (by intro y z hy hz; exact hinj y z (by simpa using hy) (by simpa using hz)) hc.1
  refine ⟨h', e, ⟨?_, seg_map xs hc.2 h1 h2⟩, ?_⟩
  · have : ((xa :: xs).map map).Nodup :=
      List.Nodup.map_on (fun y hy z hz => hinj y z hy hz) hc.1
    simpa using this
  · intro w hw
    refine ⟨h3 w hw, h4 w ?_⟩
    intro hm; apply hw
    simp only [List.map_append, List.mem_append, List.map_cons, List.mem_cons, List.map_nil] at hm ⊢
    tauto

end MI.Seq
