import Verif.Rnd.Algo
import Mathlib.Data.List.ReduceOption
/-! Helper lemmas: merge, sort, splice, copy, iterators of the random access index. -/
namespace MI.Rnd
open MI

/-! ### merge -/

/-- List level in-place merge. -/
def mrgL (cmp : Nat → Id → Id → Option Bool) : Nat → List Id → List Id → Option (List Id)
  | _, [], ys => some ys
  | _, x :: xs, [] => some (x :: xs)
  | k, x :: xs, y :: ys =>
    match cmp k y x with
    | none => none
    | some true => (mrgL cmp (k + 1) (x :: xs) ys).map (y :: ·)
    | some false => (mrgL cmp (k + 1) xs (y :: ys)).map (x :: ·)
  termination_by _ xs ys => xs.length + ys.length

theorem map_range_eq {f : Nat → Id} {b : Nat} {l : List Id} (h : ∀ i, (hi : i < l.length) → f (b + i) = l[i]) :
    (List.range l.length).map (fun i => f (b + i)) = l := by
  apply List.ext_getElem
  · simp
  · intro i h1 h2
    simp only [List.getElem_map, List.getElem_range]
    exact h i h2

theorem mergeBuf_eq (cmp : Nat → Id → Id → Option Bool) (a : Nat → Id) : ∀ (n : Nat) (xs ys : List Id) (k p q : Nat),
    xs.length + ys.length ≤ n →
    (∀ i, (hi : i < xs.length) → a (p + i) = xs[i]) → (∀ i, (hi : i < ys.length) → a (q + i) = ys[i]) →
    mergeBuf cmp a xs.length ys.length k p q = mrgL cmp k xs ys := by
  intro n
  induction n with
  | zero =>
    intro xs ys k p q hn h1 h2
    have hx : xs = [] := List.length_eq_zero_iff.1 (by omega)
    have hy : ys = [] := List.length_eq_zero_iff.1 (by omega)
    subst hx; subst hy
    simp [mergeBuf, mrgL]
  | succ n ih =>
    intro xs ys k p q hn h1 h2
    cases xs with
    | nil =>
      simp only [List.length_nil, mergeBuf, mrgL]
      rw [map_range_eq h2]
    | cons x xs =>
      cases ys with
      | nil =>
        simp only [List.length_nil, List.length_cons, mergeBuf, mrgL]
        have := map_range_eq h1
        simp only [List.length_cons] at this
        rw [this]
      | cons y ys =>
        have ex : a p = x := h1 0 (by simp)
        have ey : a q = y := h2 0 (by simp)
        simp only [List.length_cons]
        rw [mergeBuf, mrgL, ex, ey]
        have hx' : ∀ i, (hi : i < xs.length) → a (p + 1 + i) = xs[i] := by
          intro i hi
          have := h1 (i + 1) (by simp; omega)
          simp only [List.getElem_cons_succ] at this
          rw [← this]; congr 1; omega
        have hy' : ∀ i, (hi : i < ys.length) → a (q + 1 + i) = ys[i] := by
          intro i hi
          have := h2 (i + 1) (by simp; omega)
          simp only [List.getElem_cons_succ] at this
          rw [← this]; congr 1; omega
        simp only [List.length_cons] at hn
        have i1 := ih (x :: xs) ys (k + 1) p (q + 1) (by simp only [List.length_cons]; omega) h1 hy'
        have i2 := ih xs (y :: ys) (k + 1) (p + 1) q (by simp only [List.length_cons]; omega) hx' h2
        simp only [List.length_cons] at i1 i2
        rw [i1, i2]
        cases cmp k y x with
        | none => rfl
        | some b => cases b <;> rfl

theorem mrgL_perm (cmp : Nat → Id → Id → Option Bool) : ∀ (n : Nat) (xs ys zs : List Id) (k : Nat),
    xs.length + ys.length ≤ n → mrgL cmp k xs ys = some zs → zs.Perm (xs ++ ys) := by
  intro n
  induction n with
  | zero =>
    intro xs ys zs k hn h
    have hx : xs = [] := List.length_eq_zero_iff.1 (by omega)
    subst hx
    simp [mrgL] at h; simp [h]
  | succ n ih =>
    intro xs ys zs k hn h
    cases xs with
    | nil => simp [mrgL] at h; simp [h]
    | cons x xs =>
      cases ys with
      | nil => simp [mrgL] at h; simp [h]
      | cons y ys =>
        rw [mrgL] at h
        simp only [List.length_cons] at hn
        rcases Option.eq_none_or_eq_some (cmp k y x) with hd | ⟨b, hd⟩
        · rw [hd] at h; cases h
        · rw [hd] at h
          cases b with
          | true =>
            simp only [Option.map_eq_some_iff] at h
            obtain ⟨w, hw, rfl⟩ := h
            have := ih (x :: xs) ys w (k + 1) (by simp only [List.length_cons]; omega) hw
            exact (this.cons y).trans List.perm_middle.symm
          | false =>
            simp only [Option.map_eq_some_iff] at h
            obtain ⟨w, hw, rfl⟩ := h
            have := ih xs (y :: ys) w (k + 1) (by simp only [List.length_cons]; omega) hw
            exact this.cons x

theorem mrgL_some {cmp : Nat → Id → Id → Option Bool} (hc : ∀ k x y, (cmp k x y).isSome) : ∀ (n : Nat) (xs ys : List Id) (k : Nat),
    xs.length + ys.length ≤ n → ∃ zs, mrgL cmp k xs ys = some zs := by
  intro n
  induction n with
  | zero =>
    intro xs ys k hn
    have hx : xs = [] := List.length_eq_zero_iff.1 (by omega)
    subst hx
    exact ⟨ys, by simp [mrgL]⟩
  | succ n ih =>
    intro xs ys k hn
    cases xs with
    | nil => exact ⟨ys, by simp [mrgL]⟩
    | cons x xs =>
      cases ys with
      | nil => exact ⟨x :: xs, by simp [mrgL]⟩
      | cons y ys =>
        rw [mrgL]
        simp only [List.length_cons] at hn
        obtain ⟨b, hb⟩ := Option.isSome_iff_exists.1 (hc k y x)
        rw [hb]
        cases b with
        | true =>
          obtain ⟨w, hw⟩ := ih (x :: xs) ys (k + 1) (by simp only [List.length_cons]; omega)
          exact ⟨y :: w, by simp [hw]⟩
        | false =>
          obtain ⟨w, hw⟩ := ih xs (y :: ys) (k + 1) (by simp only [List.length_cons]; omega)
          exact ⟨x :: w, by simp [hw]⟩

/-- Merging sorted sequences with an ordering: sorted and stable. -/
theorem mrgL_sorted {lt : Id → Id → Bool} (hl : StrictWeak lt) {cmp : Nat → Id → Id → Option Bool}
    (hc : ∀ k x y, cmp k x y = some (lt x y)) : ∀ (n : Nat) (xs ys zs : List Id) (k : Nat),
    xs.length + ys.length ≤ n → Sorted lt xs → Sorted lt ys → mrgL cmp k xs ys = some zs →
    Sorted lt zs ∧ StableOf lt (xs ++ ys) zs := by
  intro n
  induction n with
  | zero =>
    intro xs ys zs k hn _ h2 h
    have hx : xs = [] := List.length_eq_zero_iff.1 (by omega)
    subst hx
    simp [mrgL] at h; subst h; exact ⟨h2, fun _ => rfl⟩
  | succ n ih =>
    intro xs ys zs k hn h1 h2 h
    cases xs with
    | nil => simp [mrgL] at h; subst h; exact ⟨h2, fun _ => rfl⟩
    | cons x xs =>
      cases ys with
      | nil => simp [mrgL] at h; subst h; exact ⟨h1, fun _ => by simp⟩
      | cons y ys =>
        rw [mrgL, hc] at h
        simp only [List.length_cons] at hn
        have s1 := List.pairwise_cons.1 h1
        have s2 := List.pairwise_cons.1 h2
        rcases Bool.eq_false_or_eq_true (lt y x) with hb | hb
        · rw [hb] at h
          simp only [Option.map_eq_some_iff] at h
          obtain ⟨w, hw, rfl⟩ := h
          obtain ⟨a, b⟩ := ih (x :: xs) ys w (k + 1) (by simp only [List.length_cons]; omega) h1 s2.2 hw
          have pm := mrgL_perm cmp _ _ _ _ _ (Nat.le_refl _) hw
          have hlt : ∀ z ∈ x :: xs, lt y z = true := by
            intro z hz
            rcases List.mem_cons.1 hz with rfl | hz
            · exact hb
            · exact hl.lt_le_trans hb (s1.1 z hz)
          refine ⟨List.pairwise_cons.2 ⟨?_, a⟩, ?_⟩
          · intro z hz
            rcases List.mem_append.1 (pm.subset hz) with hz | hz
            · exact hl.asymm (hlt z hz)
            · exact s2.1 z hz
          · intro z
            rw [List.filter_cons, b z]
            by_cases hz : equivOf lt z y = true
            · rw [if_pos hz]
              have hnil : (x :: xs).filter (equivOf lt z) = [] := by
                rw [List.filter_eq_nil_iff]
                intro t ht ht2
                have e := hl.equiv_trans (by rw [StrictWeak.equiv_symm]; exact hz) ht2
                rw [StrictWeak.equiv_iff] at e
                rw [hlt t ht] at e; cases e.1
              rw [List.filter_append, List.filter_append, hnil, List.filter_cons, if_pos hz]; rfl
            · rw [if_neg hz, List.filter_append, List.filter_append, List.filter_cons (x := y), if_neg hz]
        · rw [hb] at h
          simp only [Option.map_eq_some_iff] at h
          obtain ⟨w, hw, rfl⟩ := h
          obtain ⟨a, b⟩ := ih xs (y :: ys) w (k + 1) (by simp only [List.length_cons]; omega) s1.2 h2 hw
          have pm := mrgL_perm cmp _ _ _ _ _ (Nat.le_refl _) hw
          refine ⟨List.pairwise_cons.2 ⟨?_, a⟩, ?_⟩
          · intro z hz
            rcases List.mem_append.1 (pm.subset hz) with hz | hz
            · exact s1.1 z hz
            · rcases List.mem_cons.1 hz with rfl | hz
              · exact hb
              · exact hl.le_trans hb (s2.1 z hz)
          · intro z
            rw [List.filter_cons, b z, List.cons_append, List.filter_cons]

theorem rep_inplaceMerge (cmp : Nat → Id → Id → Option Bool) {s : Arr} {hd : Id} {xs ys : List Id} (h : Rep s hd (xs ++ ys)) :
    (inplaceMerge cmp s xs.length = .threw s ∧ mrgL cmp 0 xs ys = none) ∨
    ∃ s' zs, inplaceMerge cmp s xs.length = .ok s' ∧ mrgL cmp 0 xs ys = some zs ∧ Rep s' hd zs ∧ s'.cap = s.cap := by
  have e : mergeBuf cmp s.arr xs.length (s.size - xs.length) 0 0 xs.length = mrgL cmp 0 xs ys := by
    have e0 : s.size - xs.length = ys.length := by rw [h.1]; simp
    rw [e0]
    refine mergeBuf_eq cmp s.arr _ xs ys 0 0 xs.length (Nat.le_refl _) ?_ ?_
    · intro i hi
      rw [Nat.zero_add, h.arr (by simp; omega)]
      exact List.getElem_append_left hi
    · intro i hi
      rw [h.arr (by simp; omega)]
      simp
  unfold inplaceMerge
  rw [e]
  rcases Option.eq_none_or_eq_some (mrgL cmp 0 xs ys) with hd' | ⟨zs, hd'⟩
  · left; rw [hd']; exact ⟨rfl, rfl⟩
  · right
    rw [hd']
    have pm := mrgL_perm cmp _ _ _ _ _ (Nat.le_refl _) hd'
    obtain ⟨a, b⟩ := rep_writeBack h pm
    exact ⟨_, zs, rfl, rfl, a, b⟩

theorem Rep.slots {s : Arr} {hd : Id} {xs : List Id} (h : Rep s hd xs) : (List.range s.size).map s.arr = xs := by
  have := map_range_eq (f := s.arr) (b := 0) (l := xs) (fun i hi => by rw [Nat.zero_add]; exact h.arr hi)
  simpa [h.1] using this

/-! ### copy -/

theorem rep_copy {s : Arr} {hd hd' : Id} {xs : List Id} (h : Rep s hd xs) {map : Id → Id} {t : Arr}
    (hinj : ∀ x ∈ xs ++ [hd], ∀ y ∈ xs ++ [hd], map x = map y → x = y) (hmap : map hd = hd')
    (hc : s.size ≤ t.cap) :
    Rep { copyGo s.arr map (s.size + 1) t 0 with size := s.size } hd' (xs.map map) := by
  have hsz := h.1
  have hinj' : ∀ i j, i ≤ xs.length → j ≤ xs.length → map (s.arr i) = map (s.arr j) → i = j := by
    intro i j hi hj e
    have m : ∀ i, i ≤ xs.length → s.arr i ∈ xs ++ [hd] := by
      intro i hi
      rcases Nat.lt_or_ge i xs.length with hl | hl
      · rw [h.arr hl]; simp
      · have : i = xs.length := by omega
        subst this; rw [h.arr_end]; simp
    exact h.inj hi hj (hinj _ (m i hi) _ (m j hj) e)
  have hu := transferGo_upd (fun j => map (s.arr j)) (s.size + 1) t 0 (fun i j _ h2 _ h4 e =>
    hinj' i j (by omega) (by omega) e)
  rw [copyGo_eq]
  refine ⟨by simp [hsz], by simp only; rw [hu.cap]; exact hc, ?_⟩
  intro i v hv
  have hi : i < (xs.map map ++ [hd']).length := by
    by_contra hc; rw [List.getElem?_eq_none (by omega)] at hv; cases hv
  simp only [List.length_append, List.length_map, List.length_cons, List.length_nil] at hi
  have hin := hu.inn i (by omega)
  have : v = map (s.arr i) := by
    rcases Nat.lt_or_ge i xs.length with hl | hl
    · rw [h.arr hl]; grind
    · have : i = xs.length := by omega
      subst this; rw [h.arr_end, hmap]; grind
  rw [this]
  exact hin

/-! ### splice of a range given by another index of the same container -/

theorem nullOut_spec (nul : Id) (vs : List Id) : ∀ (s : Arr),
    (nullOut nul vs s).up = s.up ∧ (nullOut nul vs s).size = s.size ∧ (nullOut nul vs s).cap = s.cap ∧
    ∀ i, (nullOut nul vs s).arr i = if ∃ v ∈ vs, s.up v = i then nul else s.arr i := by
  induction vs with
  | nil => intro s; simp [nullOut]
  | cons v vs ih =>
    intro s
    obtain ⟨a, b, c, d⟩ := ih { s with arr := upd s.arr (s.up v) nul }
    refine ⟨a, b, c, ?_⟩
    intro i
    simp only [nullOut, d]
    by_cases h : ∃ w ∈ vs, s.up w = i
    · rw [if_pos h, if_pos (by obtain ⟨w, hw, e⟩ := h; exact ⟨w, by simp [hw], e⟩)]
    · rw [if_neg h]
      by_cases hv : s.up v = i
      · rw [if_pos ⟨v, by simp, hv⟩, ← hv]; simp
      · rw [if_neg]
        · exact upd_other _ _ (Ne.symm hv)
        · rintro ⟨w, hw, e⟩
          rcases List.mem_cons.1 hw with rfl | hw
          · exact hv e
          · exact h ⟨w, hw, e⟩

/-- Forward half of `gather_nulls`. `l` holds, for the slots still to be looked at, the element or nothing. -/
theorem gatherFwd_spec (nul : Id) (l : List (Option Id)) : ∀ (s : Arr) (b p : Nat), b ≤ p →
    (∀ i, (hi : i < l.length) → s.arr (p + i) = (l[i]).getD nul) → (∀ v ∈ l.reduceOption, v ≠ nul) →
    l.reduceOption.Nodup →
    (gatherFwd nul l.length s b p).2 = b + l.reduceOption.length ∧
    Upd s (gatherFwd nul l.length s b p).1 (fun j => b ≤ j ∧ j < b + l.reduceOption.length)
      (fun j => l.reduceOption.getD (j - b) 0) := by
  induction l with
  | nil =>
    intro s b p _ _ _ _
    exact ⟨rfl, (Upd.rfl' s s.arr).congr (fun j => ⟨False.elim, fun hj => absurd hj (by
      show ¬ (b ≤ j ∧ j < b + 0); omega)⟩) (by simp)⟩
  | cons o l ih =>
    intro s b p hbp hs hn hnd
    have h0 : s.arr p = o.getD nul := hs 0 (by simp)
    have hs' : ∀ i, (hi : i < l.length) → s.arr (p + 1 + i) = (l[i]).getD nul := by
      intro i hi
      have := hs (i + 1) (by simp; omega)
      simp only [List.getElem_cons_succ] at this
      rw [← this]; congr 1; omega
    simp only [List.length_cons, gatherFwd, h0]
    cases o with
    | none =>
      simp only [Option.getD_none, ne_eq, not_true_eq_false, if_false]
      simp only [List.reduceOption_cons_of_none] at hn hnd ⊢
      exact ih s b (p + 1) (by omega) hs' hn hnd
    | some v =>
      simp only [List.reduceOption_cons_of_some] at hn hnd ⊢
      have hv : v ≠ nul := hn v (by simp)
      simp only [Option.getD_some]
      rw [if_pos hv]
      obtain ⟨a, u⟩ := ih (s.put b v) (b + 1) (p + 1) (by omega) (by
        intro i hi
        simp only [Arr.put]
        rw [upd_other _ _ (by omega)]; exact hs' i hi) (fun w hw => hn w (by simp [hw])) (List.nodup_cons.1 hnd).2
      refine ⟨by rw [a]; simp; omega, ?_⟩
      refine (u.step (by omega) ?_).congr ?_ ?_
      · intro j hj e
        have hl : j - (b + 1) < l.reduceOption.length := by omega
        simp only [List.getD_eq_getElem?_getD, List.getElem?_eq_getElem hl, Option.getD_some] at e
        exact (List.nodup_cons.1 hnd).1 (e ▸ List.getElem_mem hl)
      · intro j
        simp only [List.length_cons]
        constructor
        · rintro (rfl | h) <;> omega
        · intro h; by_cases hj : j = b
          · exact Or.inl hj
          · right; omega
      · intro j hj
        by_cases hjb : j = b
        · rw [if_pos hjb, hjb]; simp
        · rw [if_neg hjb]
          obtain ⟨k, rfl⟩ : ∃ k, j = b + 1 + k := ⟨j - (b + 1), by omega⟩
          have e1 : b + 1 + k - (b + 1) = k := by omega
          have e2 : b + 1 + k - b = k + 1 := by omega
          rw [e1, e2]; rfl

/-- Backward half of `gather_nulls`, for the slots `p-|l| .. p`. -/
theorem gatherBwd_spec (nul : Id) (l : List (Option Id)) : ∀ (s : Arr) (e p : Nat), p ≤ e → l.length ≤ p →
    (∀ i, (hi : i < l.length) → s.arr (p - 1 - i) = (l[i]).getD nul) → (∀ v ∈ l.reduceOption, v ≠ nul) →
    l.reduceOption.Nodup →
    Upd s (gatherBwd nul l.length s e p) (fun j => e - l.reduceOption.length ≤ j ∧ j < e)
      (fun j => l.reduceOption.getD (e - 1 - j) 0) := by
  induction l with
  | nil =>
    intro s e p _ _ _ _ _
    exact (Upd.rfl' s s.arr).congr (fun j => ⟨False.elim, fun hj => absurd hj (by
      show ¬ (e - 0 ≤ j ∧ j < e); omega)⟩) (by simp)
  | cons o l ih =>
    intro s e p hbp hlp hs hn hnd
    simp only [List.length_cons] at hlp
    have h0 : s.arr (p - 1) = o.getD nul := hs 0 (by simp)
    have hs' : ∀ i, (hi : i < l.length) → s.arr (p - 1 - 1 - i) = (l[i]).getD nul := by
      intro i hi
      have := hs (i + 1) (by simp; omega)
      simp only [List.getElem_cons_succ] at this
      rw [← this]; congr 1; omega
    simp only [List.length_cons, gatherBwd, h0]
    cases o with
    | none =>
      simp only [Option.getD_none, ne_eq, not_true_eq_false, if_false]
      simp only [List.reduceOption_cons_of_none] at hn hnd ⊢
      exact ih s e (p - 1) (by omega) (by omega) hs' hn hnd
    | some v =>
      simp only [List.reduceOption_cons_of_some] at hn hnd ⊢
      have hv : v ≠ nul := hn v (by simp)
      have hle := List.reduceOption_length_le l
      simp only [Option.getD_some]
      rw [if_pos hv]
      have u := ih (s.put (e - 1) v) (e - 1) (p - 1) (by omega) (by omega) (by
        intro i hi
        simp only [Arr.put]
        rw [upd_other _ _ (by omega)]; exact hs' i hi) (fun w hw => hn w (by simp [hw])) (List.nodup_cons.1 hnd).2
      refine (u.step (by omega) ?_).congr ?_ ?_
      · intro j hj e'
        have hl : e - 1 - 1 - j < l.reduceOption.length := by omega
        simp only [List.getD_eq_getElem?_getD, List.getElem?_eq_getElem hl, Option.getD_some] at e'
        exact (List.nodup_cons.1 hnd).1 (e' ▸ List.getElem_mem hl)
      · intro j
        simp only [List.length_cons]
        constructor
        · rintro (rfl | h) <;> omega
        · intro h; by_cases hj : j = e - 1
          · exact Or.inl hj
          · right; omega
      · intro j hj
        by_cases hjb : j = e - 1
        · rw [if_pos hjb, hjb]; simp
        · rw [if_neg hjb]
          have e2 : e - 1 - j = (e - 1 - 1 - j) + 1 := by omega
          rw [e2]; rfl

theorem reduceOption_filter (vs l : List Id) :
    (l.map (fun x => if x ∈ vs then none else some x)).reduceOption = l.filter (· ∉ vs) := by
  induction l with
  | nil => rfl
  | cons x l ih =>
    by_cases h : x ∈ vs
    · simp [h, ih, List.reduceOption_cons_of_none]
    · simp [h, ih, List.reduceOption_cons_of_some]

theorem rep_internalSplice {s : Arr} {hd nul : Id} {u v vs : List Id} (h : Rep s hd (u ++ v)) (hn : vs.Nodup)
    (hm : ∀ x ∈ vs, x ∈ u ++ v) (hnul : nul ∉ u ++ v) :
    Rep (internalSplice nul s (hdOr hd v) vs) hd (u.filter (· ∉ vs) ++ vs ++ v.filter (· ∉ vs)) ∧
      (internalSplice nul s (hdOr hd v) vs).cap = s.cap := by
  have hsz := h.1
  simp only [List.length_append] at hsz
  obtain ⟨n1, n2, n3, n4⟩ := nullOut_spec nul vs s
  have hup := h.up_hdOr.1
  -- what the nulled array holds
  have harr : ∀ i, (hi : i < (u ++ v).length) → (nullOut nul vs s).arr i = (if (u ++ v)[i] ∈ vs then none else some (u ++ v)[i]).getD nul := by
    intro i hi
    rw [n4]
    by_cases hv : (u ++ v)[i] ∈ vs
    · rw [if_pos ⟨_, hv, h.up hi⟩, if_pos hv]; rfl
    · rw [if_neg hv, if_neg]
      · exact h.arr hi
      · rintro ⟨w, hw, e⟩
        obtain ⟨j, hj, rfl⟩ := List.getElem_of_mem (hm w hw)
        rw [h.up hj] at e
        subst e; exact hv hw
  have hnd := h.nodup'
  have hndu : u.Nodup ∧ v.Nodup ∧ ∀ x ∈ u, ∀ y ∈ v, x ≠ y := by
    simpa [List.nodup_append] using hnd
  unfold internalSplice gatherNulls
  simp only [n1, hup, n2]
  -- forward
  have F := gatherFwd_spec nul (u.map (fun x => if x ∈ vs then none else some x)) (nullOut nul vs s) 0 0 (Nat.le_refl _) (by
    intro i hi
    simp only [List.length_map] at hi
    rw [Nat.zero_add, harr i (by simp; omega)]
    simp [List.getElem_append_left hi]) (by
    rw [reduceOption_filter]; intro w hw e; exact hnul (by simp [← e, (List.mem_filter.1 hw).1])) (by
    rw [reduceOption_filter]; exact hndu.1.filter _)
  rw [reduceOption_filter, List.length_map] at F
  obtain ⟨F1, F2⟩ := F
  simp only [Nat.zero_add, Nat.sub_zero] at F1 F2
  have hlf : (u.filter (· ∉ vs)).length ≤ u.length := List.length_filter_le _ _
  -- backward
  have B := gatherBwd_spec nul (v.reverse.map (fun x => if x ∈ vs then none else some x))
    (gatherFwd nul u.length (nullOut nul vs s) 0 0).1 s.size s.size (Nat.le_refl _) (by simp; omega) (by
    intro i hi
    simp only [List.length_map, List.length_reverse] at hi
    rw [F2.out _ (by omega), harr _ (by simp; omega)]
    have e1 : s.size - 1 - i = u.length + (v.length - 1 - i) := by omega
    have : (u ++ v)[s.size - 1 - i]'(by simp; omega) = v.reverse[i]'(by simpa using hi) := by
      simp only [e1]
      rw [List.getElem_append_right (by omega)]
      simp [List.getElem_reverse]
    rw [this]
    simp) (by
    rw [reduceOption_filter]; intro w hw e; exact hnul (by simp [← e]; right; simpa using (List.mem_filter.1 hw).1)) (by
    rw [reduceOption_filter]; exact (List.nodup_reverse.2 hndu.2.1).filter _)
  rw [reduceOption_filter, List.length_map, List.length_reverse, List.filter_reverse, List.length_reverse] at B
  have e0 : s.size - u.length = v.length := by omega
  rw [e0, F1]
  -- write the range
  have W := writeBack_upd vs hn (gatherBwd nul v.length (gatherFwd nul u.length (nullOut nul vs s) 0 0).1 s.size s.size)
    (u.filter (· ∉ vs)).length
  have hcount : (u.filter (· ∉ vs)).length + vs.length + (v.filter (· ∉ vs)).length = s.size := by
    have p1 : ((u ++ v).filter (· ∈ vs)).Perm vs := by
      refine (List.perm_ext_iff_of_nodup (hnd.filter _) hn).2 ?_
      intro a; simp only [List.mem_filter, decide_eq_true_eq]
      exact ⟨fun h => h.2, fun h => ⟨hm a h, h⟩⟩
    have p2 := List.length_eq_length_filter_add (l := u ++ v) (fun x => decide (x ∈ vs))
    have p3 := p1.length_eq
    have p4 : (u ++ v).filter (fun x => !decide (x ∈ vs)) = u.filter (· ∉ vs) ++ v.filter (· ∉ vs) := by
      rw [List.filter_append]; congr 1 <;> (apply List.filter_congr; intro x _; simp)
    rw [p4] at p2
    simp only [List.length_append] at p2
    omega
  have hlv : (v.filter (· ∉ vs)).length ≤ v.length := List.length_filter_le _ _
  have hnd2 : (u.filter (· ∉ vs) ++ vs ++ v.filter (· ∉ vs) ++ [hd]).Nodup := by
    have hh := h.notMem
    simp only [List.nodup_append, List.mem_append, List.mem_filter, List.mem_singleton, decide_not, Bool.not_eq_true',
      decide_eq_false_iff_not] at hndu hh ⊢
    have a1 := hndu.1.filter (fun x => !decide (x ∈ vs))
    have a2 := hndu.2.1.filter (fun x => !decide (x ∈ vs))
    refine ⟨⟨⟨a1, hn, ?_⟩, a2, ?_⟩, by simp, ?_⟩
    · rintro a ⟨_, h1⟩ b h2 rfl; exact h1 h2
    · rintro a (⟨h1, h1'⟩ | h1) b ⟨h2, h2'⟩ rfl
      · exact hndu.2.2 _ h1 _ h2 rfl
      · exact h2' h1
    · rintro a ((⟨h1, _⟩ | h1) | ⟨h1, _⟩) b rfl rfl
      · exact hh (Or.inl h1)
      · have := hm _ h1; simp only [List.mem_append] at this; exact hh this
      · exact hh (Or.inr h1)
  refine ⟨⟨?_, ?_, ?_⟩, ?_⟩
  · rw [W.size, B.size, F2.size, n2]; simp only [List.length_append]; omega
  · rw [W.size, W.cap, B.size, B.cap, F2.size, F2.cap, n2, n3]; exact h.2.1
  · intro i w hw
    have hi : i < (u.filter (· ∉ vs) ++ vs ++ v.filter (· ∉ vs) ++ [hd]).length := by
      by_contra hc; rw [List.getElem?_eq_none (by omega)] at hw; cases hw
    simp only [List.length_append, List.length_cons, List.length_nil] at hi
    -- membership of w in exactly one part
    by_cases c2 : (u.filter (· ∉ vs)).length ≤ i ∧ i < (u.filter (· ∉ vs)).length + vs.length
    · have := W.inn i c2
      have ew : w = vs.getD (i - (u.filter (· ∉ vs)).length) 0 := by
        rw [List.append_assoc, List.append_assoc, List.getElem?_append_right c2.1, List.getElem?_append_left (by omega)] at hw
        rw [List.getD_eq_getElem?_getD, hw]; rfl
      rw [ew]; exact this
    · have hwvs : w ∉ vs := by
        intro hc
        obtain ⟨j, hj, ej⟩ := List.getElem_of_mem hc
        have h1 : (u.filter (· ∉ vs) ++ vs ++ v.filter (· ∉ vs) ++ [hd])[(u.filter (· ∉ vs)).length + j]? = some w := by
          rw [List.append_assoc, List.append_assoc, List.getElem?_append_right (by omega), List.getElem?_append_left (by omega)]
          simp [hj, ej]
        have h2 := (List.getElem?_inj (by simp only [List.length_append, List.length_cons, List.length_nil]; omega) hnd2).1 (hw.trans h1.symm)
        omega
      rw [W.out i c2, W.oup w (by
        intro j hj e
        apply hwvs
        have hl : j - (u.filter (· ∉ vs)).length < vs.length := by omega
        simp only [List.getD_eq_getElem?_getD, List.getElem?_eq_getElem hl, Option.getD_some] at e
        exact e ▸ List.getElem_mem hl)]
      by_cases c3 : s.size - (v.filter (· ∉ vs)).length ≤ i ∧ i < s.size
      · have := B.inn i c3
        have ew : w = (v.filter (· ∉ vs)).reverse.getD (s.size - 1 - i) 0 := by
          rw [List.getElem?_append_left (by simp only [List.length_append]; omega), List.getElem?_append_right (by simp only [List.length_append]; omega)] at hw
          simp only [List.length_append] at hw
          rw [List.getD_eq_getElem?_getD, List.getElem?_reverse (by omega)]
          have e5 : (v.filter (· ∉ vs)).length - 1 - (s.size - 1 - i) = i - ((u.filter (· ∉ vs)).length + vs.length) := by omega
          rw [e5, hw]; rfl
        rw [ew]; exact this
      · have hwv : w ∉ v.filter (· ∉ vs) := by
          intro hc
          obtain ⟨j, hj, ej⟩ := List.getElem_of_mem hc
          have h1 : (u.filter (· ∉ vs) ++ vs ++ v.filter (· ∉ vs) ++ [hd])[(u.filter (· ∉ vs)).length + vs.length + j]? = some w := by
            rw [List.getElem?_append_left (by simp only [List.length_append]; omega), List.getElem?_append_right (by simp only [List.length_append]; omega)]
            simp only [List.length_append]
            rw [Nat.add_sub_cancel_left, List.getElem?_eq_getElem hj, ej]
          have h2 := (List.getElem?_inj (by simp only [List.length_append, List.length_cons, List.length_nil]; omega) hnd2).1 (hw.trans h1.symm)
          omega
        rw [B.out i c3, B.oup w (by
          intro j hj e
          apply hwv
          have hl : s.size - 1 - j < (v.filter (· ∉ vs)).reverse.length := by simp only [List.length_reverse]; omega
          simp only [List.getD_eq_getElem?_getD, List.getElem?_eq_getElem hl, Option.getD_some] at e
          have := List.getElem_mem hl
          rw [e] at this
          exact List.mem_reverse.1 this)]
        by_cases c1 : i < (u.filter (· ∉ vs)).length
        · have := F2.inn i ⟨by omega, c1⟩
          have ew : w = (u.filter (· ∉ vs)).getD i 0 := by
            rw [List.append_assoc, List.append_assoc, List.getElem?_append_left c1] at hw
            rw [List.getD_eq_getElem?_getD, hw]; rfl
          rw [ew]; exact this
        · have hi' : i = s.size := by omega
          have hwh : w = hd := by
            rw [List.getElem?_append_right (by simp only [List.length_append]; omega)] at hw
            simp only [List.length_append] at hw
            rw [hi', hcount, Nat.sub_self] at hw
            simpa using hw.symm
          have hh := h.notMem
          rw [F2.out i (by omega), F2.oup w (by
            intro j hj e
            have hl : j < (u.filter (· ∉ vs)).length := by omega
            simp only [List.getD_eq_getElem?_getD, List.getElem?_eq_getElem hl, Option.getD_some] at e
            have := List.getElem_mem hl
            rw [e, hwh] at this
            exact hh (by simp [(List.mem_filter.1 this).1])), n4, n1, hwh, hi']
          have hne : ¬ ∃ x ∈ vs, s.up x = s.size := by
            rintro ⟨x, hx, e⟩
            obtain ⟨j, hj, rfl⟩ := List.getElem_of_mem (hm x hx)
            rw [h.up hj] at e
            simp only [List.length_append] at hj; omega
          rw [if_neg hne]
          have := h.arr_end
          have h3 := h.up_end
          rw [h.1]; exact ⟨this, h3⟩
  · rw [W.cap, B.cap, F2.cap, n3]

/-! ### iterators -/

theorem rep_increment {s : Arr} {hd x : Id} {u v : List Id} (h : Rep s hd (u ++ x :: v)) : increment s x = hdOr hd v := by
  unfold increment
  rw [h.up_split.1]
  have := (show Rep s hd ((u ++ [x]) ++ v) by simpa using h).up_hdOr.2
  simpa using this

theorem rep_decrement {s : Arr} {hd x : Id} {u v : List Id} (h : Rep s hd (u ++ x :: v)) : decrement s (hdOr hd v) = x := by
  unfold decrement
  have := (show Rep s hd ((u ++ [x]) ++ v) by simpa using h).up_hdOr.1
  rw [this]
  simpa using h.up_split.2

end MI.Rnd
