import Verif.Rnd.LoadLemmas
/-! Helper lemmas: single steps of histories, two containers. -/
namespace MI.Rnd
open MI

theorem Rep.at {s : Arr} {hd : Id} {xs : List Id} (h : Rep s hd xs) {p : Nat} (hp : p ≤ xs.length) :
    s.arr p = hdOr hd (xs.drop p) := by
  have := (show Rep s hd (xs.take p ++ xs.drop p) by simpa using h).up_hdOr.2
  rwa [List.length_take, Nat.min_eq_left hp] at this

theorem drop_split {xs : List Id} {p : Nat} (hp : p < xs.length) : xs = xs.take p ++ xs[p] :: xs.drop (p + 1) := by
  conv => lhs; rw [← List.take_append_drop p xs, List.drop_eq_getElem_cons hp]

theorem three_split {xs : List Id} {p q : Nat} (h : p ≤ q) : xs = xs.take p ++ (xs.drop p).take (q - p) ++ xs.drop q := by
  conv => lhs; rw [← List.take_append_drop p xs, ← List.take_append_drop (q - p) (xs.drop p)]
  rw [List.drop_drop, ← List.append_assoc]
  have : p + (q - p) = q := by omega
  rw [this]

theorem drop_three {xs : List Id} {p q : Nat} (h : p ≤ q) : xs.drop p = (xs.drop p).take (q - p) ++ xs.drop q := by
  conv => lhs; rw [← List.take_append_drop (q - p) (xs.drop p)]
  rw [List.drop_drop]
  have : p + (q - p) = q := by omega
  rw [this]

theorem take_three {xs : List Id} {p q : Nat} (h : p ≤ q) : xs.take q = xs.take p ++ (xs.drop p).take (q - p) := by
  have : q = p + (q - p) := by omega
  conv => lhs; rw [this, List.take_add]

theorem step_effect (junk : Nat → Id) {nul hd : Id} {s : Arr} {xs : List Id} (h : Rep s hd xs) (op : Op)
    (hl : Legal nul hd xs op) :
    ∃ s' ys, step junk nul hd s op = some s' ∧ Effect xs ys op ∧ Rep s' hd ys := by
  cases op with
  | insert p x dec =>
    obtain ⟨hp, hx⟩ := hl
    cases dec with
    | none => exact ⟨_, xs, rfl, by simp [Effect], (rep_roomForOne junk h).1⟩
    | some acc =>
      simp only [step]
      rw [h.at hp]
      cases acc with
      | true =>
        obtain ⟨s', e, r, _⟩ := rep_insertAt junk (p := xs.take p) (q := xs.drop p) (x := x) (by simpa using h) (by simpa using hx)
        exact ⟨s', _, e, by simp [Effect], r⟩
      | false =>
        obtain ⟨s', e, r, _⟩ := rep_insert_ junk h hx false
        exact ⟨s', xs, by simp [insertAt, e], by simp [Effect], r⟩
  | insertRange p vs =>
    obtain ⟨hp, hn, hx⟩ := hl
    simp only [step]
    rw [h.at hp]
    obtain ⟨s', e, r, _⟩ := rep_insertIter junk (p := xs.take p) (q := xs.drop p) (vs := vs) (by simpa using h) hn (by simpa using hx)
    refine ⟨s', _, ?_, rfl, r⟩
    rw [e]; split <;> rfl
  | erase p =>
    simp only [Legal] at hl
    have e := drop_split hl
    have hr : Rep s hd (xs.take p ++ xs[p] :: xs.drop (p + 1)) := by rw [← e]; exact h
    refine ⟨_, _, rfl, rfl, ?_⟩
    simp only [eraseAt]
    rw [h.arr hl]; exact (rep_erase hr).1
  | eraseRange p q =>
    obtain ⟨h1, h2⟩ := hl
    simp only [step]
    have e := three_split (xs := xs) h1
    have hr : Rep s hd (xs.take p ++ (xs.drop p).take (q - p) ++ xs.drop q) := by rw [← e]; exact h
    obtain ⟨s', e', r, _⟩ := rep_eraseRange hr
    rw [h.at (by omega), h.at h2, drop_three (xs := xs) h1]
    exact ⟨s', _, e', rfl, r⟩
  | relocate p i =>
    obtain ⟨h1, h2⟩ := hl
    have e := drop_split h2
    have hr : Rep s hd (xs.take i ++ xs[i] :: xs.drop (i + 1)) := by rw [← e]; exact h
    have h1' : (xs.drop i).take 1 = [xs[i]] := by rw [List.drop_eq_getElem_cons h2]; rfl
    refine ⟨_, _, rfl, rfl, ?_⟩
    rw [h1', h.arr h2]
    rcases Nat.lt_trichotomy p i with hpi | hpi | hpi
    · have := rep_relocate hr (p := xs.take p) (q := (xs.drop p).take (i - p) ++ xs.drop (i + 1)) (by
        rw [take_three (xs := xs) (Nat.le_of_lt hpi)]; simp)
      have hq : hdOr hd ((xs.drop p).take (i - p) ++ xs.drop (i + 1)) = s.arr p := by
        rw [h.arr (by omega)]
        rw [List.drop_eq_getElem_cons (show p < xs.length by omega)]
        obtain ⟨k, hk⟩ : ∃ k, i - p = k + 1 := ⟨i - p - 1, by omega⟩
        rw [hk]; rfl
      rw [hq] at this
      rw [if_pos (by omega)]
      simpa using this
    · subst hpi
      rw [h.arr h2]
      have e0 : relocate s xs[p] xs[p] = s := by simp [relocate]
      rw [e0, if_pos (Nat.le_refl _)]
      simpa using hr
    · have := rep_relocate hr (p := xs.take i ++ (xs.drop (i + 1)).take (p - (i + 1))) (q := xs.drop p) (by
        conv => lhs; rw [drop_three (xs := xs) (show i + 1 ≤ p by omega)]
        simp)
      rw [← h.at h1] at this
      rw [if_neg (by omega)]
      simpa using this
  | relocateRange p i j =>
    obtain ⟨h1, h2, h3, h4⟩ := hl
    simp only [step]
    have e := three_split (xs := xs) h1
    have hr : Rep s hd (xs.take i ++ (xs.drop i).take (j - i) ++ xs.drop j) := by rw [← e]; exact h
    rw [h.at (show i ≤ xs.length by omega), h.at h2, drop_three (xs := xs) h1]
    rcases Nat.lt_or_ge p i with hpi | hpi
    · obtain ⟨s', e', r, _⟩ := rep_relocateRange hr (p := xs.take p) (q := (xs.drop p).take (i - p) ++ xs.drop j) (by
        rw [take_three (xs := xs) (Nat.le_of_lt hpi)]; simp)
      have hq : hdOr hd ((xs.drop p).take (i - p) ++ xs.drop j) = s.arr p := by
        rw [h.arr (by omega)]
        rw [List.drop_eq_getElem_cons (show p < xs.length by omega)]
        obtain ⟨k, hk⟩ : ∃ k, i - p = k + 1 := ⟨i - p - 1, by omega⟩
        rw [hk]; rfl
      rw [hq] at e'
      refine ⟨s', _, e', rfl, ?_⟩
      rw [if_pos hpi]
      simpa using r
    · have hjp : j ≤ p := by omega
      obtain ⟨s', e', r, _⟩ := rep_relocateRange hr (p := xs.take i ++ (xs.drop j).take (p - j)) (q := xs.drop p) (by
        conv => lhs; rw [drop_three (xs := xs) hjp]
        simp)
      rw [← h.at h3] at e'
      refine ⟨s', _, e', rfl, ?_⟩
      rw [if_neg (by omega)]
      simpa using r
  | reverse => exact ⟨_, _, rfl, rfl, (rep_reverse h).1⟩
  | rearrange vs =>
    refine ⟨_, _, rfl, rfl, ?_⟩
    exact (rep_rearrangeGo vs (dn := []) (rest := xs) h hl).1
  | splice p vs =>
    obtain ⟨h1, h2, h3, h4⟩ := hl
    refine ⟨_, _, rfl, rfl, ?_⟩
    rw [h.at h1]
    exact (rep_internalSplice (u := xs.take p) (v := xs.drop p) (by simpa using h) h2 (by simpa using h3) (by simpa using h4)).1
  | removeIf pred =>
    obtain ⟨s', e, _, r⟩ := rep_removeIf pred h
    have pm := remL_perm pred xs 0 [] []
    refine ⟨s', _, ?_, ⟨?_, ?_⟩, r⟩
    · simp only [step]; rw [e]; unfold mkOut; split <;> rfl
    · intro q hq
      obtain ⟨a, b⟩ := remL_pure hq xs 0 [] []
      rw [a, b]; simp
    · cases (remL pred 0 [] [] xs).1 with
      | true => exact ⟨(remL pred 0 [] [] xs).2.2, by simpa using pm⟩
      | false => exact ⟨[], by simpa using pm⟩
  | unique pred =>
    obtain ⟨s', e, _, r⟩ := rep_unique pred h
    have pm : ((uniqL pred xs).2.1 ++ (uniqL pred xs).2.2).Perm xs := by
      cases xs with
      | nil => simp [uniqL]
      | cons x xs =>
        have e2 : uniqL pred (x :: xs) = uniL pred 0 [] x [] xs := rfl
        rw [e2]; simpa using uniL_perm pred xs 0 [] x []
    refine ⟨s', _, ?_, ⟨?_, ?_⟩, r⟩
    · simp only [step]; rw [e]; unfold mkOut; split <;> rfl
    · intro q hq
      cases xs with
      | nil => simp [uniqL, uniqueSpec]
      | cons x xs =>
        obtain ⟨a, b⟩ := uniL_pure hq xs 0 [] x []
        have e2 : uniqL pred (x :: xs) = uniL pred 0 [] x [] xs := rfl
        rw [e2, a, b]; simp [uniqueSpec]
    · cases (uniqL pred xs).1 with
      | true => exact ⟨(uniqL pred xs).2.2, by simpa using pm⟩
      | false => exact ⟨[], by simpa using pm⟩
  | sort ssort =>
    simp only [step, sort, Effect]
    have hsz := h.1
    by_cases h1 : xs.length ≤ 1
    · rw [if_pos (by omega), if_pos h1]; exact ⟨s, xs, rfl, rfl, h⟩
    · rw [if_neg (by omega), if_neg h1, h.slots]
      rcases Option.eq_none_or_eq_some (ssort xs) with hd' | ⟨ys, hd'⟩
      · rw [hd']; exact ⟨s, xs, rfl, rfl, h⟩
      · rw [hd']; exact ⟨_, ys, rfl, rfl, (rep_writeBack h (hl ys hd')).1⟩
  | reserve n => exact ⟨_, xs, rfl, rfl, (rep_reserve junk h n).1⟩
  | shrinkToFit => exact ⟨_, xs, rfl, rfl, (rep_shrink junk h).1⟩
  | clear => exact ⟨_, [], rfl, rfl, (rep_clear h).1⟩
  | load moves => exact ⟨_, _, rfl, rfl, rep_load h moves hl⟩

/-! ### Two containers -/

theorem rep_transferRange (junk : Nat → Id) (dec : Id → Option Bool) {hd hs : Id} (vs : List Id) :
    ∀ {d s : Arr} {xs ys : List Id}, Rep d hd xs → Rep s hs ys → vs.Nodup → (∀ v ∈ vs, v ∈ ys) → (∀ y ∈ ys, y ∉ hd :: xs) →
    ∃ d' s', transferRange junk dec vs d s = mkOut (moved dec vs).1 (d', s') ∧
      Rep d' hd (xs ++ (moved dec vs).2) ∧ Rep s' hs (ys.filter (· ∉ (moved dec vs).2)) := by
  induction vs with
  | nil =>
    intro d s xs ys h1 h2 _ _ _
    exact ⟨d, s, rfl, by simpa [moved] using h1, by simpa [moved] using h2⟩
  | cons x vs ih =>
    intro d s xs ys h1 h2 hn hm hdis
    simp only [transferRange, moved]
    rcases Option.eq_none_or_eq_some (dec x) with hd' | ⟨b, hd'⟩
    · simp only [hd']
      exact ⟨_, s, rfl, by simpa using (rep_roomForOne junk h1).1, by simpa using h2⟩
    · simp only [hd']
      have hx : x ∈ ys := hm x (by simp)
      obtain ⟨d1, e1, r1, _⟩ := rep_insert_ junk h1 (hdis x hx) b
      rw [e1]
      have hn' := List.nodup_cons.1 hn
      cases b with
      | false =>
        obtain ⟨d', s', e, r, r'⟩ := ih r1 h2 hn'.2 (fun v hv => hm v (by simp [hv])) hdis
        exact ⟨d', s', e, r, r'⟩
      | true =>
        obtain ⟨a, b, rfl⟩ := List.append_of_mem hx
        have hnd := h2.nodup'
        have hxab : x ∉ a ++ b := by
          simp only [List.nodup_append, List.mem_append, List.nodup_cons, List.mem_cons] at hnd ⊢
          grind
        obtain ⟨d', s', e, r, r'⟩ := ih r1 (rep_erase h2).1 hn'.2 (fun v hv => by
          have h3 := hm v (by simp [hv])
          have : v ≠ x := fun e => hn'.1 (e ▸ hv)
          simp only [List.mem_append, List.mem_cons] at h3 ⊢; tauto) (fun y hy => by
          have h3 := hdis y (by simp only [List.mem_append, List.mem_cons] at hy ⊢; tauto)
          have h4 : y ≠ x := fun e => hxab (e ▸ hy)
          simp only [if_true, List.mem_cons, List.mem_append, not_or, List.not_mem_nil, or_false] at h3 ⊢
          exact ⟨h3.1, h3.2, h4⟩)
        refine ⟨d', s', e, by simpa using r, ?_⟩
        have e3 : (a ++ x :: b).filter (· ∉ x :: (moved dec vs).2) = (a ++ b).filter (· ∉ (moved dec vs).2) := by
          have e4 : ∀ l : List Id, x ∉ l → l.filter (· ∉ x :: (moved dec vs).2) = l.filter (· ∉ (moved dec vs).2) := by
            intro l hl
            apply List.filter_congr
            intro y hy
            have : y ≠ x := fun e => hl (e ▸ hy)
            simp [this]
          simp only [List.mem_append, not_or] at hxab
          rw [List.filter_append, List.filter_cons, if_neg (by simp), e4 a hxab.1, e4 b hxab.2, List.filter_append]
        rw [e3]; exact r'

theorem rep_externalSplice (junk : Nat → Id) (dec : Id → Option Bool) {hd hs : Id} {d s : Arr} {p q ys vs : List Id}
    (h1 : Rep d hd (p ++ q)) (h2 : Rep s hs ys) (hn : vs.Nodup) (hm : ∀ v ∈ vs, v ∈ ys)
    (hdis : ∀ y ∈ ys, y ∉ hd :: (p ++ q)) :
    ∃ d' s', externalSplice junk dec d s hd (hdOr hd q) vs = mkOut (moved dec vs).1 (d', s') ∧
      Rep d' hd (p ++ (moved dec vs).2 ++ q) ∧ Rep s' hs (ys.filter (· ∉ (moved dec vs).2)) := by
  obtain ⟨d1, s1, e1, r1, r2⟩ := rep_transferRange junk dec vs h1 h2 hn hm hdis
  unfold externalSplice
  have hr : Rep d1 hd ((p ++ q) ++ (moved dec vs).2 ++ []) := by simpa using r1
  obtain ⟨d', e', r', _⟩ := rep_relocateRange hr (p := p) (q := q) (by simp)
  have e2 : nth d1 d.size = hdOr hd ((moved dec vs).2 ++ []) := by
    rw [h1.1]
    exact (show Rep d1 hd ((p ++ q) ++ ((moved dec vs).2 ++ [])) by simpa using r1).up_hdOr.2
  have e3 : hdOr hd ([] : List Id) = hd := rfl
  rw [e3, ← e2] at e'
  rw [e1]
  refine ⟨d', s1, ?_, r', r2⟩
  cases (moved dec vs).1 <;> simp [mkOut, e']

end MI.Rnd
