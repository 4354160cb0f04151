import Verif.Rnd.Spec
import Verif.Spec.Lists
import Verif.Spec.Order
/-! Helper lemmas: array updates. -/
namespace MI.Rnd
open MI

/-- `s'` is `s` with the slots of `D` holding `f`, back pointers adjusted. -/
structure Upd (s s' : Arr) (D : Nat → Prop) (f : Nat → Id) : Prop where
  size : s'.size = s.size
  cap : s'.cap = s.cap
  inn : ∀ j, D j → s'.arr j = f j ∧ s'.up (f j) = j
  out : ∀ j, ¬ D j → s'.arr j = s.arr j
  oup : ∀ v, (∀ j, D j → f j ≠ v) → s'.up v = s.up v

theorem Upd.rfl' (s : Arr) (f : Nat → Id) : Upd s s (fun _ => False) f :=
  ⟨rfl, rfl, by simp, by simp, by simp⟩

theorem Upd.congr {s s' : Arr} {D D' : Nat → Prop} {f f' : Nat → Id} (h : Upd s s' D f)
    (hD : ∀ j, D j ↔ D' j) (hf : ∀ j, D j → f j = f' j) : Upd s s' D' f' where
  size := h.size
  cap := h.cap
  inn j hj := by
    have := h.inn j ((hD j).2 hj)
    rw [hf j ((hD j).2 hj)] at this; exact this
  out j hj := h.out j (fun h' => hj ((hD j).1 h'))
  oup v hv := h.oup v (fun j hj => by rw [hf j hj]; exact hv j ((hD j).1 hj))

/-- A first assignment followed by others. -/
theorem Upd.step {s s' : Arr} {D : Nat → Prop} {f : Nat → Id} {p : Nat} {v : Id} (h : Upd (s.put p v) s' D f)
    (hp : ¬ D p) (hv : ∀ j, D j → f j ≠ v) : Upd s s' (fun j => j = p ∨ D j) (fun j => if j = p then v else f j) where
  size := h.size
  cap := h.cap
  inn j hj := by
    rcases hj with rfl | hj
    · rw [h.out j hp, if_pos rfl, h.oup v hv]; simp [Arr.put]
    · have : j ≠ p := fun e => hp (e ▸ hj)
      rw [if_neg this]; exact h.inn j hj
  out j hj := by
    simp only [not_or] at hj
    rw [h.out j hj.2]; simp [Arr.put, upd_other _ _ hj.1]
  oup w hw := by
    have h1 : v ≠ w := by have := hw p (Or.inl rfl); simpa using this
    rw [h.oup w (fun j hj => by
      have := hw j (Or.inr hj)
      have hne : j ≠ p := fun e => hp (e ▸ hj)
      rwa [if_neg hne] at this)]
    simp [Arr.put, upd_other _ _ (Ne.symm h1)]

/-- Assignments followed by a last one. -/
theorem Upd.last {s s' : Arr} {D : Nat → Prop} {f : Nat → Id} {p : Nat} {v : Id} (h : Upd s s' D f)
    (hp : ¬ D p) (hv : ∀ j, D j → f j ≠ v) : Upd s (s'.put p v) (fun j => j = p ∨ D j) (fun j => if j = p then v else f j) where
  size := h.size
  cap := h.cap
  inn j hj := by
    rcases hj with rfl | hj
    · simp [Arr.put]
    · have h1 : j ≠ p := fun e => hp (e ▸ hj)
      rw [if_neg h1]
      simp only [Arr.put, upd_other _ _ h1, upd_other _ _ (hv j hj)]
      exact h.inn j hj
  out j hj := by
    simp only [not_or] at hj
    simp only [Arr.put, upd_other _ _ hj.1]
    exact h.out j hj.2
  oup w hw := by
    have h1 : v ≠ w := by have := hw p (Or.inl rfl); simpa using this
    simp only [Arr.put, upd_other _ _ (Ne.symm h1)]
    exact h.oup w (fun j hj => by
      have := hw j (Or.inr hj)
      have hne : j ≠ p := fun e => hp (e ▸ hj)
      rwa [if_neg hne] at this)

/-- Composition of updates on disjoint sets of slots. -/
theorem Upd.comp {s s1 s2 : Arr} {D1 D2 : Nat → Prop} {f : Nat → Id} (h1 : Upd s s1 D1 f) (h2 : Upd s1 s2 D2 f)
    (hd : ∀ j, D1 j → ¬ D2 j) (hi : ∀ i j, D1 i → D2 j → f i ≠ f j) : Upd s s2 (fun j => D1 j ∨ D2 j) f where
  size := h2.size.trans h1.size
  cap := h2.cap.trans h1.cap
  inn j hj := by
    rcases hj with hj | hj
    · rw [h2.out j (hd j hj), h2.oup _ (fun i hi' => (hi j i hj hi').symm)]; exact h1.inn j hj
    · exact h2.inn j hj
  out j hj := by
    simp only [not_or] at hj
    rw [h2.out j hj.2, h1.out j hj.1]
  oup v hv := by
    rw [h2.oup v (fun j hj => hv j (Or.inr hj)), h1.oup v (fun j hj => hv j (Or.inl hj))]

theorem Rep.nodup {s : Arr} {hd : Id} {xs : List Id} (h : Rep s hd xs) : (xs ++ [hd]).Nodup := by
  rw [List.nodup_iff_injective_getElem]
  rintro ⟨i, hi⟩ ⟨j, hj⟩ e
  simp only at e
  have h1 := h.2.2 i _ (List.getElem?_eq_getElem hi)
  have h2 := h.2.2 j _ (List.getElem?_eq_getElem hj)
  rw [e] at h1
  exact Fin.ext (h1.2.symm.trans h2.2)

theorem Rep.arr {s : Arr} {hd : Id} {xs : List Id} (h : Rep s hd xs) {i : Nat} (hi : i < xs.length) : s.arr i = xs[i] := by
  refine (h.2.2 i _ ?_).1
  rw [List.getElem?_append_left hi]; exact List.getElem?_eq_getElem hi

theorem Rep.arr_end {s : Arr} {hd : Id} {xs : List Id} (h : Rep s hd xs) : s.arr xs.length = hd :=
  (h.2.2 _ _ (by simp)).1

theorem Rep.up {s : Arr} {hd : Id} {xs : List Id} (h : Rep s hd xs) {i : Nat} (hi : i < xs.length) : s.up xs[i] = i := by
  refine (h.2.2 i _ ?_).2
  rw [List.getElem?_append_left hi]; exact List.getElem?_eq_getElem hi

theorem Rep.up_end {s : Arr} {hd : Id} {xs : List Id} (h : Rep s hd xs) : s.up hd = xs.length :=
  (h.2.2 _ _ (by simp)).2

/-- The slots in use hold different nodes. -/
theorem Rep.inj {s : Arr} {hd : Id} {xs : List Id} (h : Rep s hd xs) {i j : Nat} (hi : i ≤ xs.length) (hj : j ≤ xs.length)
    (e : s.arr i = s.arr j) : i = j := by
  obtain ⟨v, hv⟩ : ∃ v, (xs ++ [hd])[i]? = some v := ⟨_, List.getElem?_eq_getElem (by simp; omega)⟩
  obtain ⟨w, hw⟩ : ∃ w, (xs ++ [hd])[j]? = some w := ⟨_, List.getElem?_eq_getElem (by simp; omega)⟩
  have h1 := h.2.2 i v hv
  have h2 := h.2.2 j w hw
  rw [h1.1, h2.1] at e
  rw [e] at h1
  exact h1.2.symm.trans h2.2

theorem Rep.of_upd {s s' : Arr} {hd : Id} {xs ys : List Id} {D : Nat → Prop} {f : Nat → Id} (h : Rep s hd xs)
    (hu : Upd s s' D f) (hl : ys.length = xs.length) (hn : (ys ++ [hd]).Nodup)
    (h1 : ∀ j, D j → (ys ++ [hd])[j]? = some (f j))
    (h2 : ∀ j, j ≤ xs.length → ¬ D j → (ys ++ [hd])[j]? = (xs ++ [hd])[j]?) : Rep s' hd ys := by
  refine ⟨by rw [hu.size, hl]; exact h.1, by rw [hu.size, hu.cap]; exact h.2.1, ?_⟩
  intro i v hv
  have hi : i < (ys ++ [hd]).length := by
    by_contra hc; rw [List.getElem?_eq_none (by omega)] at hv; cases hv
  by_cases hD : D i
  · have := h1 i hD
    rw [hv] at this
    have hv' : v = f i := by simpa using this
    rw [hv']; exact hu.inn i hD
  · have e := h2 i (by simp at hi; omega) hD
    rw [hv] at e
    have := h.2.2 i v e.symm
    rw [hu.out i hD, hu.oup v]
    · exact this
    · intro j hj hjv
      have h3 := h1 j hj
      rw [hjv] at h3
      have hj' : j < (ys ++ [hd]).length := by
        by_contra hc; rw [List.getElem?_eq_none (by omega)] at h3; cases h3
      have : i = j := by
        have e1 := List.getElem?_eq_getElem hi
        have e2 := List.getElem?_eq_getElem hj'
        exact (List.Nodup.getElem_inj_iff hn).1 (by rw [hv] at e1; rw [h3] at e2; simp at e1 e2; rw [← e1, ← e2])
      exact hD (this ▸ hj)

/-! ### Loops -/

theorem extractGo_upd (n : Nat) : ∀ (s : Arr) (x : Nat),
    (∀ i j, x ≤ i → i ≤ x + n → x ≤ j → j ≤ x + n → s.arr i = s.arr j → i = j) →
    Upd s (extractGo n s x) (fun j => x ≤ j ∧ j < x + n) (fun j => s.arr (j + 1)) := by
  induction n with
  | zero => intro s x _; exact (Upd.rfl' s s.arr).congr (fun j => ⟨False.elim, fun hj => absurd hj (by show ¬ (_ ∧ _); omega)⟩) (by simp)
  | succ n ih =>
    intro s x hinj
    have hs : ∀ j, x < j → (s.put x (s.arr (x + 1))).arr j = s.arr j := by
      intro j hj; simp only [Arr.put]; exact upd_other _ _ (by omega)
    have := ih (s.put x (s.arr (x + 1))) (x + 1) (by
      intro i j h1 h2 h3 h4 e
      rw [hs i (by omega), hs j (by omega)] at e
      exact hinj i j (by omega) (by omega) (by omega) (by omega) e)
    refine (this.step (by omega) ?_).congr ?_ ?_
    · intro j hj e
      rw [hs _ (by omega)] at e
      have := hinj _ _ (by omega) (by omega) (by omega) (by omega) e
      omega
    · intro j; constructor
      · rintro (rfl | h) <;> omega
      · intro h; by_cases hj : j = x
        · exact Or.inl hj
        · right; omega
    · intro j hj
      by_cases hjx : j = x
      · rw [if_pos hjx, hjx]
      · rw [if_neg hjx, hs _ (by omega)]

theorem shiftGo_upd (n : Nat) : ∀ (s : Arr) (x : Nat), n ≤ x →
    (∀ i j, x - n ≤ i → i ≤ x → x - n ≤ j → j ≤ x → s.arr i = s.arr j → i = j) →
    Upd s (shiftGo n s x) (fun j => x - n < j ∧ j ≤ x) (fun j => s.arr (j - 1)) := by
  induction n with
  | zero => intro s x _ _; exact (Upd.rfl' s s.arr).congr (fun j => ⟨False.elim, fun hj => absurd hj (by show ¬ (_ ∧ _); omega)⟩) (by simp)
  | succ n ih =>
    intro s x hn hinj
    have hs : ∀ j, j < x → (s.put x (s.arr (x - 1))).arr j = s.arr j := by
      intro j hj; simp only [Arr.put]; exact upd_other _ _ (by omega)
    have := ih (s.put x (s.arr (x - 1))) (x - 1) (by omega) (by
      intro i j h1 h2 h3 h4 e
      rw [hs i (by omega), hs j (by omega)] at e
      exact hinj i j (by omega) (by omega) (by omega) (by omega) e)
    refine (this.step (by omega) ?_).congr ?_ ?_
    · intro j hj e
      rw [hs _ (by omega)] at e
      have := hinj _ _ (by omega) (by omega) (by omega) (by omega) e
      omega
    · intro j; constructor
      · rintro (rfl | h) <;> omega
      · intro h; by_cases hj : j = x
        · exact Or.inl hj
        · right; omega
    · intro j hj
      by_cases hjx : j = x
      · rw [if_pos hjx, hjx]
      · rw [if_neg hjx, hs _ (by omega)]

/-- The element of a list around a moved element. -/
theorem rep_relocate1 {s : Arr} {hd x : Id} {u v p q : List Id} (h : Rep s hd (u ++ x :: v)) (e : u ++ v = p ++ q)
    {pos : Nat} (hpos : (u.length ≤ p.length ∧ pos = p.length + 1) ∨ (p.length ≤ u.length ∧ pos = p.length)) :
    Rep (relocate1 s pos u.length) hd (p ++ x :: q) := by
  have hlen := congrArg List.length e
  simp only [List.length_append] at hlen
  have hnd : (p ++ x :: q ++ [hd]).Nodup := by
    have := h.nodup
    have p1 : (u ++ x :: v ++ [hd]).Perm (p ++ x :: q ++ [hd]) := by
      refine List.Perm.append_right _ ?_
      refine List.perm_middle.trans ?_
      rw [e]; exact List.perm_middle.symm
    exact p1.nodup_iff.1 this
  have hx : s.arr u.length = x := by rw [h.arr (by simp)]; simp
  have hsz : (u ++ x :: v).length = u.length + v.length + 1 := by simp; omega
  have harr : ∀ i, i < u.length + v.length → s.arr (if i < u.length then i else i + 1) = (p ++ q)[i]?.getD 0 := by
    intro i hi
    rw [← e]
    split
    · rw [h.arr (by simp; omega)]; grind
    · rw [h.arr (by simp; omega)]; grind
  unfold relocate1
  rw [hx]
  rcases hpos with ⟨hc, hpos⟩ | ⟨hc, hpos⟩
  · simp only
    rw [if_pos (by omega), hpos]
    have hE := extractGo_upd (p.length - u.length) s u.length (fun i j h1 h2 h3 h4 he =>
      h.inj (by rw [hsz]; omega) (by rw [hsz]; omega) he)
    have hE2 := hE.last (p := p.length) (v := x) (by omega) (by
      intro j hj he
      rw [← hx] at he
      have := h.inj (by rw [hsz]; omega) (by rw [hsz]; omega) he; omega)
    have eE : extract s u.length (p.length + 1) = extractGo (p.length - u.length) s u.length := by
      unfold extract; congr 1
    rw [eE]
    simp only [Nat.add_sub_cancel]
    refine h.of_upd hE2 (by simp; omega) hnd ?_ ?_
    · intro j hj
      by_cases hjp : j = p.length
      · rw [if_pos hjp, hjp]; simp
      · rw [if_neg hjp]
        have hj' : u.length ≤ j ∧ j < p.length := by omega
        have := harr j (by omega)
        rw [if_neg (by omega)] at this
        rw [this]
        grind
    · intro j hj hD
      simp only [not_or, not_and, Nat.not_lt] at hD
      by_cases h1 : j < u.length
      · have e1 := harr j (by omega)
        rw [if_pos h1, h.arr (by simp; omega)] at e1
        grind
      · have h2 : p.length < j := by omega
        by_cases h3 : j = u.length + v.length + 1
        · grind
        · have e1 := harr (j - 1) (by grind)
          rw [if_neg (by omega)] at e1
          have : j - 1 + 1 = j := by omega
          rw [this, h.arr (by rw [hsz]; grind)] at e1
          grind
  · simp only
    rw [if_neg (by omega), hpos]
    have hE := shiftGo_upd (u.length - p.length) s u.length (by omega) (fun i j h1 h2 h3 h4 he =>
      h.inj (by rw [hsz]; omega) (by rw [hsz]; omega) he)
    have hE2 := hE.last (p := p.length) (v := x) (by omega) (by
      intro j hj he
      rw [← hx] at he
      have := h.inj (by rw [hsz]; omega) (by rw [hsz]; omega) he; omega)
    refine h.of_upd hE2 (by simp; omega) hnd ?_ ?_
    · intro j hj
      by_cases hjp : j = p.length
      · rw [if_pos hjp, hjp]; simp
      · rw [if_neg hjp]
        have hj' : p.length < j ∧ j ≤ u.length := by omega
        have := harr (j - 1) (by omega)
        rw [if_pos (by omega)] at this
        rw [this]
        grind
    · intro j hj hD
      simp only [not_or, not_and, Nat.not_le] at hD
      by_cases h1 : j < p.length
      · have e1 := harr j (by omega)
        rw [if_pos (by omega), h.arr (by simp; omega)] at e1
        grind
      · have h2 : u.length < j := by omega
        by_cases h3 : j = u.length + v.length + 1
        · grind
        · have e1 := harr (j - 1) (by grind)
          rw [if_neg (by omega)] at e1
          have : j - 1 + 1 = j := by omega
          rw [this, h.arr (by rw [hsz]; grind)] at e1
          grind

end MI.Rnd
