import Verif.Rnd.Cycles
/-! Helper lemmas: operations of the random access index. -/
namespace MI.Rnd
open MI

theorem Rep.up_split {s : Arr} {hd x : Id} {u v : List Id} (h : Rep s hd (u ++ x :: v)) :
    s.up x = u.length ∧ s.arr u.length = x := by
  have := h.2.2 u.length x (by simp)
  exact ⟨this.2, this.1⟩

theorem Rep.up_hdOr {s : Arr} {hd : Id} {u v : List Id} (h : Rep s hd (u ++ v)) :
    s.up (hdOr hd v) = u.length ∧ s.arr u.length = hdOr hd v := by
  cases v with
  | nil => have := h.up_end; have := h.arr_end; simp_all [hdOr]
  | cons x v => exact h.up_split

theorem Rep.notMem {s : Arr} {hd : Id} {xs : List Id} (h : Rep s hd xs) : hd ∉ xs := by
  have := h.nodup; simp only [List.nodup_append] at this; grind

theorem Rep.nodup' {s : Arr} {hd : Id} {xs : List Id} (h : Rep s hd xs) : xs.Nodup := by
  have := h.nodup; simp only [List.nodup_append] at this; exact this.1

/-- General form: from slots holding `xs'` to slots holding `ys'`. -/
theorem slots_of_upd {s s' : Arr} {xs' ys' : List Id} {D : Nat → Prop} {f : Nat → Id}
    (h : ∀ i v, xs'[i]? = some v → s.arr i = v ∧ s.up v = i)
    (hu : Upd s s' D f) (hn : ys'.Nodup)
    (h1 : ∀ j, D j → ys'[j]? = some (f j))
    (h2 : ∀ j, j < ys'.length → ¬ D j → ys'[j]? = xs'[j]?) :
    ∀ i v, ys'[i]? = some v → s'.arr i = v ∧ s'.up v = i := by
  intro i v hv
  have hi : i < ys'.length := by
    by_contra hc; rw [List.getElem?_eq_none (by omega)] at hv; cases hv
  by_cases hD : D i
  · have := h1 i hD
    rw [hv] at this
    have hv' : v = f i := by simpa using this
    rw [hv']; exact hu.inn i hD
  · have e := h2 i hi hD
    rw [hv] at e
    have := h i v e.symm
    rw [hu.out i hD, hu.oup v]
    · exact this
    · intro j hj hjv
      have h3 := h1 j hj
      rw [hjv] at h3
      have hj' : j < ys'.length := by
        by_contra hc; rw [List.getElem?_eq_none (by omega)] at h3; cases h3
      have : i = j := by
        have e1 := List.getElem?_eq_getElem hi
        have e2 := List.getElem?_eq_getElem hj'
        exact (List.Nodup.getElem_inj_iff hn).1 (by rw [hv] at e1; rw [h3] at e2; simp at e1 e2; rw [← e1, ← e2])
      exact hD (this ▸ hj)

/-- Copying values `g j` into consecutive slots. -/
theorem transferGo_upd (src : Nat → Id) (n : Nat) : ∀ (s : Arr) (p : Nat),
    (∀ i j, p ≤ i → i < p + n → p ≤ j → j < p + n → src i = src j → i = j) →
    Upd s (transferGo src n s p) (fun j => p ≤ j ∧ j < p + n) src := by
  induction n with
  | zero => intro s x _; exact (Upd.rfl' s s.arr).congr (fun j => ⟨False.elim, fun hj => absurd hj (by show ¬ (_ ∧ _); omega)⟩) (by simp)
  | succ n ih =>
    intro s x hinj
    have := ih (s.put x (src x)) (x + 1) (by
      intro i j h1 h2 h3 h4 e
      exact hinj i j (by omega) (by omega) (by omega) (by omega) e)
    refine (this.step (by omega) ?_).congr ?_ ?_
    · intro j hj e
      have := hinj _ _ (by omega) (by omega) (by omega) (by omega) e
      omega
    · intro j; constructor
      · rintro (rfl | h) <;> omega
      · intro h; by_cases hj : j = x
        · exact Or.inl hj
        · right; omega
    · intro j hj
      by_cases hjx : j = x
      · rw [if_pos hjx, hjx]
      · rw [if_neg hjx]

theorem copyGo_eq (src : Nat → Id) (map : Id → Id) (n : Nat) : ∀ (s : Arr) (p : Nat),
    copyGo src map n s p = transferGo (fun j => map (src j)) n s p := by
  induction n with
  | zero => intro s p; rfl
  | succ n ih => intro s p; simp only [copyGo, transferGo, ih]

theorem writeBack_eq (vs : List Id) : ∀ (s : Arr) (p : Nat),
    writeBack vs s p = transferGo (fun j => vs.getD (j - p) 0) vs.length s p := by
  induction vs with
  | nil => intro s p; rfl
  | cons v vs ih =>
    intro s p
    simp only [writeBack, List.length_cons, transferGo, ih]
    have key : ∀ (n q : Nat) (s : Arr) (f g : Nat → Id), (∀ j, q ≤ j → f j = g j) →
        transferGo f n s q = transferGo g n s q := by
      intro n
      induction n with
      | zero => intros; rfl
      | succ n ih =>
        intro q s f g hfg
        simp only [transferGo]
        rw [hfg q (by omega)]
        exact ih _ _ _ _ (fun j hj => hfg j (by omega))
    simp only [Nat.sub_self, List.getD_cons_zero]
    apply key
    intro j hj
    obtain ⟨k, rfl⟩ : ∃ k, j = p + 1 + k := ⟨j - (p + 1), by omega⟩
    have e1 : p + 1 + k - (p + 1) = k := by omega
    have e2 : p + 1 + k - p = k + 1 := by omega
    rw [e1, e2]; rfl

theorem writeBack_upd (vs : List Id) (hn : vs.Nodup) (s : Arr) (p : Nat) :
    Upd s (writeBack vs s p) (fun j => p ≤ j ∧ j < p + vs.length) (fun j => vs.getD (j - p) 0) := by
  rw [writeBack_eq]
  apply transferGo_upd
  intro i j h1 h2 h3 h4 e
  have hi : i - p < vs.length := by omega
  have hj : j - p < vs.length := by omega
  simp only [List.getD_eq_getElem?_getD, List.getElem?_eq_getElem hi, List.getElem?_eq_getElem hj, Option.getD_some] at e
  have := (List.Nodup.getElem_inj_iff hn).1 e
  omega

/-- Filling the first slots with a rearrangement. -/
theorem rep_writeBack {s : Arr} {hd : Id} {xs vs : List Id} (h : Rep s hd xs) (hp : vs.Perm xs) :
    Rep (writeBack vs s 0) hd vs ∧ (writeBack vs s 0).cap = s.cap := by
  have hn : (vs ++ [hd]).Nodup := (hp.append_right [hd]).nodup_iff.2 h.nodup
  have hu := writeBack_upd vs (hp.nodup_iff.2 h.nodup') s 0
  refine ⟨h.of_upd hu hp.length_eq hn ?_ ?_, hu.cap⟩
  · intro j hj
    rw [List.getElem?_append_left (by omega)]
    simp [List.getElem?_eq_getElem (show j < vs.length by omega)]
  · intro j hj hD
    have hl := hp.length_eq
    have : j = xs.length := by
      simp only [not_and, Nat.not_lt] at hD; have := hD (by omega); omega
    subst this
    rw [← hl]; simp; rw [hl]; simp

/-! ### capacity -/

theorem rep_setCapacity {s : Arr} {hd : Id} {xs : List Id} (junk : Nat → Id) (h : Rep s hd xs) {c : Nat} (hc : xs.length ≤ c) :
    Rep (setCapacity junk s c) hd xs ∧ (setCapacity junk s c).cap = c := by
  refine ⟨⟨?_, ?_, ?_⟩, rfl⟩
  · have := (transferGo_upd s.arr (s.size + 1) { s with arr := junk } 0 (fun i j _ h2 _ h4 e =>
      h.inj (by rw [← h.1]; omega) (by rw [← h.1]; omega) e)).size
    simpa [setCapacity] using this.trans h.1
  · have := (transferGo_upd s.arr (s.size + 1) { s with arr := junk } 0 (fun i j _ h2 _ h4 e =>
      h.inj (by rw [← h.1]; omega) (by rw [← h.1]; omega) e)).size
    show (transferGo s.arr (s.size + 1) { s with arr := junk } 0).size ≤ c
    rw [this]; simpa [h.1] using hc
  · have hu := transferGo_upd s.arr (s.size + 1) { s with arr := junk } 0 (fun i j _ h2 _ h4 e =>
      h.inj (by rw [← h.1]; omega) (by rw [← h.1]; omega) e)
    intro i v hv
    have hi : i < (xs ++ [hd]).length := by
      by_contra hc; rw [List.getElem?_eq_none (by omega)] at hv; cases hv
    have hl := h.1
    have := hu.inn i (by simp at hi; omega)
    have e := (h.2.2 i v hv).1
    rw [e] at this
    exact this

theorem rep_reserve {s : Arr} {hd : Id} {xs : List Id} (junk : Nat → Id) (h : Rep s hd xs) (c : Nat) :
    Rep (reserve junk s c) hd xs ∧ (reserve junk s c).cap = max s.cap c := by
  unfold reserve
  have h1 := h.1; have h2 := h.2.1
  split
  · have := rep_setCapacity junk h (c := c) (by omega)
    exact ⟨this.1, by rw [this.2]; omega⟩
  · exact ⟨h, by omega⟩

theorem rep_roomForOne {s : Arr} {hd : Id} {xs : List Id} (junk : Nat → Id) (h : Rep s hd xs) :
    Rep (roomForOne junk s) hd xs ∧ xs.length < (roomForOne junk s).cap ∧ s.cap ≤ (roomForOne junk s).cap := by
  unfold roomForOne
  have h1 := h.1; have h2 := h.2.1
  split
  · rename_i he
    split
    · obtain ⟨a, b⟩ := rep_reserve junk h 15
      exact ⟨a, by rw [b]; omega, by rw [b]; omega⟩
    · obtain ⟨a, b⟩ := rep_reserve junk h (s.cap + s.cap / 2)
      exact ⟨a, by rw [b]; omega, by rw [b]; omega⟩
  · exact ⟨h, by omega, by omega⟩

theorem rep_shrink {s : Arr} {hd : Id} {xs : List Id} (junk : Nat → Id) (h : Rep s hd xs) :
    Rep (shrinkToFit junk s) hd xs ∧ (shrinkToFit junk s).cap = xs.length := by
  unfold shrinkToFit
  have h1 := h.1; have h2 := h.2.1
  split
  · have := rep_setCapacity junk h (c := s.size) (by omega)
    exact ⟨this.1, by rw [this.2, h1]⟩
  · exact ⟨h, by omega⟩

theorem rep_empty (junk : Nat → Id) (up : Id → Nat) (hd : Id) : Rep (empty junk up hd) hd [] := by
  refine ⟨rfl, Nat.le_refl _, ?_⟩
  intro i v hv
  cases i with
  | zero => simp at hv; subst hv; simp [empty, Arr.put]
  | succ i => simp at hv

/-! ### push_back, erase, clear -/

theorem rep_pushBack {s : Arr} {hd x : Id} {xs : List Id} (h : Rep s hd xs) (hx : x ∉ hd :: xs) (hc : xs.length < s.cap) :
    ∃ s', pushBack s x = some s' ∧ Rep s' hd (xs ++ [x]) ∧ s'.cap = s.cap := by
  have h1 := h.1
  have hend := h.arr_end
  have hne : hd ≠ x := fun e => hx (by simp [e])
  unfold pushBack
  rw [if_pos (by omega)]
  refine ⟨_, rfl, ⟨?_, ?_, ?_⟩, rfl⟩
  · simp [Arr.put, h1]
  · simp [Arr.put, h1]; omega
  · have u1 := ((Upd.rfl' s s.arr).last (p := s.size + 1) (v := hd) (by simp) (by simp)).last (p := s.size) (v := x)
      (by simp) (by intro j hj; rw [if_pos (by simpa using hj)]; exact hne)
    have hs : s.arr s.size = hd := by rw [h1]; exact hend
    have hsz : ∀ p v, (s.put p v).size = s.size := fun _ _ => rfl
    simp only [hs, hsz]
    have hnd : (xs ++ [x] ++ [hd]).Nodup := by
      have := h.nodup
      have hm : x ∉ xs := fun e => hx (by simp [e])
      simp only [List.nodup_append, List.mem_append, List.mem_singleton] at this ⊢
      grind
    have := slots_of_upd (ys' := xs ++ [x] ++ [hd]) h.2.2 u1 hnd (by
      intro j hj
      rcases hj with rfl | rfl | hf
      · rw [if_pos rfl, h1]; simp
      · rw [if_neg (by omega), if_pos rfl, h1]; simp
      · exact hf.elim) (by
      intro j hj hD
      simp only [not_or] at hD
      simp only [List.length_append, List.length_cons, List.length_nil] at hj
      have : j < xs.length := by omega
      grind)
    exact this

theorem rep_erase {s : Arr} {hd x : Id} {u v : List Id} (h : Rep s hd (u ++ x :: v)) :
    Rep (erase s x) hd (u ++ v) ∧ (erase s x).cap = s.cap := by
  have h1 := h.1
  have h2 := h.2.1
  simp only [List.length_append, List.length_cons] at h1
  obtain ⟨hup, _⟩ := h.up_split
  have hu := extractGo_upd (v.length + 1) s u.length (fun i j a b c d e =>
    h.inj (by simp; omega) (by simp; omega) e)
  have eE : extract s (s.up x) (s.size + 1) = extractGo (v.length + 1) s u.length := by
    unfold extract; rw [hup]; congr 1; omega
  have hs := hu.size
  have hc := hu.cap
  unfold erase
  rw [eE]
  refine ⟨⟨?_, ?_, ?_⟩, hc⟩
  · simp [hs, h1]
  · simp only [hs, hc]; omega
  · have hnd : (u ++ v ++ [hd]).Nodup := by
      have := h.nodup
      refine this.sublist ?_
      simp
    show ∀ i w, (u ++ v ++ [hd])[i]? = some w → (extractGo (v.length + 1) s u.length).arr i = w ∧ (extractGo (v.length + 1) s u.length).up w = i
    refine slots_of_upd (s := s) (ys' := u ++ v ++ [hd]) h.2.2 hu hnd ?_ ?_
    · intro j hj
      rcases Nat.lt_or_ge (j + 1) (u.length + v.length + 1) with hl | hl
      · rw [h.arr (by simp; omega)]
        grind
      · have : j + 1 = (u ++ x :: v).length := by simp; omega
        rw [this, h.arr_end]
        have : j = (u ++ v).length := by simp; omega
        rw [this]; simp
    · intro j hj hD
      simp only [not_and, Nat.not_lt] at hD
      simp only [List.length_append, List.length_cons, List.length_nil] at hj
      have : j < u.length := by
        by_contra hc
        have := hD (by omega)
        omega
      grind

theorem rep_clear {s : Arr} {hd : Id} {xs : List Id} (h : Rep s hd xs) :
    Rep (clear s) hd [] ∧ (clear s).cap = s.cap := by
  have h1 := h.1
  have hend := h.arr_end
  refine ⟨⟨rfl, by simp [clear, Arr.put], ?_⟩, rfl⟩
  intro i v hv
  cases i with
  | zero =>
    simp at hv; subst hv
    simp [clear, Arr.put, h1, hend]
  | succ i => simp at hv

/-! ### relocation -/

theorem rep_relocate {s : Arr} {hd x : Id} {u v p q : List Id} (h : Rep s hd (u ++ x :: v)) (e : u ++ v = p ++ q) :
    Rep (relocate s (hdOr hd q) x) hd (p ++ x :: q) := by
  have hnd := h.nodup
  have hne : hdOr hd q ≠ x := by
    intro hp
    have : x ∈ u ++ v ++ [hd] := by
      rw [e, ← hp]; cases q <;> simp [hdOr]
    simp only [List.nodup_append, List.mem_append, List.mem_cons, List.nodup_cons] at hnd this
    grind
  unfold relocate
  rw [if_pos hne, h.up_split.1]
  refine rep_relocate1 h e ?_
  -- the position of q in the original list
  have hlen := congrArg List.length e
  simp only [List.length_append] at hlen
  rcases Nat.le_total u.length p.length with hlt | hlt
  · -- p = u ++ w, v = w ++ q
    obtain ⟨w, hw⟩ : ∃ w, p = u ++ w := by
      have : u <+: p := List.prefix_of_prefix_length_le (l₃ := p ++ q) (e ▸ List.prefix_append u v) (List.prefix_append p q) (by omega)
      exact ⟨_, this.choose_spec.symm⟩
    subst hw
    have hv : v = w ++ q := by simpa using e
    subst hv
    have := (show Rep s hd ((u ++ x :: w) ++ q) by simpa using h).up_hdOr.1
    refine Or.inl ⟨hlt, ?_⟩
    rw [this]; simp; omega
  · obtain ⟨w, hw⟩ : ∃ w, u = p ++ w := by
      have : p <+: u := List.prefix_of_prefix_length_le (l₃ := p ++ q) (List.prefix_append p q) (e ▸ List.prefix_append u v) (by omega)
      exact ⟨_, this.choose_spec.symm⟩
    subst hw
    have hq : w ++ v = q := by simpa using e
    subst hq
    cases w with
    | nil =>
      have := (show Rep s hd ((p ++ [x]) ++ v) by simpa using h).up_hdOr.1
      refine Or.inl ⟨by simp, ?_⟩
      simpa using this
    | cons y w =>
      have := (show Rep s hd (p ++ y :: (w ++ x :: v)) by simpa using h).up_hdOr.1
      exact Or.inr ⟨hlt, by simpa [hdOr] using this⟩

theorem relocate1_cap (s : Arr) (pos x : Nat) : (relocate1 s pos x).cap = s.cap := by
  have h1 : ∀ n (s : Arr) x, (extractGo n s x).cap = s.cap := by
    intro n; induction n with
    | zero => intros; rfl
    | succ n ih => intro s x; simp only [extractGo, ih]; rfl
  have h2 : ∀ n (s : Arr) x, (shiftGo n s x).cap = s.cap := by
    intro n; induction n with
    | zero => intros; rfl
    | succ n ih => intro s x; simp only [shiftGo, ih]; rfl
  unfold relocate1
  split
  · simp [Arr.put, extract, h1]
  · simp [Arr.put, h2]

theorem cyclesGo_cap (b n nm m : Nat) : ∀ r (s : Arr) i s', cyclesGo b n nm m r s i = some s' → s'.cap = s.cap := by
  have h1 : ∀ i tmp fuel (s : Arr) j s', cycleGo b nm m i tmp fuel s j = some s' → s'.cap = s.cap := by
    intro i tmp fuel
    induction fuel with
    | zero => intro s j s' h; simp [cycleGo] at h
    | succ f ih =>
      intro s j s' h
      simp only [cycleGo] at h
      generalize (if j < nm then j + m else j - nm) = k at h
      split at h
      · simp at h; rw [← h]; rfl
      · generalize (if k < nm then k + m else k - nm) = k2 at h
        split at h
        · simp at h; rw [← h]; rfl
        · have := ih _ _ _ h; rw [this]; rfl
  intro r
  induction r with
  | zero => intro s i s' h; simp [cyclesGo] at h; rw [h]
  | succ r ih =>
    intro s i s' h
    simp only [cyclesGo] at h
    rcases Option.eq_none_or_eq_some (cycleGo b nm m i (s.arr (b + i)) n s i) with hd | ⟨s1, hd⟩
    · rw [hd] at h; simp at h
    · rw [hd] at h
      rw [ih _ _ _ h, h1 _ _ _ _ _ _ hd]

/-- The relocation of a block. -/
theorem rep_relocateRange {s : Arr} {hd : Id} {u blk v p q : List Id} (h : Rep s hd (u ++ blk ++ v)) (e : u ++ v = p ++ q) :
    ∃ s', relocateRange s (hdOr hd q) (hdOr hd (blk ++ v)) (hdOr hd v) = some s' ∧ Rep s' hd (p ++ blk ++ q) ∧ s'.cap = s.cap := by
  unfold relocateRange
  have h1 := h.up_hdOr.1
  have h2 := (show Rep s hd (u ++ (blk ++ v)) by simpa using h).up_hdOr.1
  have hlen := congrArg List.length e
  simp only [List.length_append] at hlen
  rcases Nat.lt_or_ge u.length p.length with hlt | hlt
  · -- moved towards the end
    obtain ⟨w, hw⟩ : ∃ w, p = u ++ w := by
      have : u <+: p := List.prefix_of_prefix_length_le (l₃ := p ++ q) (e ▸ List.prefix_append u v) (List.prefix_append p q) (by omega)
      exact ⟨_, this.choose_spec.symm⟩
    subst hw
    have hv : v = w ++ q := by simpa using e
    subst hv
    have h3 := (show Rep s hd ((u ++ blk ++ w) ++ q) by simpa using h).up_hdOr.1
    have hne : hdOr hd q ≠ hdOr hd (w ++ q) := by
      intro e; rw [e, h1] at h3; simp at h3; simp [h3] at hlt
    rw [if_pos hne, h1, h2, h3]
    unfold relocateR
    simp only [List.length_append]
    rw [if_neg (by omega)]
    obtain ⟨s', e', r⟩ := rep_rotate (u := u) (x := blk) (y := w) (v := q) (by simpa using h)
    refine ⟨s', ?_, by simpa using r, cyclesGo_cap _ _ _ _ _ _ _ _ e'⟩
    rw [← e']
    simp only
    congr 1 <;> first | omega | (congr 1 <;> omega)
  · obtain ⟨w, hw⟩ : ∃ w, u = p ++ w := by
      have : p <+: u := List.prefix_of_prefix_length_le (l₃ := p ++ q) (List.prefix_append p q) (e ▸ List.prefix_append u v) (by omega)
      exact ⟨_, this.choose_spec.symm⟩
    subst hw
    have hq : w ++ v = q := by simpa using e
    subst hq
    cases w with
    | nil => exact ⟨s, by simp, by simpa using h, rfl⟩
    | cons y w =>
      have h3 := (show Rep s hd (p ++ y :: (w ++ blk ++ v)) by simpa using h).up_hdOr.1
      have h3' : s.up (hdOr hd (y :: w ++ v)) = p.length := by simpa [hdOr] using h3
      have hne : hdOr hd (y :: w ++ v) ≠ hdOr hd v := by
        intro e; rw [e, h1] at h3'; simp at h3'
      rw [if_pos hne, h1, h2, h3']
      unfold relocateR
      simp only [List.length_append, List.length_cons]
      rw [if_pos (by omega)]
      obtain ⟨s', e', r⟩ := rep_rotate (u := p) (x := y :: w) (y := blk) (v := v) (by simpa using h)
      refine ⟨s', ?_, by simpa using r, cyclesGo_cap _ _ _ _ _ _ _ _ e'⟩
      rw [← e']
      simp only [List.length_cons]
      congr 1 <;> first | omega | (congr 1 <;> omega)

end MI.Rnd
