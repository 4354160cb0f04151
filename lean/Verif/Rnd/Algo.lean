import Verif.Rnd.Ops
/-! Helper lemmas: insertion, range erasure and algorithms of the random access index. -/
namespace MI.Rnd
open MI

theorem rep_insert_ {s : Arr} {hd x : Id} {xs : List Id} (junk : Nat → Id) (h : Rep s hd xs) (hx : x ∉ hd :: xs) (acc : Bool) :
    ∃ s', insert_ junk s x acc = some s' ∧ Rep s' hd (if acc then xs ++ [x] else xs) ∧ s.cap ≤ s'.cap := by
  obtain ⟨h1, h2, h3⟩ := rep_roomForOne junk h
  unfold insert_
  cases acc with
  | false => exact ⟨_, rfl, h1, h3⟩
  | true =>
    obtain ⟨s', e, r, c⟩ := rep_pushBack h1 hx h2
    exact ⟨s', e, r, by omega⟩

theorem rep_insertAt {s : Arr} {hd x : Id} {p q : List Id} (junk : Nat → Id) (h : Rep s hd (p ++ q))
    (hx : x ∉ hd :: (p ++ q)) :
    ∃ s', insertAt junk s hd (hdOr hd q) x true = some s' ∧ Rep s' hd (p ++ x :: q) ∧ s.cap ≤ s'.cap := by
  obtain ⟨s1, e1, r1, c1⟩ := rep_insert_ junk h hx true
  unfold insertAt
  rw [e1]
  simp only [true_and]
  simp only [if_true] at r1
  cases q with
  | nil => exact ⟨s1, by simp [hdOr], by simpa using r1, c1⟩
  | cons y q =>
    have hy : hd ≠ y := by
      have := h.notMem; intro e; exact this (by simp [e])
    have hne : x ≠ y := fun e => hx (by simp [e])
    have : hdOr hd (y :: q) = y := rfl
    rw [this, if_pos (Ne.symm hy)]
    refine ⟨_, rfl, ?_, by rw [relocate1_cap]; exact c1⟩
    have := rep_relocate (u := p ++ y :: q) (x := x) (v := []) (p := p) (q := y :: q) r1 (by simp)
    unfold relocate at this
    have e2 : hdOr hd (y :: q) = y := rfl
    rw [e2, if_pos (Ne.symm hne)] at this
    exact this

theorem rep_insertLoop (junk : Nat → Id) {hd : Id} (vs : List (Id × Option Bool)) : ∀ {s : Arr} {xs : List Id} {n : Nat},
    Rep s hd xs → (vs.map Prod.fst).Nodup → (∀ x ∈ vs.map Prod.fst, x ∉ hd :: xs) →
    ∃ s', insertLoop junk vs s n = some (s', n + (addedBy vs).1.length, (addedBy vs).2) ∧ Rep s' hd (xs ++ (addedBy vs).1) ∧
      s.cap ≤ s'.cap := by
  induction vs with
  | nil => intro s xs n h _ _; exact ⟨s, by simp [insertLoop, addedBy], by simpa [addedBy] using h, Nat.le_refl _⟩
  | cons w vs ih =>
    intro s xs n h hn hx
    obtain ⟨x, b⟩ := w
    cases b with
    | none =>
      obtain ⟨h1, _, h3⟩ := rep_roomForOne junk h
      exact ⟨_, by simp [insertLoop, addedBy], by simpa [addedBy] using h1, h3⟩
    | some acc =>
      obtain ⟨s1, e1, r1, c1⟩ := rep_insert_ junk h (hx x (by simp)) acc
      simp only [List.map_cons, List.nodup_cons] at hn
      simp only [insertLoop, e1]
      cases acc with
      | false =>
        obtain ⟨s', e, r, c⟩ := ih (n := n) r1 hn.2 (fun y hy => hx y (by simp [hy]))
        exact ⟨s', by simpa [addedBy] using e, by simpa [addedBy] using r, by omega⟩
      | true =>
        obtain ⟨s', e, r, c⟩ := ih (n := n + 1) r1 hn.2 (fun y hy => by
          have h1 := hx y (by simp only [List.map_cons, List.mem_cons]; exact Or.inr hy)
          have h2 : y ≠ x := fun e => hn.1 (e ▸ hy)
          simp only [if_true, List.mem_cons, List.mem_append, not_or, List.not_mem_nil, or_false] at h1 ⊢
          exact ⟨h1.1, h1.2, h2⟩)
        refine ⟨s', ?_, by simpa [addedBy] using r, by omega⟩
        simp only [if_true, e, addedBy, List.length_cons]
        have : n + 1 + (addedBy vs).1.length = n + ((addedBy vs).1.length + 1) := by omega
        rw [this]

theorem rep_insertIter (junk : Nat → Id) {s : Arr} {hd : Id} {p q : List Id} {vs : List (Id × Option Bool)}
    (h : Rep s hd (p ++ q)) (hn : (vs.map Prod.fst).Nodup) (hx : ∀ x ∈ vs.map Prod.fst, x ∉ hd :: (p ++ q)) :
    ∃ s', insertIter junk s hd (hdOr hd q) vs = (if (addedBy vs).2 then .ok s' else .threw s') ∧
      Rep s' hd (p ++ (addedBy vs).1 ++ q) ∧ s.cap ≤ s'.cap := by
  obtain ⟨s1, e1, r1, c1⟩ := rep_insertLoop junk vs (n := 0) h hn hx
  unfold insertIter
  rw [e1]
  simp only [Nat.zero_add]
  have r2 : Rep s1 hd ((p ++ q) ++ (addedBy vs).1 ++ []) := by simpa using r1
  have hf : advance s1 hd (-((addedBy vs).1.length : Int)) = hdOr hd ((addedBy vs).1 ++ []) := by
    have a := (show Rep s1 hd ((p ++ q) ++ ((addedBy vs).1 ++ [])) by simpa using r1).up_hdOr.2
    rw [← a]
    unfold advance
    have b := r1.up_end
    rw [b]; congr 1
    simp only [List.length_append]; omega
  obtain ⟨s', e', r', c'⟩ := rep_relocateRange r2 (p := p) (q := q) (by simp)
  have hl : hdOr hd ([] : List Id) = hd := rfl
  rw [hl, ← hf] at e'
  rw [e']
  exact ⟨s', rfl, r', by omega⟩

theorem rep_popBackN {hd : Id} (n : Nat) : ∀ {s : Arr} {xs : List Id}, Rep s hd xs → n ≤ xs.length →
    Rep (popBackN hd n s) hd (xs.take (xs.length - n)) ∧ (popBackN hd n s).cap = s.cap := by
  induction n with
  | zero => intro s xs h _; simpa [popBackN] using h
  | succ n ih =>
    intro s xs h hn
    rcases List.eq_nil_or_concat' xs with rfl | ⟨ys, y, rfl⟩
    · simp at hn
    · have hd' : decrement s hd = y := by
        unfold decrement
        rw [h.up_end]
        have := h.up_split.2
        simpa using this
      simp only [popBackN]
      rw [hd']
      obtain ⟨h1, h2⟩ := rep_erase h
      simp only [List.append_nil] at h1
      simp only [List.length_append, List.length_cons, List.length_nil] at hn ⊢
      obtain ⟨h3, h4⟩ := ih h1 (by omega)
      refine ⟨?_, by omega⟩
      have : ys.length + (0 + 1) - (n + 1) = ys.length - n := by omega
      rw [this, List.take_append_of_le_length (by omega)]; exact h3

theorem rep_eraseRange {s : Arr} {hd : Id} {u blk v : List Id} (h : Rep s hd (u ++ blk ++ v)) :
    ∃ s', eraseRange s hd (hdOr hd (blk ++ v)) (hdOr hd v) = some s' ∧ Rep s' hd (u ++ v) ∧ s'.cap = s.cap := by
  unfold eraseRange
  have h1 := h.up_hdOr.1
  have h2 := (show Rep s hd (u ++ (blk ++ v)) by simpa using h).up_hdOr.1
  obtain ⟨s', e', r', c'⟩ := rep_relocateRange h (p := u ++ v) (q := []) (by simp)
  have hl : hdOr hd ([] : List Id) = hd := rfl
  rw [hl] at e'
  simp only [distance, h1, h2, e']
  have hn : ((((u ++ blk).length : Nat) : Int) - ((u.length : Nat) : Int)).toNat = blk.length := by
    simp only [List.length_append]; omega
  rw [hn]
  obtain ⟨a, b⟩ := rep_popBackN blk.length (xs := u ++ v ++ blk) (by simpa using r') (by simp only [List.length_append]; omega)
  refine ⟨_, rfl, ?_, by omega⟩
  have e : (u ++ v ++ blk).length - blk.length = (u ++ v).length := by simp only [List.length_append]; omega
  rw [e, List.take_left] at a
  exact a

/-! ### swapping slots -/

theorem swapSlots_upd (s : Arr) (p q : Nat) (h : s.arr p = s.arr q → p = q) :
    Upd s (s.swapSlots p q) (fun j => j = p ∨ j = q) (fun j => if j = p then s.arr q else s.arr p) where
  size := rfl
  cap := rfl
  inn j hj := by
    by_cases hpq : p = q
    · subst hpq
      have : j = p := by rcases hj with h | h <;> exact h
      subst this
      simp [Arr.swapSlots]
    · have hne : s.arr p ≠ s.arr q := fun e => hpq (h e)
      by_cases hjp : j = p
      · subst hjp
        simp [Arr.swapSlots, upd_other _ _ hpq, upd_other _ _ hne.symm]
      · have : j = q := by rcases hj with h | h; exact absurd h hjp; exact h
        subst this
        simp [Arr.swapSlots, hjp]
  out j hj := by
    simp only [not_or] at hj
    simp [Arr.swapSlots, upd_other _ _ hj.1, upd_other _ _ hj.2]
  oup v hv := by
    by_cases hpq : p = q
    · subst hpq
      have := hv p (Or.inl rfl)
      simp at this
      simp [Arr.swapSlots, upd_other _ _ (Ne.symm this)]
    · have h1 := hv p (Or.inl rfl)
      have h2 := hv q (Or.inr rfl)
      simp only [if_true] at h1
      rw [if_neg (Ne.symm hpq)] at h2
      simp [Arr.swapSlots, upd_other _ _ hpq, upd_other _ _ (Ne.symm h1), upd_other _ _ (Ne.symm h2)]

theorem rep_swap {s : Arr} {hd a b : Id} {u m v : List Id} (h : Rep s hd (u ++ a :: m ++ b :: v)) :
    Rep (s.swapSlots u.length (u.length + 1 + m.length)) hd (u ++ b :: m ++ a :: v) := by
  have ha := (show Rep s hd (u ++ a :: (m ++ b :: v)) by simpa using h).up_split.2
  have hb := (show Rep s hd ((u ++ a :: m) ++ b :: v) by simpa using h).up_split.2
  have el : (u ++ a :: m).length = u.length + 1 + m.length := by simp; omega
  rw [el] at hb
  have hu := swapSlots_upd s u.length (u.length + 1 + m.length) (fun e => h.inj (by simp) (by simp; omega) e)
  refine h.of_upd hu (by simp) ?_ ?_ ?_
  · have p1 : (u ++ a :: m ++ b :: v ++ [hd]).Perm (u ++ b :: m ++ a :: v ++ [hd]) := by
      refine List.Perm.append_right _ ?_
      simp only [List.append_assoc]
      refine List.Perm.append_left _ ?_
      simp only [List.cons_append]
      refine (List.perm_middle.cons a).trans ?_
      refine (List.Perm.swap b a _).trans ?_
      exact (List.perm_middle.symm).cons b
    exact p1.nodup_iff.1 h.nodup
  · intro j hj
    by_cases hju : j = u.length
    · rw [if_pos hju, hb, hju]; grind
    · have : j = u.length + 1 + m.length := by rcases hj with h | h; exact absurd h hju; exact h
      rw [if_neg hju, ha, this]; grind
  · intro j hj hD
    simp only [not_or] at hD
    grind

theorem rep_swap_same {s : Arr} {hd a : Id} {u v : List Id} (h : Rep s hd (u ++ a :: v)) :
    Rep (s.swapSlots u.length u.length) hd (u ++ a :: v) := by
  have ha := h.up_split.2
  have hu := swapSlots_upd s u.length u.length (fun _ => rfl)
  refine h.of_upd hu rfl h.nodup ?_ ?_
  · intro j hj
    have : j = u.length := by rcases hj with h | h <;> exact h
    subst this
    simp [ha]
  · intro j _ _; rfl

theorem rep_reverseGo {hd : Id} (d : Nat) : ∀ {s : Arr} {u m v : List Id}, Rep s hd (u ++ m ++ v) → d = m.length / 2 →
    Rep (reverseGo d s u.length (u.length + m.length)) hd (u ++ m.reverse ++ v) ∧
      (reverseGo d s u.length (u.length + m.length)).cap = s.cap := by
  induction d with
  | zero =>
    intro s u m v h hm
    match m, hm with
    | [], _ => exact ⟨h, rfl⟩
    | [x], _ => exact ⟨h, rfl⟩
    | x :: y :: m, hm => simp at hm; omega
  | succ d ih =>
    intro s u m v h hm
    match m, hm with
    | [], hm => simp at hm
    | [x], hm => simp at hm
    | x :: y :: m, hm =>
      obtain ⟨w, z, hw⟩ : ∃ w z, y :: m = w ++ [z] := by
        rcases List.eq_nil_or_concat' (y :: m) with h | ⟨w, z, h⟩
        · simp at h
        · exact ⟨w, z, h⟩
      rw [hw] at h hm ⊢
      have h1 := rep_swap (u := u) (a := x) (m := w) (b := z) (v := v) (by simpa using h)
      simp only [reverseGo]
      have e1 : u.length + (x :: (w ++ [z])).length - 1 = u.length + 1 + w.length := by simp; omega
      rw [e1]
      have hd2 : d = w.length / 2 := by
        simp only [List.length_cons, List.length_append, List.length_nil] at hm; omega
      obtain ⟨h2, c2⟩ := ih (u := u ++ [z]) (m := w) (v := x :: v) (by simpa using h1) hd2
      have e2 : (u ++ [z]).length = u.length + 1 := by simp
      rw [e2] at h2 c2
      exact ⟨by simpa using h2, c2⟩

theorem rep_reverse {s : Arr} {hd : Id} {xs : List Id} (h : Rep s hd xs) :
    Rep (reverse s) hd xs.reverse ∧ (reverse s).cap = s.cap := by
  unfold reverse
  have := rep_reverseGo (hd := hd) (s.size / 2) (u := []) (m := xs) (v := []) (by simpa using h) (by rw [h.1])
  simpa [h.1] using this

theorem rep_rearrangeGo {hd : Id} (vs : List Id) : ∀ {s : Arr} {dn rest : List Id}, Rep s hd (dn ++ rest) → vs.Perm rest →
    Rep (rearrangeGo vs s dn.length) hd (dn ++ vs) ∧ (rearrangeGo vs s dn.length).cap = s.cap := by
  induction vs with
  | nil =>
    intro s dn rest h hp
    have : rest = [] := List.nil_perm.1 hp
    subst this; exact ⟨h, rfl⟩
  | cons v vs ih =>
    intro s dn rest h hp
    have hm : v ∈ rest := hp.subset (by simp)
    simp only [rearrangeGo]
    cases rest with
    | nil => simp at hm
    | cons r rest =>
      by_cases hv : v = r
      · subst hv
        rw [h.up_split.1]
        have h1 := rep_swap_same h
        have := ih (dn := dn ++ [v]) (rest := rest) (by simpa using h1) (List.Perm.cons_inv hp)
        simp only [List.length_append, List.length_cons, List.length_nil, Nat.zero_add] at this
        exact ⟨by simpa using this.1, this.2⟩
      · have hm' : v ∈ rest := by simpa [hv] using hm
        obtain ⟨a, b, rfl⟩ := List.append_of_mem hm'
        have hup := (show Rep s hd ((dn ++ r :: a) ++ v :: b) by simpa using h).up_split.1
        have el : (dn ++ r :: a).length = dn.length + 1 + a.length := by simp; omega
        rw [hup, el]
        have h1 := rep_swap (u := dn) (a := r) (m := a) (b := v) (v := b) (by simpa using h)
        have hp2 : vs.Perm (a ++ r :: b) := by
          have p1 : (v :: vs).Perm (v :: (a ++ r :: b)) := by
            refine hp.trans ?_
            refine (List.perm_middle.cons r).trans ?_
            refine (List.Perm.swap v r _).trans ?_
            exact (List.perm_middle.symm).cons v
          exact List.Perm.cons_inv p1
        have := ih (dn := dn ++ [v]) (rest := a ++ r :: b) (by simpa using h1) hp2
        simp only [List.length_append, List.length_cons, List.length_nil, Nat.zero_add] at this
        exact ⟨by simpa using this.1, this.2⟩

/-! ### remove_if, unique -/

/-- List level loop of `remove`: (no exception, kept, everything behind). -/
def remL (pred : Nat → Id → Option Bool) : Nat → List Id → List Id → List Id → Bool × List Id × List Id
  | _, kept, gone, [] => (true, kept, gone)
  | k, kept, gone, x :: xs =>
    match pred k x with
    | none => (false, kept, gone ++ x :: xs)
    | some true => remL pred (k + 1) kept (gone ++ [x]) xs
    | some false => remL pred (k + 1) (kept ++ [x]) (gone.tail ++ gone.take 1) xs

/-- Outcome with a state. -/
def mkOut {α : Type} (b : Bool) (a : α) : Out α := if b then .ok a else .threw a

theorem rep_keep {s : Arr} {hd x : Id} {kept gone xs : List Id} (h : Rep s hd (kept ++ gone ++ x :: xs)) :
    Rep (if kept.length + gone.length ≠ kept.length then s.swapSlots (kept.length + gone.length) kept.length else s) hd
      ((kept ++ [x]) ++ (gone.tail ++ gone.take 1) ++ xs) ∧
    (if kept.length + gone.length ≠ kept.length then s.swapSlots (kept.length + gone.length) kept.length else s).cap = s.cap := by
  cases gone with
  | nil => simpa using h
  | cons g gs =>
    rw [if_pos (by simp)]
    refine ⟨?_, rfl⟩
    have h1 := rep_swap (u := kept) (a := g) (m := gs) (b := x) (v := xs) (by simpa using h)
    have hg := (show Rep s hd (kept ++ g :: (gs ++ x :: xs)) by simpa using h).up_split
    have hx := (show Rep s hd ((kept ++ g :: gs) ++ x :: xs) by simpa using h).up_split
    have el : (kept ++ g :: gs).length = kept.length + (gs.length + 1) := by simp
    rw [el] at hx
    have e2 : kept.length + 1 + gs.length = kept.length + (gs.length + 1) := by omega
    rw [e2] at h1
    have hne : g ≠ x := by
      intro e; rw [← e] at hx; have := hx.1.symm.trans hg.1; omega
    have hpq : kept.length ≠ kept.length + (gs.length + 1) := by omega
    have e3 : s.swapSlots (kept.length + (gs.length + 1)) kept.length = s.swapSlots kept.length (kept.length + (gs.length + 1)) := by
      simp only [Arr.swapSlots, hg.2, hx.2]
      have a1 : upd (upd s.arr (kept.length + (gs.length + 1)) g) kept.length x = upd (upd s.arr kept.length x) (kept.length + (gs.length + 1)) g := by
        funext j; simp only [upd]; split <;> split <;> first | rfl | omega
      rw [a1]
      congr 1
      simp only [upd_same, upd_other _ _ hpq]
      funext j; simp only [upd]; split <;> split <;> first | rfl | (exfalso; rename_i a b; exact hne (by rw [← a, ← b]))
    simp only [List.length_cons]
    rw [e3]
    simpa using h1

theorem rep_removeGo (pred : Nat → Id → Option Bool) {hd : Id} (rest : List Id) : ∀ {s : Arr} {kept gone : List Id} {k : Nat},
    Rep s hd (kept ++ gone ++ rest) →
    ∃ s', removeGo pred rest.length s k (kept.length + gone.length) kept.length =
        mkOut (remL pred k kept gone rest).1 (s', (remL pred k kept gone rest).2.1.length) ∧
      Rep s' hd ((remL pred k kept gone rest).2.1 ++ (remL pred k kept gone rest).2.2) ∧ s'.cap = s.cap := by
  induction rest with
  | nil => intro s kept gone k h; exact ⟨s, rfl, by simpa [remL] using h, rfl⟩
  | cons x xs ih =>
    intro s kept gone k h
    have hx := h.up_split.2
    simp only [List.length_append] at hx
    simp only [List.length_cons, removeGo, hx, remL]
    rcases Option.eq_none_or_eq_some (pred k x) with hd' | ⟨b, hd'⟩
    · simp only [hd']
      exact ⟨s, rfl, by simpa using h, rfl⟩
    · simp only [hd']
      cases b with
      | true =>
        obtain ⟨s', e, r, c⟩ := ih (k := k + 1) (kept := kept) (gone := gone ++ [x]) (by simpa using h)
        refine ⟨s', ?_, r, c⟩
        rw [← e]; simp [Nat.add_assoc]
      | false =>
        obtain ⟨h1, c1⟩ := rep_keep h
        obtain ⟨s', e, r, c⟩ := ih (k := k + 1) h1
        refine ⟨s', ?_, r, by omega⟩
        rw [← e]
        have e1 : (kept ++ [x]).length = kept.length + 1 := by simp
        have e2 : (gone.tail ++ gone.take 1).length = gone.length := by cases gone <;> simp
        rw [e1, e2]
        simp only
        congr 1; omega

theorem remL_pure {pred : Nat → Id → Option Bool} {p : Id → Bool} (hp : ∀ k x, pred k x = some (p x))
    (xs : List Id) : ∀ (k : Nat) (kept gone : List Id),
    (remL pred k kept gone xs).1 = true ∧ (remL pred k kept gone xs).2.1 = kept ++ xs.filter (fun x => !p x) := by
  induction xs with
  | nil => intro k kept gone; simp [remL]
  | cons x xs ih =>
    intro k kept gone
    simp only [remL, hp]
    cases hx : p x with
    | true => simpa [hx] using ih (k + 1) kept (gone ++ [x])
    | false => simpa [hx] using ih (k + 1) (kept ++ [x]) (gone.tail ++ gone.take 1)

theorem tail_take_perm {α : Type} (l : List α) : (l.tail ++ l.take 1).Perm l := by
  cases l with
  | nil => simp
  | cons a l => simp

theorem remL_perm (pred : Nat → Id → Option Bool) (xs : List Id) : ∀ (k : Nat) (kept gone : List Id),
    ((remL pred k kept gone xs).2.1 ++ (remL pred k kept gone xs).2.2).Perm (kept ++ gone ++ xs) := by
  induction xs with
  | nil => intro k kept gone; simp [remL]
  | cons x xs ih =>
    intro k kept gone
    simp only [remL]
    cases pred k x with
    | none => simp
    | some b =>
      cases b with
      | true => simpa using ih (k + 1) kept (gone ++ [x])
      | false =>
        refine (ih (k + 1) (kept ++ [x]) (gone.tail ++ gone.take 1)).trans ?_
        simp only [List.append_assoc]
        refine List.Perm.append_left _ ?_
        refine (List.Perm.trans ?_ (List.perm_middle (l₁ := gone) (l₂ := xs) (a := x)).symm)
        simp only [List.singleton_append]
        refine List.Perm.cons _ ?_
        rw [← List.append_assoc]
        exact (tail_take_perm gone).append_right _

theorem rep_popTail {s : Arr} {hd : Id} {a b : List Id} (h : Rep s hd (a ++ b)) :
    Rep (popBackN hd (distance s (s.arr a.length) hd).toNat s) hd a ∧
      (popBackN hd (distance s (s.arr a.length) hd).toNat s).cap = s.cap := by
  have h1 := h.up_hdOr
  have h2 := h.up_end
  have e : (distance s (s.arr a.length) hd).toNat = b.length := by
    unfold distance
    rw [h1.2, h1.1, h2]; simp only [List.length_append]; omega
  rw [e]
  have := rep_popBackN b.length h (by simp only [List.length_append]; omega)
  have e2 : (a ++ b).length - b.length = a.length := by simp only [List.length_append]; omega
  rw [e2, List.take_left] at this
  exact this

theorem rep_removeIf (pred : Nat → Id → Option Bool) {s : Arr} {hd : Id} {xs : List Id} (h : Rep s hd xs) :
    ∃ s', removeIf pred s hd = mkOut (remL pred 0 [] [] xs).1 s' ∧ s'.cap = s.cap ∧
      Rep s' hd ((remL pred 0 [] [] xs).2.1 ++ if (remL pred 0 [] [] xs).1 then [] else (remL pred 0 [] [] xs).2.2) := by
  obtain ⟨s', e, r, c⟩ := rep_removeGo pred xs (s := s) (kept := []) (gone := []) (k := 0) (by simpa using h)
  unfold removeIf
  simp only [List.length_nil, Nat.add_zero] at e
  rw [h.1, e]
  cases hb : (remL pred 0 [] [] xs).1 with
  | true =>
    have := rep_popTail r
    exact ⟨_, rfl, by rw [this.2, c], by simpa using this.1⟩
  | false => exact ⟨s', rfl, c, by simpa using r⟩

/-- List level loop of `unique`: `f` is the last kept element. -/
def uniL (pred : Nat → Id → Id → Option Bool) : Nat → List Id → Id → List Id → List Id → Bool × List Id × List Id
  | _, kept, f, gone, [] => (true, kept ++ [f], gone)
  | k, kept, f, gone, x :: xs =>
    match pred k f x with
    | none => (false, kept ++ [f], gone ++ x :: xs)
    | some true => uniL pred (k + 1) kept f (gone ++ [x]) xs
    | some false => uniL pred (k + 1) (kept ++ [f]) x (gone.tail ++ gone.take 1) xs

theorem rep_uniqueGo (pred : Nat → Id → Id → Option Bool) {hd : Id} (rest : List Id) :
    ∀ {s : Arr} {kept gone : List Id} {f : Id} {k : Nat}, Rep s hd (kept ++ [f] ++ gone ++ rest) →
    ∃ s', (uniqueGo pred rest.length s k (kept.length + 1 + gone.length) kept.length =
        (if (uniL pred k kept f gone rest).1 then .ok (s', (uniL pred k kept f gone rest).2.1.length)
         else .threw (s', (uniL pred k kept f gone rest).2.1.length - 1))) ∧
      Rep s' hd ((uniL pred k kept f gone rest).2.1 ++ (uniL pred k kept f gone rest).2.2) ∧ s'.cap = s.cap := by
  induction rest with
  | nil => intro s kept gone f k h; exact ⟨s, by simp [uniqueGo, uniL], by simpa [uniL] using h, rfl⟩
  | cons x xs ih =>
    intro s kept gone f k h
    have hx := (show Rep s hd ((kept ++ [f] ++ gone) ++ x :: xs) by simpa using h).up_split.2
    have hf := (show Rep s hd (kept ++ f :: (gone ++ x :: xs)) by simpa using h).up_split.2
    simp only [List.length_append, List.length_cons, List.length_nil, Nat.zero_add] at hx
    simp only [List.length_cons, uniqueGo, hx, hf, uniL]
    rcases Option.eq_none_or_eq_some (pred k f x) with hd' | ⟨b, hd'⟩
    · simp only [hd']
      exact ⟨s, by simp, by simpa using h, rfl⟩
    · simp only [hd']
      cases b with
      | true =>
        obtain ⟨s', e, r, c⟩ := ih (k := k + 1) (kept := kept) (f := f) (gone := gone ++ [x]) (by simpa using h)
        refine ⟨s', ?_, r, c⟩
        rw [← e]; simp [Nat.add_assoc]
      | false =>
        obtain ⟨h1, c1⟩ := rep_keep (kept := kept ++ [f]) h
        obtain ⟨s', e, r, c⟩ := ih (k := k + 1) (kept := kept ++ [f]) (f := x) h1
        refine ⟨s', ?_, r, by omega⟩
        rw [← e]
        have e1 : (kept ++ [f]).length = kept.length + 1 := by simp
        have e2 : (gone.tail ++ gone.take 1).length = gone.length := by cases gone <;> simp
        rw [e1, e2]
        simp only
        congr 1; omega

theorem uniL_pure {pred : Nat → Id → Id → Option Bool} {p : Id → Id → Bool} (hp : ∀ k x y, pred k x y = some (p x y))
    (xs : List Id) : ∀ (k : Nat) (kept : List Id) (f : Id) (gone : List Id),
    (uniL pred k kept f gone xs).1 = true ∧
      (uniL pred k kept f gone xs).2.1 = kept ++ f :: keepUnique (fun y last => p last y) f xs := by
  induction xs with
  | nil => intro k kept f gone; simp [uniL, keepUnique]
  | cons x xs ih =>
    intro k kept f gone
    simp only [uniL, hp, keepUnique]
    rcases Bool.eq_false_or_eq_true (p f x) with hx | hx
    · simpa [hx] using ih (k + 1) kept f (gone ++ [x])
    · simpa [hx] using ih (k + 1) (kept ++ [f]) x (gone.tail ++ gone.take 1)

theorem uniL_perm (pred : Nat → Id → Id → Option Bool) (xs : List Id) : ∀ (k : Nat) (kept : List Id) (f : Id) (gone : List Id),
    ((uniL pred k kept f gone xs).2.1 ++ (uniL pred k kept f gone xs).2.2).Perm (kept ++ f :: gone ++ xs) := by
  induction xs with
  | nil => intro k kept f gone; simp [uniL]
  | cons x xs ih =>
    intro k kept f gone
    simp only [uniL]
    cases pred k f x with
    | none => simp
    | some b =>
      cases b with
      | true => simpa using ih (k + 1) kept f (gone ++ [x])
      | false =>
        refine (ih (k + 1) (kept ++ [f]) x (gone.tail ++ gone.take 1)).trans ?_
        simp only [List.append_assoc, List.cons_append, List.nil_append]
        refine List.Perm.append_left _ (List.Perm.cons _ ?_)
        refine (List.Perm.trans ?_ (List.perm_middle (l₁ := gone) (l₂ := xs) (a := x)).symm)
        refine List.Perm.cons _ ?_
        rw [← List.append_assoc]
        exact (tail_take_perm gone).append_right _

/-- List level `unique`. -/
def uniqL (pred : Nat → Id → Id → Option Bool) : List Id → Bool × List Id × List Id
  | [] => (true, [], [])
  | f :: xs => uniL pred 0 [] f [] xs

theorem rep_unique (pred : Nat → Id → Id → Option Bool) {s : Arr} {hd : Id} {xs : List Id} (h : Rep s hd xs) :
    ∃ s', unique pred s hd = mkOut (uniqL pred xs).1 s' ∧ s'.cap = s.cap ∧
      Rep s' hd ((uniqL pred xs).2.1 ++ if (uniqL pred xs).1 then [] else (uniqL pred xs).2.2) := by
  unfold unique uniqueAll
  cases xs with
  | nil =>
    have h0 := h.1
    simp only [List.length_nil] at h0
    rw [if_pos h0]
    have := rep_popTail (a := []) (b := []) h
    exact ⟨_, rfl, this.2, by simpa [uniqL] using this.1⟩
  | cons f xs =>
    have h0 := h.1
    simp only [List.length_cons] at h0
    rw [if_neg (by omega)]
    obtain ⟨s', e, r, c⟩ := rep_uniqueGo pred xs (s := s) (kept := []) (f := f) (gone := []) (k := 0) (by simpa using h)
    simp only [List.length_nil, Nat.add_zero, Nat.zero_add] at e
    have e0 : s.size - 1 = xs.length := by omega
    rw [e0, e]
    have eq : uniqL pred (f :: xs) = uniL pred 0 [] f [] xs := rfl
    rw [eq]
    rcases Bool.eq_false_or_eq_true (uniL pred 0 [] f [] xs).1 with hb | hb
    · rw [hb]
      have := rep_popTail r
      exact ⟨_, rfl, by rw [this.2, c], by simpa using this.1⟩
    · rw [hb]
      exact ⟨s', rfl, c, by simpa using r⟩

end MI.Rnd
