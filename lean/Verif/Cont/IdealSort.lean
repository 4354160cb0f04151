import Verif.Cont.Ideal
/-!
Lists sorted and merged by the ideal.
-/
namespace MI.Ideal
open MI MI.Cont
variable {lt : Id → Id → Bool} {xs ys zs : List Id} {x : Id}

@[simp] theorem merge_nil : merge lt xs [] = xs := by
  induction xs with
  | nil => rfl
  | cons x xs ih => simp [merge, ih]

/-- What `std::merge` does. -/
theorem merge_merges {ask : Nat → Id → Id → Option Bool} {t : Nat} (h : ∀ t y x, ask t y x = some (lt y x)) (m : Merges ask t xs ys zs) : zs = merge lt xs ys := by
  induction m with
  | left => rfl
  | right => simp
  | take e _ ih =>
    rw [h, Option.some.injEq] at e
    simp [merge, e, ih]
  | keep e _ ih =>
    rw [h, Option.some.injEq] at e
    simp [merge, e, ih]

theorem takeWhile_all {p : Id → Bool} : ∀ {l : List Id} {a : Id}, a ∈ l.takeWhile p → p a = true
  | b :: l, a, h => by
    rw [List.takeWhile_cons] at h
    split at h
    · rcases List.mem_cons.1 h with rfl | h
      · assumption
      · exact takeWhile_all h
    · exact absurd h List.not_mem_nil

theorem merge_one : merge lt [x] ys = ys.takeWhile (lt · x) ++ x :: ys.dropWhile (lt · x) := rfl

theorem sort_perm : ∀ {xs : List Id}, (sort lt xs).Perm xs
  | [] => .refl _
  | x :: xs => by
    rw [sort, merge_one]
    refine List.perm_middle.trans (.cons _ ?_)
    rw [List.takeWhile_append_dropWhile]
    exact sort_perm

theorem one_sorted (w : StrictWeak lt) (h : Sorted lt ys) : Sorted lt (merge lt [x] ys) := by
  rw [merge_one]
  have e := List.takeWhile_append_dropWhile (p := (lt · x)) (l := ys)
  have h1 := h
  rw [← e] at h1
  obtain ⟨p1, p2, p3⟩ := List.pairwise_append.1 h1
  have q1 : ∀ a ∈ ys.takeWhile (lt · x), lt a x = true := fun a ha => takeWhile_all (p := (lt · x)) ha
  have q2 : ∀ a ∈ ys.dropWhile (lt · x), lt a x = false := by
    intro a ha
    cases hd : ys.dropWhile (lt · x) with
    | nil => rw [hd] at ha; exact absurd ha List.not_mem_nil
    | cons d ds =>
      have h0 : lt d x = false := by
        have := List.head_dropWhile_not (p := (lt · x)) (l := ys) (by rw [hd]; simp)
        simpa [hd] using this
      rw [hd] at ha p2
      rcases List.mem_cons.1 ha with rfl | ha
      · exact h0
      · exact w.le_trans h0 ((List.pairwise_cons.1 p2).1 a ha)
  refine List.pairwise_append.2 ⟨p1, List.pairwise_cons.2 ⟨q2, p2⟩, fun a ha b hb => ?_⟩
  rcases List.mem_cons.1 hb with rfl | hb
  · exact w.asymm (q1 a ha)
  · exact p3 a ha b hb

theorem sort_sorted (w : StrictWeak lt) : ∀ {xs : List Id}, Sorted lt (sort lt xs)
  | [] => List.Pairwise.nil
  | _ :: _ => one_sorted w (sort_sorted w)

theorem sort_stable (w : StrictWeak lt) : ∀ {xs : List Id}, StableOf lt xs (sort lt xs)
  | [] => fun _ => rfl
  | x :: xs => fun y => by
    have ih := sort_stable w (xs := xs) y
    rw [sort, merge_one, List.filter_append, List.filter_cons, List.filter_cons, ← ih]
    conv => rhs; rw [← List.takeWhile_append_dropWhile (p := (lt · x)) (l := sort lt xs), List.filter_append]
    split
    · rename_i h
      have : (List.takeWhile (lt · x) (sort lt xs)).filter (equivOf lt y) = [] := by
        rw [List.filter_eq_nil_iff]
        intro a ha hy
        have l : lt a x = true := takeWhile_all (p := (lt · x)) ha
        have := w.equiv_trans (StrictWeak.equiv_symm.trans hy) h
        rw [(StrictWeak.equiv_iff.1 this).1] at l
        exact nomatch l
      rw [this]; rfl
    · rfl

/-- There is only one stable sort. -/
theorem sorted_unique (w : StrictWeak lt) : ∀ {ys zs : List Id}, Sorted lt ys → Sorted lt zs → (∀ x, ys.filter (equivOf lt x) = zs.filter (equivOf lt x)) → ys = zs
  | [], [], _, _, _ => rfl
  | [], z :: zs, _, _, h => absurd (h z) (by simp [w.equiv_refl])
  | y :: ys, [], _, _, h => absurd (h y) (by simp [w.equiv_refl])
  | y :: ys, z :: zs, h1, h2, h => by
    have m1 : y ∈ z :: zs := by
      have : y ∈ (y :: ys).filter (equivOf lt y) := by simp [w.equiv_refl]
      rw [h] at this
      exact List.mem_of_mem_filter this
    have m2 : z ∈ y :: ys := by
      have : z ∈ (z :: zs).filter (equivOf lt z) := by simp [w.equiv_refl]
      rw [← h] at this
      exact List.mem_of_mem_filter this
    have e : y = z := by
      rcases List.mem_cons.1 m1 with e | m1
      · exact e
      rcases List.mem_cons.1 m2 with e | m2
      · exact e.symm
      have q : equivOf lt y z = true := StrictWeak.equiv_iff.2 ⟨(List.pairwise_cons.1 h2).1 y m1, (List.pairwise_cons.1 h1).1 z m2⟩
      have := h y
      rw [List.filter_cons_of_pos (w.equiv_refl y), List.filter_cons_of_pos q] at this
      exact (List.cons.inj this).1
    subst e
    refine congrArg _ (sorted_unique w (List.pairwise_cons.1 h1).2 (List.pairwise_cons.1 h2).2 fun x => ?_)
    have := h x
    rw [List.filter_cons, List.filter_cons] at this
    split at this
    · exact (List.cons.inj this).2
    · exact this

theorem sort_eq (w : StrictWeak lt) (h : Sorted lt ys) (s : StableOf lt xs ys) : ys = sort lt xs :=
  sorted_unique w h (sort_sorted w) fun x => by rw [s x, sort_stable w x]

/-- If there are no two equivalent elements, every sort is stable. -/
theorem stable_of_distinct (nd : xs.Nodup) (p : ys.Perm xs) (h : ∀ x ∈ xs, ∀ y ∈ xs, equivOf lt x y = true → x = y) (w : StrictWeak lt) : StableOf lt xs ys := by
  intro x
  have q : (ys.filter (equivOf lt x)).Perm (xs.filter (equivOf lt x)) := p.filter _
  have n : (xs.filter (equivOf lt x)).length ≤ 1 := by
    have n1 := nd.filter (equivOf lt x)
    cases e : xs.filter (equivOf lt x) with
    | nil => simp
    | cons a as =>
      cases as with
      | nil => simp
      | cons b bs =>
        exfalso
        have ha : a ∈ xs.filter (equivOf lt x) := by simp [e]
        have hb : b ∈ xs.filter (equivOf lt x) := by simp [e]
        obtain ⟨a1, a2⟩ := List.mem_filter.1 ha
        obtain ⟨b1, b2⟩ := List.mem_filter.1 hb
        have := h a a1 b b1 (w.equiv_trans (StrictWeak.equiv_symm.trans a2) b2)
        rw [e] at n1
        exact (List.nodup_cons.1 n1).1 (by simp [this])
  cases e : xs.filter (equivOf lt x) with
  | nil => rw [e] at q; exact q.eq_nil
  | cons a as =>
    rw [e] at n q
    have : as = [] := List.eq_nil_of_length_eq_zero (by simpa using n)
    subst this
    exact List.perm_singleton.1 q

/-! ## Only the values of the elements matter -/

theorem merges_congr {ask ask' : Nat → Id → Id → Option Bool} {t : Nat} (m : Merges ask t xs ys zs) (h : ∀ t, ∀ y ∈ ys, ∀ x ∈ xs, ask' t y x = ask t y x) :
    Merges ask' t xs ys zs := by
  induction m with
  | left => exact .left
  | right => exact .right
  | take e _ ih =>
    exact .take ((h _ _ List.mem_cons_self _ List.mem_cons_self).trans e) (ih fun t y hy x hx => h t y (List.mem_cons_of_mem _ hy) x hx)
  | keep e _ ih =>
    exact .keep ((h _ _ List.mem_cons_self _ List.mem_cons_self).trans e) (ih fun t y hy x hx => h t y hy x (List.mem_cons_of_mem _ hx))

theorem insertAfter_mem {p : Id} : ∀ {l : List Id} {z : Id}, z ∈ insertAfter p x l → z = x ∨ z ∈ l
  | y :: l, z, h => by
    unfold insertAfter at h
    split at h
    · simp only [List.mem_cons] at h ⊢
      rcases h with h | h | h
      · exact Or.inr (Or.inl h)
      · exact Or.inl h
      · exact Or.inr (Or.inr h)
    · rcases List.mem_cons.1 h with h | h
      · exact Or.inr (by simp [h])
      · rcases insertAfter_mem h with h | h
        · exact Or.inl h
        · exact Or.inr (List.mem_cons_of_mem _ h)

variable {V : Type} {f g : Id → V} {Q : Id → Prop}

theorem moveAfter_mem {p : Option Id} {z : Id} (h : z ∈ moveAfter xs p x) : z = x ∨ z ∈ xs := by
  cases p with
  | none =>
    rcases List.mem_cons.1 h with h | h
    · exact Or.inl h
    · exact Or.inr (List.mem_of_mem_erase h)
  | some p =>
    rcases insertAfter_mem h with h | h
    · exact Or.inl h
    · exact Or.inr (List.mem_of_mem_erase h)

theorem frontOf_mem {lt : V → V → Bool} {z : Id} (h : z ∈ frontOf f lt xs x) : z = x ∨ z ∈ xs := by
  have := (List.perm_middle (l₁ := (xs.erase x).takeWhile (fun a => lt (f a) (f x))) (l₂ := (xs.erase x).dropWhile (fun a => lt (f a) (f x))) (a := x)).mem_iff.1 h
  rw [List.takeWhile_append_dropWhile] at this
  rcases List.mem_cons.1 this with h | h
  · exact Or.inl h
  · exact Or.inr (List.mem_of_mem_erase h)

theorem while_congr {p q : Id → Bool} : ∀ {l : List Id}, (∀ z ∈ l, p z = q z) → l.takeWhile p = l.takeWhile q ∧ l.dropWhile p = l.dropWhile q
  | [], _ => ⟨rfl, rfl⟩
  | a :: l, h => by
    obtain ⟨i1, i2⟩ := while_congr (l := l) fun z hz => h z (List.mem_cons_of_mem _ hz)
    have e := h a List.mem_cons_self
    simp only [List.takeWhile_cons, List.dropWhile_cons, e, i1, i2, and_self]

theorem frontOf_congr {lt : V → V → Bool} (h : ∀ z ∈ xs, f z = g z) (hx : f x = g x) : frontOf f lt xs x = frontOf g lt xs x := by
  obtain ⟨e1, e2⟩ := while_congr (l := xs.erase x) (p := fun a => lt (f a) (f x)) (q := fun a => lt (g a) (g x)) fun z hz => by
    rw [h z (List.mem_of_mem_erase hz), hx]
  simp only [frontOf, e1, e2]

theorem move_congr {S : Spec V} {p : Option Id} (hq : ∀ z, Q z → f z = g z) (h : ∀ z ∈ xs, Q z) (hx : Q x) (hp : ∀ q ∈ p, Q q) :
    S.move f xs p x = S.move g xs p x ∧ ∀ ys, S.move f xs p x = some ys → ∀ z ∈ ys, Q z := by
  have fm : ∀ (lt : V → V → Bool), ∀ z ∈ frontOf f lt xs x, Q z := fun lt z hz => by
    rcases frontOf_mem hz with rfl | hz
    · exact hx
    · exact h z hz
  have mm : ∀ p, ∀ z ∈ moveAfter xs p x, Q z := fun p z hz => by
    rcases moveAfter_mem hz with rfl | hz
    · exact hx
    · exact h z hz
  have fc : ∀ (lt : V → V → Bool), frontOf f lt xs x = frontOf g lt xs x := fun lt => frontOf_congr (fun z hz => hq z (h z hz)) (hq x hx)
  cases S with
  | ord u lt =>
    cases u with
    | true => exact ⟨rfl, fun ys e => by cases e; exact h⟩
    | false =>
      cases p with
      | none => exact ⟨congrArg some (fc lt), fun ys e => by cases e; exact fm lt⟩
      | some q =>
        refine ⟨?_, fun ys e => ?_⟩
        · simp only [Spec.move, fc lt, hq x hx, hq q (hp q rfl)]
        · simp only [Spec.move] at e
          split at e
          · cases e; exact fm lt
          · split at e
            · exact nomatch e
            · cases e; exact mm _
  | hash => exact ⟨rfl, fun ys e => by cases e; exact h⟩
  | seq => exact ⟨rfl, fun ys e => by cases e; exact mm _⟩
  | rnd => exact ⟨rfl, fun ys e => by cases e; exact mm _⟩

theorem moves_congr {S : Spec V} (hq : ∀ z, Q z → f z = g z) : ∀ {ins : List (Option Id × Id)} {xs : List Id}, (∀ z ∈ xs, Q z) → (∀ i ∈ ins, Q i.2 ∧ ∀ q ∈ i.1, Q q) →
    S.moves f xs ins = S.moves g xs ins
  | [], _, _, _ => rfl
  | (p, x) :: ins, xs, h, hi => by
    obtain ⟨h1, h2⟩ := hi (p, x) List.mem_cons_self
    obtain ⟨e1, e2⟩ := move_congr (S := S) hq h h1 h2
    simp only [Spec.moves, ← e1]
    cases hm : S.move f xs p x with
    | none => rfl
    | some ys => exact moves_congr hq (e2 ys hm) fun i hh => hi i (List.mem_cons_of_mem _ hh)

end MI.Ideal
