import Verif.Seq.Steps
import Verif.Seq.SortLemmas
import Verif.Seq.AlgoLemmas
/-!
# What list operations of sequenced indices take: lemmas
-/
namespace MI.Seq
open MI

/-- The operation returned or let an exception out. -/
def Ends {α : Type} : Out α → Prop
  | .ok _ => True
  | .threw _ => True
  | _ => False

/-! ## A larger budget changes nothing -/

theorem collateGoS_mono (cmp : Cmp) (a b : Id) : ∀ n h k x y n', n ≤ n' → Ends (collateGoS cmp a b n h k x y).1 →
    collateGoS cmp a b n' h k x y = collateGoS cmp a b n h k x y := by
  intro n
  induction n with
  | zero =>
    intro h k x y n' _ e
    unfold collateGoS at e ⊢
    by_cases c : x ≠ a ∧ y ≠ b
    · rw [if_pos c] at e; exact e.elim
    · rw [if_neg c, if_neg c]
  | succ n ih =>
    intro h k x y n' hn e
    obtain ⟨n', rfl⟩ : ∃ m, n' = m + 1 := ⟨n' - 1, by omega⟩
    unfold collateGoS at e ⊢
    by_cases c : x ≠ a ∧ y ≠ b
    · rw [if_pos c] at e
      rw [if_pos c, if_pos c]
      simp only at e ⊢
      cases g : cmp k y x with
      | none => rfl
      | some v =>
        rw [g] at e
        cases v <;> exact congrArg (tick 1) (ih _ _ _ _ _ (by omega) e)
    · rw [if_neg c, if_neg c]

theorem carryGoS_mono (cmp : Cmp) {N N' : Nat} (hN : N ≤ N') (carry : Id) (cid : Nat → Id) : ∀ m i h k,
    Ends (carryGoS cmp N carry cid m i h k).1 → carryGoS cmp N' carry cid m i h k = carryGoS cmp N carry cid m i h k := by
  intro m
  induction m with
  | zero => intro i h k _; rfl
  | succ m ih =>
    intro i h k e
    unfold carryGoS at e ⊢
    by_cases c : h.next (cid i) ≠ cid i
    · rw [if_pos c] at e
      rw [if_pos c, if_pos c]
      have mo := collateGoS_mono cmp carry (cid i) N h k (h.next carry) (h.next (cid i)) N' hN
      unfold collateS at e ⊢
      generalize collateGoS cmp carry (cid i) N h k (h.next carry) (h.next (cid i)) = p at e mo ⊢
      rcases p with ⟨_ | _ | _ | _, t⟩
      · rw [mo trivial]; exact congrArg (tick (t + 1)) (ih _ _ _ e)
      · rw [mo trivial]
      · exact e.elim
      · exact e.elim
    · rw [if_neg c, if_neg c]

theorem sortGoS_mono (cmp : Cmp) {N N' M M' : Nat} (hN : N ≤ N') (hM : M ≤ M') (header carry : Id) (cid : Nat → Id) : ∀ n h k fill n', n ≤ n' →
    Ends (sortGoS cmp N M header carry cid n h k fill).1 →
    sortGoS cmp N' M' header carry cid n' h k fill = sortGoS cmp N M header carry cid n h k fill := by
  intro n
  induction n with
  | zero =>
    intro h k fill n' _ e
    unfold sortGoS at e ⊢
    by_cases c : h.next header ≠ header
    · rw [if_pos c] at e; exact e.elim
    · rw [if_neg c, if_neg c]
  | succ n ih =>
    intro h k fill n' hn e
    obtain ⟨n', rfl⟩ : ∃ m, n' = m + 1 := ⟨n' - 1, by omega⟩
    unfold sortGoS at e ⊢
    by_cases c : h.next header ≠ header
    · rw [if_pos c] at e
      rw [if_pos c, if_pos c]
      simp only at e ⊢
      have mo := carryGoS_mono cmp hN carry cid fill 0 (h.relink (h.next carry) (h.next header)) k
      generalize carryGoS cmp N carry cid fill 0 (h.relink (h.next carry) (h.next header)) k = p at e mo ⊢
      rcases p with ⟨⟨h1, k1, i⟩ | _ | _ | _, t⟩
      · rw [mo trivial]
        simp only at e ⊢
        by_cases ci : i = fill
        · rw [if_pos ci] at e
          rw [if_pos ci, if_pos ci]
          by_cases cf : fill + 1 < M
          · rw [if_pos cf] at e
            rw [if_pos cf, if_pos (by omega)]
            exact congrArg (tick (t + 1)) (ih _ _ _ _ (by omega) e)
          · rw [if_neg cf] at e; exact e.elim
        · rw [if_neg ci] at e
          rw [if_neg ci, if_neg ci]
          exact congrArg (tick (t + 1)) (ih _ _ _ _ (by omega) e)
      · rw [mo trivial]
      · exact e.elim
      · exact e.elim
    · rw [if_neg c, if_neg c]

theorem finalGoS_mono (cmp : Cmp) {N N' : Nat} (hN : N ≤ N') (cid : Nat → Id) : ∀ m i h k,
    Ends (finalGoS cmp N cid m i h k).1 → finalGoS cmp N' cid m i h k = finalGoS cmp N cid m i h k := by
  intro m
  induction m with
  | zero => intro i h k _; rfl
  | succ m ih =>
    intro i h k e
    unfold finalGoS at e ⊢
    have mo := collateGoS_mono cmp (cid i) (cid (i - 1)) N h k (h.next (cid i)) (h.next (cid (i - 1))) N' hN
    unfold collateS at e ⊢
    generalize collateGoS cmp (cid i) (cid (i - 1)) N h k (h.next (cid i)) (h.next (cid (i - 1))) = p at e mo ⊢
    rcases p with ⟨_ | _ | _ | _, t⟩
    · rw [mo trivial]; exact congrArg (tick (t + 1)) (ih _ _ _ e)
    · rw [mo trivial]
    · exact e.elim
    · exact e.elim

theorem sortS_mono (cmp : Cmp) {N N' M M' : Nat} (hN : N ≤ N') (hM : M ≤ M') (h : Heap) (header carry : Id) (cid : Nat → Id)
    (e : Ends (sortS cmp N M h header carry cid).1) :
    sortS cmp N' M' h header carry cid = sortS cmp N M h header carry cid := by
  unfold sortS at e ⊢
  by_cases c : h.next header = header ∨ h.next (h.next header) = header
  · rw [if_pos c, if_pos c]
  · rw [if_neg c] at e
    rw [if_neg c, if_neg c]
    have mo := sortGoS_mono cmp hN hM header carry cid N ((h.emptyInit carry).emptyInit (cid 0)) 0 0 N' hN
    generalize sortGoS cmp N M header carry cid N ((h.emptyInit carry).emptyInit (cid 0)) 0 0 = p at e mo ⊢
    rcases p with ⟨⟨h1, k1, fill⟩ | _ | _ | _, t⟩
    · rw [mo trivial]
      simp only at e ⊢
      have mf := finalGoS_mono cmp hN cid (fill - 1) 1 h1 k1
      generalize finalGoS cmp N cid (fill - 1) 1 h1 k1 = q at e mf ⊢
      rcases q with ⟨_ | _ | _ | _, u⟩
      · rw [mf trivial]
      · rw [mf trivial]
      · exact e.elim
      · exact e.elim
    · rw [mo trivial]
    · exact e.elim
    · exact e.elim

/-! ## Rounds are comparisons, or rounds of the outer loops -/

theorem collateGoS_count (cmp : Cmp) (a b : Id) : ∀ n h k x y r, (collateGoS cmp a b n h k x y).1 = .ok r ∨ (collateGoS cmp a b n h k x y).1 = .threw r →
    (collateGoS cmp a b n h k x y).2 + k = r.2 := by
  intro n
  induction n with
  | zero =>
    intro h k x y r e
    unfold collateGoS at e ⊢
    by_cases c : x ≠ a ∧ y ≠ b
    · rw [if_pos c] at e; simp at e
    · rw [if_neg c] at e ⊢
      simp at e
      subst e
      simp
  | succ n ih =>
    intro h k x y r e
    unfold collateGoS at e ⊢
    by_cases c : x ≠ a ∧ y ≠ b
    · rw [if_pos c] at e ⊢
      simp only at e ⊢
      cases g : cmp k y x with
      | none =>
        rw [g] at e
        simp at e
        subst e
        simp; omega
      | some v =>
        rw [g] at e
        cases v with
        | true => have := ih _ _ _ _ _ e; simp only [tick_snd]; omega
        | false => have := ih _ _ _ _ _ e; simp only [tick_snd]; omega
    · rw [if_neg c] at e ⊢
      simp at e
      subst e
      simp

theorem carryGoS_count (cmp : Cmp) (N : Nat) (carry : Id) (cid : Nat → Id) : ∀ m i h k r,
    (carryGoS cmp N carry cid m i h k).1 = .ok r ∨ (carryGoS cmp N carry cid m i h k).1 = .threw r →
    (carryGoS cmp N carry cid m i h k).2 + k ≤ r.2.1 + m := by
  intro m
  induction m with
  | zero =>
    intro i h k r e
    simp [carryGoS] at e
    subst e
    simp [carryGoS]
  | succ m ih =>
    intro i h k r e
    unfold carryGoS at e ⊢
    by_cases c : h.next (cid i) ≠ cid i
    · rw [if_pos c] at e ⊢
      have co := collateGoS_count cmp carry (cid i) N h k (h.next carry) (h.next (cid i))
      unfold collateS at e ⊢
      generalize collateGoS cmp carry (cid i) N h k (h.next carry) (h.next (cid i)) = p at e co ⊢
      rcases p with ⟨⟨h1, k1⟩ | ⟨h1, k1⟩ | _ | _, t⟩
      · have := co _ (.inl rfl)
        have := ih _ _ _ _ e
        simp only [tick_snd] at *
        omega
      · have := co _ (.inr rfl)
        simp at e
        subst e
        simp only at *
        omega
      · simp at e
      · simp at e
    · rw [if_neg c] at e ⊢
      simp at e
      subst e
      simp

theorem sortGoS_count (cmp : Cmp) (N M : Nat) (header carry : Id) (cid : Nat → Id) : ∀ n h k fill r, fill < M →
    (sortGoS cmp N M header carry cid n h k fill).1 = .ok r ∨ (sortGoS cmp N M header carry cid n h k fill).1 = .threw r →
    (sortGoS cmp N M header carry cid n h k fill).2 + k ≤ r.2.1 + n * M ∧ r.2.2 < M := by
  intro n
  induction n with
  | zero =>
    intro h k fill r hf e
    unfold sortGoS at e ⊢
    by_cases c : h.next header ≠ header
    · rw [if_pos c] at e; simp at e
    · rw [if_neg c] at e ⊢
      simp at e
      subst e
      simpa using hf
  | succ n ih =>
    intro h k fill r hf e
    unfold sortGoS at e ⊢
    rw [Nat.succ_mul]
    by_cases c : h.next header ≠ header
    · rw [if_pos c] at e ⊢
      simp only at e ⊢
      have co := carryGoS_count cmp N carry cid fill 0 (h.relink (h.next carry) (h.next header)) k
      generalize carryGoS cmp N carry cid fill 0 (h.relink (h.next carry) (h.next header)) k = p at e co ⊢
      rcases p with ⟨⟨h1, k1, i⟩ | ⟨h1, k1, i⟩ | _ | _, t⟩
      · have := co _ (.inl rfl)
        simp only at e this ⊢
        by_cases ci : i = fill
        · rw [if_pos ci] at e ⊢
          by_cases cf : fill + 1 < M
          · rw [if_pos cf] at e ⊢
            have := ih _ _ _ _ cf e
            simp only [tick_snd]
            omega
          · rw [if_neg cf] at e; simp at e
        · rw [if_neg ci] at e ⊢
          have := ih _ _ _ _ hf e
          simp only [tick_snd]
          omega
      · have := co _ (.inr rfl)
        simp at e
        subst e
        simp only at *
        omega
      · simp at e
      · simp at e
    · rw [if_neg c] at e ⊢
      simp at e
      subst e
      simp only
      omega

theorem finalGoS_count (cmp : Cmp) (N : Nat) (cid : Nat → Id) : ∀ m i h k r,
    (finalGoS cmp N cid m i h k).1 = .ok r ∨ (finalGoS cmp N cid m i h k).1 = .threw r →
    (finalGoS cmp N cid m i h k).2 + k ≤ r.2 + m := by
  intro m
  induction m with
  | zero =>
    intro i h k r e
    simp [finalGoS] at e
    subst e
    simp [finalGoS]
  | succ m ih =>
    intro i h k r e
    unfold finalGoS at e ⊢
    have co := collateGoS_count cmp (cid i) (cid (i - 1)) N h k (h.next (cid i)) (h.next (cid (i - 1)))
    unfold collateS at e ⊢
    generalize collateGoS cmp (cid i) (cid (i - 1)) N h k (h.next (cid i)) (h.next (cid (i - 1))) = p at e co ⊢
    rcases p with ⟨⟨h1, k1⟩ | ⟨h1, k1⟩ | _ | _, t⟩
    · have := co _ (.inl rfl)
      have := ih _ _ _ _ e
      simp only [tick_snd] at *
      omega
    · have := co _ (.inr rfl)
      simp at e
      subst e
      simp only at *
      omega
    · simp at e
    · simp at e

theorem sortS_count (cmp : Cmp) (N M : Nat) (hM : 0 < M) (h : Heap) (header carry : Id) (cid : Nat → Id) (r : Heap × Nat)
    (e : (sortS cmp N M h header carry cid).1 = .ok r ∨ (sortS cmp N M h header carry cid).1 = .threw r) :
    (sortS cmp N M h header carry cid).2 ≤ r.2 + N * M + 2 * M := by
  unfold sortS at e ⊢
  by_cases c : h.next header = header ∨ h.next (h.next header) = header
  · rw [if_pos c]; simp
  · rw [if_neg c] at e ⊢
    have co := sortGoS_count cmp N M header carry cid N ((h.emptyInit carry).emptyInit (cid 0)) 0 0
    generalize sortGoS cmp N M header carry cid N ((h.emptyInit carry).emptyInit (cid 0)) 0 0 = p at e co ⊢
    rcases p with ⟨⟨h1, k1, fill⟩ | ⟨h1, k1, fill⟩ | _ | _, t⟩
    · have := co _ hM (.inl rfl)
      simp only at e this ⊢
      have cf := finalGoS_count cmp N cid (fill - 1) 1 h1 k1
      generalize finalGoS cmp N cid (fill - 1) 1 h1 k1 = q at e cf ⊢
      rcases q with ⟨⟨h2, k2⟩ | ⟨h2, k2⟩ | _ | _, u⟩
      · have := cf _ (.inl rfl)
        simp at e
        subst e
        simp only at *
        omega
      · have := cf _ (.inr rfl)
        simp at e
        subst e
        simp only at *
        omega
      · simp at e
      · simp at e
    · have := co _ hM (.inr rfl)
      simp at e
      subst e
      simp only at *
      omega
    · simp at e
    · simp at e

theorem sortS_rounds (cmp : Cmp) {h : Heap} {header carry : Id} {cid : Nat → Id} {N W : Nat} {xs : List Id}
    {R : List (Id × List Id)} (hf : Fam h ((header, xs) :: R)) (hcar : carry ∉ header :: (xs ++ famIds R))
    (hloc : Locals cid header carry xs R) (hN : xs.length ≤ N) (hW : xs.length < 2 ^ W) :
    (sortS cmp N (W + 1) h header carry cid).2 ≤ (xs.length + 2) * (2 * Nat.log2 xs.length + 3) := by
  by_cases h0 : xs = []
  · subst h0
    have hc : Circ h header [] := hf.circ (by simp)
    have : h.next header = header := hc.2.1
    unfold sortS
    rw [if_pos (.inl this)]
    simp
  · have hl : xs.length ≠ 0 := by simpa using h0
    have hlt : xs.length < 2 ^ (Nat.log2 xs.length + 1) := (Nat.log2_lt hl).1 (by omega)
    have hle : Nat.log2 xs.length + 1 ≤ W := by
      have : Nat.log2 xs.length < W := (Nat.log2_lt hl).2 hW
      omega
    obtain ⟨k', hk, r, hr, e⟩ : ∃ k', k' ≤ xs.length * (Nat.log2 xs.length + 1) ∧ ∃ r : Heap × Nat, r.2 = k' ∧
        ((sortS cmp xs.length (Nat.log2 xs.length + 1 + 1) h header carry cid).1 = .ok r ∨
         (sortS cmp xs.length (Nat.log2 xs.length + 1 + 1) h header carry cid).1 = .threw r) := by
      rw [sortS_fst]
      rcases sort_spec_count cmp hf hcar hloc (Nat.le_refl _) hlt with ⟨h', k', _, e, _, _, _, hk⟩ | ⟨h', k', _, e, _, _, _, hk⟩
      · exact ⟨k', hk, _, rfl, .inl e⟩
      · exact ⟨k', hk, _, rfl, .inr e⟩
    rw [sortS_mono cmp (N := xs.length) (M := Nat.log2 xs.length + 1 + 1) hN (by omega) h header carry cid (by
      rcases e with e | e <;> rw [e] <;> trivial)]
    have := sortS_count cmp xs.length (Nat.log2 xs.length + 1 + 1) (by omega) h header carry cid r e
    subst hr
    refine Nat.le_trans this ?_
    generalize Nat.log2 xs.length = L at *
    generalize xs.length = n at *
    have e1 : (n + 2) * (2 * L + 3) = n * (L + 1) + n * (L + 1 + 1) + 2 * (2 * L + 3) := by ring_nf
    omega

/-! ## The other operations -/

theorem reverseGoS_mono (a : Id) : ∀ n h x n', n ≤ n' → (reverseGoS a n h x).1 ≠ none → reverseGoS a n' h x = reverseGoS a n h x := by
  intro n
  induction n with
  | zero => intro h x n' _ e; exact (e rfl).elim
  | succ n ih =>
    intro h x n' hn e
    obtain ⟨n', rfl⟩ : ∃ m, n' = m + 1 := ⟨n' - 1, by omega⟩
    unfold reverseGoS at e ⊢
    by_cases c : h.next x = a
    · rw [if_pos c, if_pos c]
    · rw [if_neg c] at e
      rw [if_neg c, if_neg c]
      exact congrArg (tick 1) (ih _ _ _ (by omega) e)

theorem reverseGoS_le (a : Id) : ∀ n h x, (reverseGoS a n h x).2 ≤ n := by
  intro n
  induction n with
  | zero => intro h x; exact Nat.le_refl _
  | succ n ih =>
    intro h x
    unfold reverseGoS
    split
    · simp
    · have := ih ⟨upd h.next x (h.prior x), upd h.prior x (h.next x)⟩ (h.next x)
      simp only [tick_snd]; omega

theorem removeGoS_mono (pred : Nat → Id → Option Bool) (a : Id) : ∀ n h k x n', n ≤ n' → Ends (removeGoS pred a n h k x).1 →
    removeGoS pred a n' h k x = removeGoS pred a n h k x := by
  intro n
  induction n with
  | zero =>
    intro h k x n' _ e
    unfold removeGoS at e ⊢
    by_cases c : x ≠ a
    · rw [if_pos c] at e; exact e.elim
    · rw [if_neg c, if_neg c]
  | succ n ih =>
    intro h k x n' hn e
    obtain ⟨n', rfl⟩ : ∃ m, n' = m + 1 := ⟨n' - 1, by omega⟩
    unfold removeGoS at e ⊢
    by_cases c : x ≠ a
    · rw [if_pos c] at e
      rw [if_pos c, if_pos c]
      simp only at e ⊢
      cases g : pred k x with
      | none => rfl
      | some v =>
        rw [g] at e
        cases v with
        | false => exact congrArg (tick 1) (ih _ _ _ _ (by omega) e)
        | true =>
          simp only at e ⊢
          rw [ih _ _ _ n' (by omega)]
          generalize removeGoS pred a n (eraseAt h x).1 (k + 1) (h.next x) = p at e ⊢
          rcases p with ⟨_ | _ | _ | _, t⟩ <;> first | trivial | exact e.elim
    · rw [if_neg c, if_neg c]

theorem removeGoS_le (pred : Nat → Id → Option Bool) (a : Id) : ∀ n h k x, (removeGoS pred a n h k x).2 ≤ n := by
  intro n
  induction n with
  | zero => intro h k x; unfold removeGoS; split <;> simp
  | succ n ih =>
    intro h k x
    unfold removeGoS
    split
    · simp only
      cases pred k x with
      | none => simp
      | some v =>
        cases v with
        | false => have := ih h (k + 1) (h.next x); simp only [tick_snd]; omega
        | true =>
          have := ih (eraseAt h x).1 (k + 1) (h.next x)
          simp only
          generalize removeGoS pred a n (eraseAt h x).1 (k + 1) (h.next x) = p at this ⊢
          rcases p with ⟨_ | _ | _ | _, t⟩ <;> simp only at this ⊢ <;> omega
    · simp

theorem uniqueGoS_mono (pred : Nat → Id → Id → Option Bool) (a : Id) : ∀ n h k x n', n ≤ n' → Ends (uniqueGoS pred a n h k x).1 →
    uniqueGoS pred a n' h k x = uniqueGoS pred a n h k x := by
  intro n
  induction n with
  | zero =>
    intro h k x n' _ e
    unfold uniqueGoS at e ⊢
    by_cases c : h.next x ≠ a
    · rw [if_pos c] at e; exact e.elim
    · rw [if_neg c, if_neg c]
  | succ n ih =>
    intro h k x n' hn e
    obtain ⟨n', rfl⟩ : ∃ m, n' = m + 1 := ⟨n' - 1, by omega⟩
    unfold uniqueGoS at e ⊢
    by_cases c : h.next x ≠ a
    · rw [if_pos c] at e
      rw [if_pos c, if_pos c]
      simp only at e ⊢
      cases g : pred k (h.next x) x with
      | none => rfl
      | some v =>
        rw [g] at e
        cases v with
        | false => exact congrArg (tick 1) (ih _ _ _ _ (by omega) e)
        | true =>
          simp only at e ⊢
          rw [ih _ _ _ n' (by omega)]
          generalize uniqueGoS pred a n (eraseAt h (h.next x)).1 (k + 1) x = p at e ⊢
          rcases p with ⟨_ | _ | _ | _, t⟩ <;> first | trivial | exact e.elim
    · rw [if_neg c, if_neg c]

theorem uniqueGoS_le (pred : Nat → Id → Id → Option Bool) (a : Id) : ∀ n h k x, (uniqueGoS pred a n h k x).2 ≤ n := by
  intro n
  induction n with
  | zero => intro h k x; unfold uniqueGoS; split <;> simp
  | succ n ih =>
    intro h k x
    unfold uniqueGoS
    split
    · simp only
      cases pred k (h.next x) x with
      | none => simp
      | some v =>
        cases v with
        | false => have := ih h (k + 1) (h.next x); simp only [tick_snd]; omega
        | true =>
          have := ih (eraseAt h (h.next x)).1 (k + 1) x
          simp only
          generalize uniqueGoS pred a n (eraseAt h (h.next x)).1 (k + 1) x = p at this ⊢
          rcases p with ⟨_ | _ | _ | _, t⟩ <;> simp only at this ⊢ <;> omega
    · simp

theorem deleteAllGo_mono {h : Heap} {b : Id} : ∀ {n y vs n'}, n ≤ n' → deleteAllGo h b n y = some vs → deleteAllGo h b n' y = some vs := by
  intro n
  induction n with
  | zero =>
    intro y vs n' _ e
    unfold deleteAllGo at e ⊢
    by_cases c : y = b
    · simpa [c] using e
    · simp [c] at e
  | succ n ih =>
    intro y vs n' hn e
    obtain ⟨n', rfl⟩ : ∃ m, n' = m + 1 := ⟨n' - 1, by omega⟩
    unfold deleteAllGo at e ⊢
    by_cases c : y = b
    · simpa [c] using e
    · simp [c] at e ⊢
      obtain ⟨l, e, rfl⟩ := e
      exact ⟨l, ih (by omega) e, rfl⟩

theorem deleteAllGo_len {h : Heap} {b : Id} : ∀ {n y vs}, deleteAllGo h b n y = some vs → vs.length ≤ n := by
  intro n
  induction n with
  | zero =>
    intro y vs e
    unfold deleteAllGo at e
    by_cases c : y = b
    · simp [c] at e; subst e; simp
    · simp [c] at e
  | succ n ih =>
    intro y vs e
    unfold deleteAllGo at e
    by_cases c : y = b
    · simp [c] at e; subst e; simp
    · simp [c] at e
      obtain ⟨l, e, rfl⟩ := e
      have := ih e
      simpa using this

theorem mergeGoS_mono (cmp : Cmp) (dec : Id → Option Bool) (a b : Id) : ∀ n h k x y n', n ≤ n' → Ends (mergeGoS cmp dec a b n h k x y).1 →
    mergeGoS cmp dec a b n' h k x y = mergeGoS cmp dec a b n h k x y := by
  intro n
  induction n with
  | zero =>
    intro h k x y n' hn e
    unfold mergeGoS at e ⊢
    by_cases c : x ≠ a ∧ y ≠ b
    · rw [if_pos c] at e; exact e.elim
    · rw [if_neg c] at e
      rw [if_neg c, if_neg c]
      cases d : deleteAllGo h b 0 y with
      | none => rw [d] at e; exact e.elim
      | some vs => rw [deleteAllGo_mono hn d]
  | succ n ih =>
    intro h k x y n' hn e
    obtain ⟨n', rfl⟩ : ∃ m, n' = m + 1 := ⟨n' - 1, by omega⟩
    unfold mergeGoS at e ⊢
    by_cases c : x ≠ a ∧ y ≠ b
    · rw [if_pos c] at e
      rw [if_pos c, if_pos c]
      simp only at e ⊢
      cases g : cmp k y x with
      | none => rfl
      | some v =>
        rw [g] at e
        cases v with
        | false => exact congrArg (tick 1) (ih _ _ _ _ _ (by omega) e)
        | true =>
          simp only at e ⊢
          generalize externalSplice1 h a x y (dec y) = o at e ⊢
          cases o with
          | ok h1 => exact congrArg (tick 1) (ih _ _ _ _ _ (by omega) e)
          | threw _ => rfl
          | ub => rfl
          | hang => rfl
    · rw [if_neg c] at e
      rw [if_neg c, if_neg c]
      cases d : deleteAllGo h b (n + 1) y with
      | none => rw [d] at e; exact e.elim
      | some vs => rw [deleteAllGo_mono hn d]

theorem mergeGoS_le (cmp : Cmp) (dec : Id → Option Bool) (a b : Id) : ∀ n h k x y, (mergeGoS cmp dec a b n h k x y).2 ≤ n := by
  intro n
  induction n with
  | zero =>
    intro h k x y
    unfold mergeGoS
    split
    · exact Nat.le_refl _
    · cases d : deleteAllGo h b 0 y with
      | none => exact Nat.le_refl _
      | some vs => exact deleteAllGo_len d
  | succ n ih =>
    intro h k x y
    unfold mergeGoS
    split
    · simp only
      cases cmp k y x with
      | none => simp
      | some v =>
        cases v with
        | false => have := ih h (k + 1) (h.next x) y; simp only [tick_snd]; omega
        | true =>
          simp only
          cases externalSplice1 h a x y (dec y) with
          | ok h1 => have := ih h1 (k + 1) x (h.next y); simp only [tick_snd]; omega
          | threw _ => simp
          | ub => simp
          | hang => simp
    · cases d : deleteAllGo h b (n + 1) y with
      | none => exact Nat.le_refl _
      | some vs => exact deleteAllGo_len d

theorem Ends_mkOut {α : Type} (b : Bool) (v : α) : Ends (mkOut b v) := by cases b <;> trivial

end MI.Seq
