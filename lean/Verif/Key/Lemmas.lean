import Verif.Key.Composite
import Verif.Spec.Lex
/-! Composite keys: the recursive functions compute the lexicographic order and componentwise equality. -/
namespace MI.Key
open MI
variable {V W : Type}

theorem lex_zero {K L : Nat → Type} (lt : ∀ j, K j → L j → Bool) (lt' : ∀ j, L j → K j → Bool) (x : ∀ j, K j) (y : ∀ j, L j) :
    ¬ LexLess 0 lt lt' x y := fun ⟨_, h, _⟩ => absurd h (Nat.not_lt_zero _)

theorem lex_succ {K L : Nat → Type} (n : Nat) (lt : ∀ j, K j → L j → Bool) (lt' : ∀ j, L j → K j → Bool) (x : ∀ j, K j) (y : ∀ j, L j) :
    LexLess (n + 1) lt lt' x y ↔ lt 0 (x 0) (y 0) = true ∨ (lt 0 (x 0) (y 0) = false ∧ lt' 0 (y 0) (x 0) = false ∧
      LexLess n (fun j => lt (j + 1)) (fun j => lt' (j + 1)) (fun j => x (j + 1)) (fun j => y (j + 1))) := by
  constructor
  · rintro ⟨k, hk, hb, hl⟩
    cases k with
    | zero => exact Or.inl hl
    | succ k =>
      exact Or.inr ⟨(hb 0 (Nat.succ_pos _)).1, (hb 0 (Nat.succ_pos _)).2, k, Nat.lt_of_succ_lt_succ hk,
        fun j hj => hb (j + 1) (Nat.succ_lt_succ hj), hl⟩
  · rintro (h | ⟨h1, h2, k, hk, hb, hl⟩)
    · exact ⟨0, Nat.succ_pos _, fun j hj => absurd hj (Nat.not_lt_zero _), h⟩
    · refine ⟨k + 1, Nat.succ_lt_succ hk, ?_, hl⟩
      intro j hj
      cases j with
      | zero => exact ⟨h1, h2⟩
      | succ j => exact hb j (Nat.lt_of_succ_lt_succ hj)

theorem all_succ {n : Nat} {p : Nat → Prop} : (∀ j < n + 1, p j) ↔ p 0 ∧ ∀ j < n, p (j + 1) := by
  constructor
  · exact fun h => ⟨h 0 (Nat.succ_pos _), fun j hj => h _ (Nat.succ_lt_succ hj)⟩
  · rintro ⟨h0, h⟩ j hj
    cases j with
    | zero => exact h0
    | succ j => exact h j (Nat.lt_of_succ_lt_succ hj)

theorem compareCC_iff : ∀ {n1 n2 : Nat} {K L : Nat → Type} (c0 : ∀ j, V → K j) (v0 : V) (c1 : ∀ j, W → L j) (v1 : W)
    (comp : ∀ j, K j → L j → Bool) (comp' : ∀ j, L j → K j → Bool),
    compareCC n1 n2 c0 v0 c1 v1 comp comp' = true ↔ LexLess (min n1 n2) comp comp' (fun j => c0 j v0) (fun j => c1 j v1)
  | 0, n2, _, _, _, _, _, _, _, _ => by
      rw [Nat.zero_min]; unfold compareCC
      exact ⟨fun h => absurd h (by simp), fun h => (lex_zero _ _ _ _ h).elim⟩
  | n1 + 1, 0, _, _, _, _, _, _, _, _ => by
      rw [Nat.min_zero]; unfold compareCC
      exact ⟨fun h => absurd h (by simp), fun h => (lex_zero _ _ _ _ h).elim⟩
  | n1 + 1, n2 + 1, _, _, c0, v0, c1, v1, comp, comp' => by
      rw [Nat.succ_min_succ, lex_succ, ← compareCC_iff]
      conv => lhs; unfold compareCC
      cases comp 0 (c0 0 v0) (c1 0 v1) <;> cases comp' 0 (c1 0 v1) (c0 0 v0) <;> simp

theorem compareCV_iff : ∀ {n1 n2 : Nat} {K L : Nat → Type} (c : ∀ j, V → K j) (v : V) (vc : ∀ j, L j)
    (comp : ∀ j, K j → L j → Bool) (comp' : ∀ j, L j → K j → Bool),
    compareCV n1 n2 c v vc comp comp' = true ↔ LexLess (min n1 n2) comp comp' (fun j => c j v) vc
  | 0, n2, _, _, _, _, _, _, _ => by
      rw [Nat.zero_min]; unfold compareCV
      exact ⟨fun h => absurd h (by simp), fun h => (lex_zero _ _ _ _ h).elim⟩
  | n1 + 1, 0, _, _, _, _, _, _, _ => by
      rw [Nat.min_zero]; unfold compareCV
      exact ⟨fun h => absurd h (by simp), fun h => (lex_zero _ _ _ _ h).elim⟩
  | n1 + 1, n2 + 1, _, _, c, v, vc, comp, comp' => by
      rw [Nat.succ_min_succ, lex_succ, ← compareCV_iff]
      conv => lhs; unfold compareCV
      cases comp 0 (c 0 v) (vc 0) <;> cases comp' 0 (vc 0) (c 0 v) <;> simp

theorem compareVC_iff : ∀ {n1 n2 : Nat} {K L : Nat → Type} (vc : ∀ j, L j) (c : ∀ j, V → K j) (v : V)
    (comp : ∀ j, K j → L j → Bool) (comp' : ∀ j, L j → K j → Bool),
    compareVC n1 n2 vc c v comp comp' = true ↔ LexLess (min n1 n2) comp' comp vc (fun j => c j v)
  | 0, n2, _, _, _, _, _, _, _ => by
      rw [Nat.zero_min]; unfold compareVC
      exact ⟨fun h => absurd h (by simp), fun h => (lex_zero _ _ _ _ h).elim⟩
  | n1 + 1, 0, _, _, _, _, _, _, _ => by
      rw [Nat.min_zero]; unfold compareVC
      exact ⟨fun h => absurd h (by simp), fun h => (lex_zero _ _ _ _ h).elim⟩
  | n1 + 1, n2 + 1, _, _, vc, c, v, comp, comp' => by
      rw [Nat.succ_min_succ, lex_succ, ← compareVC_iff]
      conv => lhs; unfold compareVC
      cases comp' 0 (vc 0) (c 0 v) <;> cases comp 0 (c 0 v) (vc 0) <;> simp

theorem equalCC_iff : ∀ {n1 n2 : Nat} {K L : Nat → Type} (c0 : ∀ j, V → K j) (v0 : V) (c1 : ∀ j, W → L j) (v1 : W)
    (eq : ∀ j, K j → L j → Bool),
    equalCC n1 n2 c0 v0 c1 v1 eq = true ↔ AllEq (min n1 n2) eq (fun j => c0 j v0) (fun j => c1 j v1)
  | 0, n2, _, _, _, _, _, _, _ => by
      rw [Nat.zero_min]; unfold equalCC
      exact ⟨fun _ j hj => absurd hj (Nat.not_lt_zero _), fun _ => rfl⟩
  | n1 + 1, 0, _, _, _, _, _, _, _ => by
      rw [Nat.min_zero]; unfold equalCC
      exact ⟨fun _ j hj => absurd hj (Nat.not_lt_zero _), fun _ => rfl⟩
  | n1 + 1, n2 + 1, _, _, c0, v0, c1, v1, eq => by
      rw [Nat.succ_min_succ]
      unfold AllEq
      rw [all_succ]
      have ih := equalCC_iff (n1 := n1) (n2 := n2) (fun j => c0 (j + 1)) v0 (fun j => c1 (j + 1)) v1 (fun j => eq (j + 1))
      unfold AllEq at ih
      rw [← ih]
      conv => lhs; unfold equalCC
      cases eq 0 (c0 0 v0) (c1 0 v1) <;> simp

theorem equalCV_iff : ∀ {n1 n2 : Nat} {K L : Nat → Type} (c : ∀ j, V → K j) (v : V) (vc : ∀ j, L j) (eq : ∀ j, K j → L j → Bool),
    equalCV n1 n2 c v vc eq = true ↔ AllEq (min n1 n2) eq (fun j => c j v) vc
  | 0, n2, _, _, _, _, _, _ => by
      rw [Nat.zero_min]; unfold equalCV
      exact ⟨fun _ j hj => absurd hj (Nat.not_lt_zero _), fun _ => rfl⟩
  | n1 + 1, 0, _, _, _, _, _, _ => by
      rw [Nat.min_zero]; unfold equalCV
      exact ⟨fun _ j hj => absurd hj (Nat.not_lt_zero _), fun _ => rfl⟩
  | n1 + 1, n2 + 1, _, _, c, v, vc, eq => by
      rw [Nat.succ_min_succ]
      unfold AllEq
      rw [all_succ]
      have ih := equalCV_iff (n1 := n1) (n2 := n2) (fun j => c (j + 1)) v (fun j => vc (j + 1)) (fun j => eq (j + 1))
      unfold AllEq at ih
      rw [← ih]
      conv => lhs; unfold equalCV
      cases eq 0 (c 0 v) (vc 0) <;> simp

theorem equalVC_iff : ∀ {n1 n2 : Nat} {K L : Nat → Type} (vc : ∀ j, L j) (c : ∀ j, V → K j) (v : V) (eq : ∀ j, L j → K j → Bool),
    equalVC n1 n2 vc c v eq = true ↔ AllEq (min n1 n2) eq vc (fun j => c j v)
  | 0, n2, _, _, _, _, _, _ => by
      rw [Nat.zero_min]; unfold equalVC
      exact ⟨fun _ j hj => absurd hj (Nat.not_lt_zero _), fun _ => rfl⟩
  | n1 + 1, 0, _, _, _, _, _, _ => by
      rw [Nat.min_zero]; unfold equalVC
      exact ⟨fun _ j hj => absurd hj (Nat.not_lt_zero _), fun _ => rfl⟩
  | n1 + 1, n2 + 1, _, _, vc, c, v, eq => by
      rw [Nat.succ_min_succ]
      unfold AllEq
      rw [all_succ]
      have ih := equalVC_iff (n1 := n1) (n2 := n2) (fun j => vc (j + 1)) (fun j => c (j + 1)) v (fun j => eq (j + 1))
      unfold AllEq at ih
      rw [← ih]
      conv => lhs; unfold equalVC
      cases eq 0 (vc 0) (c 0 v) <;> simp

theorem hashC_congr {b : Nat} : ∀ {n : Nat} {K : Nat → Type} (c : ∀ j, V → K j) (v : V) (c' : ∀ j, W → K j) (v' : W) (h : ∀ j, K j → BitVec b)
    (carry : BitVec b), (∀ j < n, h j (c j v) = h j (c' j v')) → hashC n c v h carry = hashC n c' v' h carry
  | 0, _, _, _, _, _, _, _, _ => rfl
  | n + 1, _, c, v, c', v', h, carry, hh => by
      unfold hashC
      rw [hh 0 (Nat.succ_pos _)]
      exact hashC_congr _ _ _ _ _ _ (fun j hj => hh (j + 1) (Nat.succ_lt_succ hj))

theorem hashV_eq {b : Nat} : ∀ {n : Nat} {K : Nat → Type} (vc : ∀ j, K j) (h : ∀ j, K j → BitVec b) (carry : BitVec b),
    hashV n vc h carry = hashC n (fun j (_ : Unit) => vc j) () h carry
  | 0, _, _, _, _ => rfl
  | n + 1, _, vc, h, carry => by
      unfold hashV hashC
      exact hashV_eq _ _ _

/-! ## The lexicographic order is a strict weak ordering -/

variable {K L : Nat → Type} {lt : ∀ j, K j → K j → Bool}

theorem lex_not {n : Nat} {lt : ∀ j, K j → L j → Bool} {lt' : ∀ j, L j → K j → Bool} {x : ∀ j, K j} {y : ∀ j, L j}
    (ha : ∀ j < n, ∀ a b, lt j a b = true → lt' j b a = false)
    (h1 : LexLess n lt lt' x y) (h2 : LexLess n lt' lt y x) : False := by
  obtain ⟨k, hk, hb, hl⟩ := h1
  obtain ⟨k', hk', hb', hl'⟩ := h2
  rcases Nat.lt_trichotomy k k' with h | h | h
  · have := (hb' k h).2; rw [hl] at this; cases this
  · subst h
    have := ha k hk _ _ hl; rw [hl'] at this; cases this
  · have := (hb k' h).2; rw [hl'] at this; cases this

/-- Two tuples are equivalent for the lexicographic order exactly if all components are. -/
theorem equiv_lex {n : Nat} {lt : ∀ j, K j → L j → Bool} {lt' : ∀ j, L j → K j → Bool} {x : ∀ j, K j} {y : ∀ j, L j} :
    (¬ LexLess n lt lt' x y ∧ ¬ LexLess n lt' lt y x) ↔ AllEquiv n lt lt' x y := by
  constructor
  · rintro ⟨h1, h2⟩ j
    induction j using Nat.strongRecOn with
    | _ j ih =>
      intro hj
      have hb : ∀ i < j, lt i (x i) (y i) = false ∧ lt' i (y i) (x i) = false := fun i hi => ih i hi (Nat.lt_trans hi hj)
      constructor
      · cases e : lt j (x j) (y j) with
        | false => rfl
        | true => exact absurd ⟨j, hj, hb, e⟩ h1
      · cases e : lt' j (y j) (x j) with
        | false => rfl
        | true => exact absurd ⟨j, hj, fun i hi => (hb i hi).symm, e⟩ h2
  · intro h
    constructor
    · rintro ⟨k, hk, _, hl⟩
      rw [(h k hk).1] at hl; cases hl
    · rintro ⟨k, hk, _, hl⟩
      rw [(h k hk).2] at hl; cases hl

theorem lex_trans {n : Nat} (sw : ∀ j < n, StrictWeak (lt j)) {x y z : ∀ j, K j} (h1 : LexLess n lt lt x y) (h2 : LexLess n lt lt y z) :
    LexLess n lt lt x z := by
  obtain ⟨k, hk, hb, hl⟩ := h1
  obtain ⟨k', hk', hb', hl'⟩ := h2
  have both : ∀ j, j < k → j < k' → lt j (x j) (z j) = false ∧ lt j (z j) (x j) = false := fun j h h' =>
    (sw j (Nat.lt_trans h hk)).incomp (hb j h).1 (hb j h).2 (hb' j h').1 (hb' j h').2
  rcases Nat.lt_trichotomy k k' with h | h | h
  · exact ⟨k, hk, fun j hj => both j hj (Nat.lt_trans hj h), (sw k hk).lt_le_trans hl (hb' k h).2⟩
  · subst h
    exact ⟨k, hk, fun j hj => both j hj hj, (sw k hk).trans hl hl'⟩
  · exact ⟨k', hk', fun j hj => both j (Nat.lt_trans hj h) hj, (sw k' hk').le_lt_trans (hb k' h).2 hl'⟩

theorem first_nat {p : Nat → Prop} (h : ∃ n, p n) : ∃ n, p n ∧ ∀ m < n, ¬ p m := by
  obtain ⟨n, hn⟩ := h
  induction n using Nat.strongRecOn with
  | _ n ih =>
    by_cases hc : ∃ m < n, p m
    · obtain ⟨m, hm, hp⟩ := hc
      exact ih m hm hp
    · exact ⟨n, hn, fun m hm hp => hc ⟨m, hm, hp⟩⟩

/-- Comparison with a compatible tuple is compatible with the order: what precedes something that precedes. -/
theorem lex_compat {n m : Nat} {lt : ∀ j, K j → K j → Bool} {ltk : ∀ j, K j → L j → Bool} {gtk : ∀ j, L j → K j → Bool}
    (hm : m ≤ n) (cx : ∀ j < m, CompatExt (lt j) (ltk j) (gtk j))
    (ex : ∀ j, j + 1 < m → ∀ c a b, gtk j c a = false → ltk j a c = false → gtk j c b = false → ltk j b c = false → lt j b a = false)
    {c : ∀ j, L j} {x y : ∀ j, K j}
    (h1 : LexLess m gtk ltk c y) (h2 : ¬ LexLess n lt lt x y) : LexLess m gtk ltk c x := by
  obtain ⟨k, hk, hb, hl⟩ := h1
  -- the first component at which `x` and `y` differ, if before `k`
  by_cases hd : ∃ i ≤ k, ¬ (lt i (x i) (y i) = false ∧ lt i (y i) (x i) = false)
  · obtain ⟨i, ⟨hik, hne⟩, hmin⟩ := first_nat hd
    have him : i < m := Nat.lt_of_le_of_lt hik hk
    have hin : i < n := Nat.lt_of_lt_of_le him hm
    have eqb : ∀ j < i, lt j (x j) (y j) = false ∧ lt j (y j) (x j) = false := fun j hj => by
      have := hmin j hj
      by_contra hc
      exact this ⟨Nat.le_trans (Nat.le_of_lt hj) hik, hc⟩
    have hnx : lt i (x i) (y i) = false := by
      cases e : lt i (x i) (y i) with
      | false => rfl
      | true => exact absurd ⟨i, hin, eqb, e⟩ h2
    have hyx : lt i (y i) (x i) = true := by
      cases e : lt i (y i) (x i) with
      | true => rfl
      | false => exact absurd ⟨hnx, e⟩ hne
    have eqc : ∀ j < i, gtk j (c j) (x j) = false ∧ ltk j (x j) (c j) = false := fun j hj => by
      have hjk := Nat.lt_of_lt_of_le hj hik
      have cj := cx j (Nat.lt_trans hj him)
      have e := eqb j hj
      have b := hb j hjk
      exact ⟨cj.upper _ _ _ b.1 e.2, cj.lower _ _ _ b.2 e.1⟩
    have ci := cx i him
    -- at `i`: `c` is not after `y`, and `y < x`
    have hcy : ltk i (y i) (c i) = false := by
      rcases Nat.lt_or_eq_of_le hik with h | h
      · exact (hb i h).2
      · subst h; exact ci.asymm _ _ hl
    have hcx : ltk i (x i) (c i) = false := ci.lower _ _ _ hcy hnx
    cases e : gtk i (c i) (x i) with
    | true => exact ⟨i, him, eqc, e⟩
    | false =>
      -- then `c` is not before `y` either
      have hy : gtk i (c i) (y i) = false := ci.upper _ _ _ e hnx
      have hik' : i < k := by
        rcases Nat.lt_or_eq_of_le hik with h | h
        · exact h
        · subst h; rw [hl] at hy; cases hy
      have hxy := ex i (Nat.lt_of_le_of_lt hik' hk) _ _ _ e hcx hy hcy
      rw [hyx] at hxy; cases hxy
  · have eqk : ∀ i ≤ k, lt i (x i) (y i) = false ∧ lt i (y i) (x i) = false := fun i hi => by
      by_contra hc
      exact hd ⟨i, hi, hc⟩
    refine ⟨k, hk, fun j hj => ?_, ?_⟩
    · have e := eqk j (Nat.le_of_lt hj)
      have cj := cx j (Nat.lt_trans hj hk)
      exact ⟨cj.upper _ _ _ (hb j hj).1 e.2, cj.lower _ _ _ (hb j hj).2 e.1⟩
    · have e := eqk k (Nat.le_refl _)
      cases h : gtk k (c k) (x k) with
      | true => rfl
      | false =>
        have := (cx k hk).upper _ _ _ h e.1
        rw [hl] at this; cases this

end MI.Key
