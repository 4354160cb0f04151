import Verif.Hash.Grow
import Verif.Hash.CallsLemmas
import Mathlib.Tactic.Ring
/-! # Lemmas about indices that grow -/
namespace MI.Hash
open MI

/-! ## The table of bucket counts -/

/-- The sum and the number of the bucket counts up to `b`. -/
def upTo (b : Nat) : Nat := (sizes.filter (· ≤ b)).sum
def upToN (b : Nat) : Nat := (sizes.filter (· ≤ b)).length

theorem upTo_step : ∀ b' ∈ sizes, ∀ b ∈ sizes, b < b' → upTo b + b' ≤ upTo b' ∧ upToN b + 1 ≤ upToN b' := by decide +kernel
theorem upTo_self : ∀ b ∈ sizes, b ≤ upTo b ∧ 1 ≤ upToN b := by decide +kernel
theorem upTo_le : ∀ b ∈ sizes, b < 2 ^ 24 → 10 * upTo b ≤ 21 * b ∧ upToN b ≤ 19 := by decide +kernel

section
variable {fl : ℚ → ℚ} {M : Nat} {mlf : ℚ} {n : Nat}

/-- The number of buckets that `n` elements need. -/
theorem need (R : Rounding fl M) (m0 : 0 < mlf) (hn : n ≤ M) (hy : (n : ℚ) / mlf + 2 ≤ M) (hM : M ≤ sizeTop) :
    ∃ k : Nat, k ≤ M ∧ (n : ℚ) / mlf ≤ k ∧ (k : ℚ) < (n : ℚ) / mlf + 1 ∧ ∀ m, bcFor fl mlf n ≤ m → k ≤ sizeFor sizes m := by
  obtain ⟨y, hy'⟩ : ∃ y : Nat, y = ⌈(n : ℚ) / mlf⌉₊ := ⟨_, rfl⟩
  have c1 : (n : ℚ) / mlf ≤ y := by rw [hy']; exact Nat.le_ceil _
  have c3 : (y : ℚ) < (n : ℚ) / mlf + 1 := by rw [hy']; exact Nat.ceil_lt_add_one (by positivity)
  have c4 : y ≤ M := by
    have : (y : ℚ) ≤ M := by linarith
    exact_mod_cast this
  refine ⟨y, c4, c1, c3, fun m hm => ?_⟩
  have st := sizeFor_top m
  by_cases k : m ≤ sizeTop
  · refine Nat.le_trans ?_ (st.2.1 k)
    refine Nat.le_trans ?_ hm
    rcases bcFor_gt R m0 hn hy with g | g
    · rw [hy']; exact Nat.ceil_le.2 (le_of_lt g)
    · have lt : sizeTop < sizeMax := by decide
      omega
  · rw [st.2.2 (by omega)]
    omega

/-- An index that is too small for `n` elements grows. -/
theorem grows (R : Rounding fl M) (m0 : 0 < mlf) (hn : n ≤ M) (hy : (n : ℚ) / mlf + 2 ≤ M) (hM : M ≤ sizeTop) {bc : Nat} (lt : maxLoad fl mlf bc < n) :
    bc < sizeFor sizes (bcFor fl mlf n) ∧ bc < M ∧ (bc : ℚ) * mlf < n ∧ n ≤ maxLoad fl mlf (sizeFor sizes (bcFor fl mlf n)) := by
  obtain ⟨k, k1, k2, k3, k4⟩ := need R m0 hn hy hM
  have hs : n ≤ sizeMax := Nat.le_trans hn (Nat.le_trans hM (by decide))
  have b : bc < k := by
    apply Nat.lt_of_not_le
    intro q
    have := maxLoad_ge R m0 hn hs k1 k2 q
    omega
  refine ⟨Nat.lt_of_lt_of_le b (k4 _ (Nat.le_refl _)), by omega, ?_, maxLoad_ge R m0 hn hs k1 k2 (k4 _ (Nat.le_refl _))⟩
  have b' : (bc : ℚ) + 1 ≤ k := by exact_mod_cast b
  have : (bc : ℚ) < (n : ℚ) / mlf := by linarith
  exact (lt_div_iff₀ m0).1 this

/-- `max_load` is not much more than the maximum load factor allows. -/
theorem maxLoad_le (R : Rounding fl M) (hM : M ≤ sizeTop) {bc s : Nat} (m0 : 0 < mlf) (hb : bc ≤ M) (hs : s ≤ M) (h : s ≤ maxLoad fl mlf bc) (lt : maxLoad fl mlf bc < s + 1)
    (hs1 : s + 1 ≤ M) : (s : ℚ) ≤ mlf * bc + 1 := by
  unfold maxLoad toSize at h lt
  rw [R.exact bc hb] at h lt
  split at h
  · apply le_of_not_gt
    intro q
    have s1 : 1 ≤ s := by
      apply Nat.one_le_iff_ne_zero.2
      rintro rfl
      have : (0 : ℚ) ≤ mlf * bc := by positivity
      push_cast at q
      linarith
    have e : ((s - 1 : Nat) : ℚ) = s - 1 := by push_cast [s1]; ring
    have f : fl (mlf * bc) ≤ ((s - 1 : Nat) : ℚ) := by
      rw [← R.exact (s - 1) (by omega)]
      apply R.mono
      rw [e]
      linarith
    have := Nat.floor_le_floor f
    rw [Nat.floor_natCast] at this
    omega
  · rename_i k
    rw [if_neg k] at lt
    have : sizeTop < sizeMax := by decide
    omega

theorem maxLoad_top (R : Rounding fl M) (m0 : 0 < mlf) (hn : n ≤ M) (hy : (n : ℚ) / mlf + 2 ≤ M) (hM : M ≤ sizeTop) : n ≤ maxLoad fl mlf sizeTop := by
  obtain ⟨k, k1, k2, k3, k4⟩ := need R m0 hn hy hM
  exact maxLoad_ge R m0 hn (Nat.le_trans hn (Nat.le_trans hM (by decide))) k1 k2 (Nat.le_trans k1 hM)

/-- `rehash(b)` of an index that is not too small never leaves fewer buckets. -/
theorem rehash_grows (R : Rounding fl M) (m0 : 0 < mlf) (hn : n ≤ M) (hy : (n : ℚ) / mlf + 2 ≤ M) (hM : M ≤ sizeTop) {bc b : Nat} (hbc : bc ∈ sizes)
    (hl : n ≤ maxLoad fl mlf bc) (ne : ¬ (n ≤ maxLoad fl mlf bc ∧ b ≤ bc)) :
    let p := Policy.rehash fl mlf ⟨bc, maxLoad fl mlf bc⟩ n b
    bc ≤ p.bc ∧ p.bc ∈ sizes ∧ p.ml = maxLoad fl mlf p.bc ∧ n ≤ p.ml := by
  intro p
  have hs : n ≤ sizeMax := Nat.le_trans hn (Nat.le_trans hM (by decide))
  have all : ∀ s ∈ sizes, s ≤ sizeTop := by decide +kernel
  have pe : p.bc ∈ sizes ∧ p.ml = maxLoad fl mlf p.bc := by
    have : ∃ m, p = Policy.unchecked fl mlf m := by
      show ∃ m, Policy.rehash fl mlf ⟨bc, maxLoad fl mlf bc⟩ n b = _
      rw [Policy.rehash, if_neg ne]
      exact ⟨_, rfl⟩
    obtain ⟨m, e⟩ := this
    rw [e]
    exact ⟨sizeFor_mem m, rfl⟩
  rcases rehash_load R m0 hn hs hy ⟨bc, maxLoad fl mlf bc⟩ b with ⟨h1, h2⟩ | h1
  · refine ⟨Nat.le_trans ?_ h1, pe.1, pe.2, h2⟩
    have : ¬ b ≤ bc := fun q => ne ⟨hl, q⟩
    omega
  · refine ⟨?_, pe.1, pe.2, ?_⟩
    · show bc ≤ (Policy.rehash fl mlf ⟨bc, maxLoad fl mlf bc⟩ n b).bc
      rw [h1]
      exact all _ hbc
    · rw [pe.2]
      show n ≤ maxLoad fl mlf (Policy.rehash fl mlf ⟨bc, maxLoad fl mlf bc⟩ n b).bc
      rw [h1]
      exact maxLoad_top R m0 hn hy hM

end

/-! ## Histories -/

section
variable {c : Cat} {eq : Id → Id → Bool} {hash : Id → Nat} {hd : Id} {n : Nat} {fl : ℚ → ℚ} {mlf : ℚ} {P M : Nat}

/-- What has been paid for: at most `m` calls were billed; those of automatic rehashes are covered by the bucket counts grown out of. -/
def Paid (mlf : ℚ) (P M : Nat) (bc calls m : Nat) : Prop :=
  calls ≤ m ∨ ∃ b ∈ sizes, b < bc ∧ b < M ∧ (b : ℚ) * mlf < P + 1 ∧ (calls : ℚ) ≤ m + mlf * upTo b + upToN b

theorem Paid.mono {bc bc' calls calls' m m' : Nat} (p : Paid mlf P M bc calls m) (h : bc ≤ bc') (hc : calls' + m ≤ calls + m') : Paid mlf P M bc' calls' m' := by
  rcases p with p | ⟨b, hb, h1, h2, h3, h4⟩
  · left; omega
  · refine Or.inr ⟨b, hb, by omega, h2, h3, ?_⟩
    have : (calls' : ℚ) + m ≤ calls + m' := by exact_mod_cast hc
    linarith

/-- An automatic rehash is covered. -/
theorem Paid.grow {bc bc' calls s m : Nat} (p : Paid mlf P M bc calls m) (m0 : 0 < mlf) (hb : bc ∈ sizes) (h : bc < bc') (hM : bc < M)
    (hP : (bc : ℚ) * mlf < P + 1) (hs : (s : ℚ) ≤ mlf * bc + 1) {k : Nat} (hk : k ≤ s) : Paid mlf P M bc' (calls + k) m := by
  have hk' : (k : ℚ) ≤ s := by exact_mod_cast hk
  refine Or.inr ⟨bc, hb, h, hM, hP, ?_⟩
  rcases p with p | ⟨b, hb', h1, h2, h3, h4⟩
  · obtain ⟨u1, u2⟩ := upTo_self bc hb
    have u1' : mlf * (bc : ℚ) ≤ mlf * upTo bc := mul_le_mul_of_nonneg_left (by exact_mod_cast u1) (le_of_lt m0)
    have u2' : (1 : ℚ) ≤ upToN bc := by exact_mod_cast u2
    have p' : (calls : ℚ) ≤ m := by exact_mod_cast p
    push_cast
    linarith
  · obtain ⟨u1, u2⟩ := upTo_step bc hb b hb' h1
    have u1' : mlf * ((upTo b : ℚ) + bc) ≤ mlf * upTo bc := mul_le_mul_of_nonneg_left (by exact_mod_cast u1) (le_of_lt m0)
    have u2' : (upToN b : ℚ) + 1 ≤ upToN bc := by exact_mod_cast u2
    push_cast
    linarith

/-- What holds between operations. -/
structure GrowInv (c : Cat) (eq : Id → Id → Bool) (hash : Id → Nat) (hd : Id) (fl : ℚ → ℚ) (mlf : ℚ) (P M : Nat) (g : GState) (xs : List Id) (m : Nat) : Prop where
  holds : Holds c eq hash g.s.h g.s.a hd xs
  size : g.s.size = xs.length
  bc : g.s.a.size ∈ sizes
  ml : g.ml = maxLoad fl mlf g.s.a.size
  room : g.s.size ≤ g.ml
  peak : g.s.size ≤ P
  paid : Paid mlf P M g.s.a.size g.calls m

theorem rehashG_spec (eh : EqHash eq hash) {g : GState} {xs : List Id} (w : Holds c eq hash g.s.h g.s.a hd xs) (sz : g.s.size = xs.length)
    {p : Policy} {base cpy : Id} {t : Option Nat} (p0 : 0 < p.bc) (nm : NewMem g.s.a ⟨base, p.bc⟩ hd cpy xs) :
    ∃ g1 b xs1, rehashG c hash hd g p base cpy t = .ok (g1, b) ∧ Holds c eq hash g1.s.h g1.s.a hd xs1 ∧ g1.s.size = xs1.length ∧ xs1.Perm xs ∧
      g.calls ≤ g1.calls ∧ g1.calls ≤ g.calls + xs.length ∧ g1.s.size = g.s.size ∧
      (b = true → t ≠ none ∧ g1.s.a = g.s.a ∧ g1.ml = g.ml) ∧ (b = false → g1.s.a = ⟨base, p.bc⟩ ∧ g1.ml = p.ml) := by
  obtain ⟨h', b, e1, e2, e3, e4⟩ := w.rehash (t := t) eh p0 nm
  have kk : rehashCalls c hash xs.length t g.s.h ⟨base, p.bc⟩ hd cpy ≤ xs.length := by
    obtain ⟨s0, T, r, gd, rfl⟩ := w
    obtain ⟨-, -, -, -, -, -, -, k, -⟩ := rehash_table (t := t) r gd eh s0 p0 nm
    have l := (parts_length T.groups).2.1
    rw [← nodes_groups] at l
    rw [Tab.parts_groups] at k
    exact Nat.le_trans k l
  unfold rehashG
  dsimp only
  rw [sz, e1]
  cases b with
  | true =>
    refine ⟨_, true, xs, rfl, e3 rfl, rfl, .refl _, by dsimp only; omega, by dsimp only; omega, rfl, fun _ => ⟨?_, rfl, rfl⟩, fun k => nomatch k⟩
    rintro rfl
    exact nomatch e2 rfl
  | false =>
    obtain ⟨xs1, k1, k2, -⟩ := e4 rfl
    exact ⟨_, false, xs1, rfl, k1, k2.length_eq.symm, k2, by dsimp only; omega, by dsimp only; omega, rfl, (fun k => nomatch k), fun _ => ⟨rfl, rfl⟩⟩

theorem GrowInv.elems {g : GState} {xs : List Id} {m : Nat} (w : GrowInv c eq hash hd fl mlf P M g xs m) (hn : P ≤ n) : elems n c hd g.s.h = xs := by
  have l : xs.length ≤ n := by rw [← w.size]; exact Nat.le_trans w.peak hn
  have := w.holds.walk (post := []) xs [] n (by simp) l
  unfold Hash.elems
  rw [w.holds.begin]
  simp only [List.nil_append, List.append_nil, List.headD_nil] at this ⊢
  rw [this]

theorem stepG_spec (eh : EqHash eq hash) (R : Rounding fl M) (m0 : 0 < mlf) (hM : M ≤ sizeTop) (hP : P + 1 ≤ M) (hy : ((P + 1 : Nat) : ℚ) / mlf + 2 ≤ M)
    {g : GState} {xs : List Id} {m : Nat} (w : GrowInv c eq hash hd fl mlf P M g xs m) (hn : P ≤ n) (op : GOp) (hl : LegalG fl mlf hd g xs op) :
    ∃ g' xs', stepG fl mlf n c eq hash hd g op = .ok g' ∧ (g'.s.size ≤ P → GrowInv c eq hash hd fl mlf P M g' xs' (m + bill P op)) := by
  have hyn : ∀ {k : Nat}, k ≤ P + 1 → (k : ℚ) / mlf + 2 ≤ M := by
    intro k hk
    have : (k : ℚ) / mlf ≤ ((P + 1 : Nat) : ℚ) / mlf := div_le_div_of_nonneg_right (by exact_mod_cast hk) (le_of_lt m0)
    linarith
  have lxs : xs.length ≤ P := by rw [← w.size]; exact w.peak
  have pk := w.peak
  cases op with
  | erase x =>
    have hl : x ∈ xs := hl
    obtain ⟨s', xs', e1, e2, e3, e4, e5⟩ := step_effect (n := n) eh w.holds w.size (.refl _) (by omega) (.erase x) hl
    have e6 : s' = ⟨unlink c g.s.h x, g.s.a, g.s.size - 1⟩ := by simp only [step] at e1; exact (Out.ok.inj e1).symm
    refine ⟨{ g with s := s' }, xs', by simp only [stepG, e1], fun k => ?_⟩
    subst e6
    exact ⟨e2, e3, w.bc, w.ml, Nat.le_trans (Nat.sub_le _ _) w.room, k, w.paid.mono (Nat.le_refl _) (by simp [bill])⟩
  | clear =>
    obtain ⟨s', xs', e1, e2, e3, e4, e5⟩ := step_effect (n := n) eh w.holds w.size (.refl _) (by omega) .clear trivial
    have e6 : s' = ⟨Hash.clear g.s.h g.s.a hd, g.s.a, 0⟩ := by simp only [step] at e1; exact (Out.ok.inj e1).symm
    refine ⟨{ g with s := s' }, xs', by simp only [stepG, e1], fun k => ?_⟩
    subst e6
    exact ⟨e2, e3, w.bc, w.ml, Nat.zero_le _, k, w.paid.mono (Nat.le_refl _) (by simp [bill])⟩
  | rehash b base cpy t =>
    by_cases ne : g.s.size ≤ g.ml ∧ b ≤ g.s.a.size
    · refine ⟨g, xs, by simp only [stepG, if_pos ne], fun k => ?_⟩
      exact ⟨w.holds, w.size, w.bc, w.ml, w.room, k, w.paid.mono (Nat.le_refl _) (by simp [bill])⟩
    · have ne' := ne
      have rm := w.room
      rw [w.ml] at ne' rm
      obtain ⟨r1, r2, r3, r4⟩ := rehash_grows R m0 (by omega) (hyn (by omega)) hM w.bc rm ne'
      rw [← w.ml] at r1 r2 r3 r4
      obtain ⟨g1, bb, xs1, f1, f2, f3, f4, f5, f6, f7, f8, f9⟩ := rehashG_spec (t := t) eh w.holds w.size
        (p := Policy.rehash fl mlf ⟨g.s.a.size, g.ml⟩ g.s.size b) (Nat.lt_of_lt_of_le (by decide) (sizes_pos _ r2)) hl
      refine ⟨g1, xs1, by simp only [stepG, if_neg ne, f1], fun k => ?_⟩
      have cc : g1.calls + m ≤ g.calls + (m + P) := by omega
      cases bb with
      | true =>
        obtain ⟨-, h2, h3⟩ := f8 rfl
        exact ⟨f2, f3, by rw [h2]; exact w.bc, by rw [h2, h3]; exact w.ml, by rw [h3, f7]; exact w.room, k, by rw [h2]; exact w.paid.mono (Nat.le_refl _) cc⟩
      | false =>
        obtain ⟨h2, h3⟩ := f9 rfl
        exact ⟨f2, f3, by rw [h2]; exact r2, by rw [h2, h3]; exact r3, by rw [h3, f7]; exact r4, k, by rw [h2]; exact w.paid.mono r1 cc⟩
  | insert x base cpy t =>
    obtain ⟨x0, xn, xa, hnew⟩ := hl
    -- making room
    have res : ∃ g1 b xs1, reserveG fl mlf c hash hd g base cpy t = .ok (g1, b) ∧ Holds c eq hash g1.s.h g1.s.a hd xs1 ∧ g1.s.size = xs1.length ∧
        xs1.Perm xs ∧ g.calls ≤ g1.calls ∧ g1.s.size = g.s.size ∧ g1.s.a.size ∈ sizes ∧ g1.ml = maxLoad fl mlf g1.s.a.size ∧
        g1.s.size ≤ g1.ml ∧ (b = false → g1.s.size + 1 ≤ g1.ml) ∧ (b = true → t ≠ none) ∧ (x < g1.s.a.base ∨ g1.s.a.endB < x) ∧
        Paid mlf P M g1.s.a.size g1.calls (m + if b then P else 0) := by
      unfold reserveG
      split
      · rename_i full
        obtain ⟨nm, xa'⟩ := hnew full
        have rm := w.room
        rw [w.ml] at full rm
        obtain ⟨r1, r2, r3, r4⟩ := grows R m0 (n := g.s.size + 1) (by omega) (hyn (by omega)) hM full
        have small := maxLoad_le R hM m0 (Nat.le_of_lt r2) (by omega) rm full (by omega)
        obtain ⟨g1, bb, xs1, f1, f2, f3, f4, f5, f6, f7, f8, f9⟩ := rehashG_spec (t := t) eh w.holds w.size
          (p := Policy.unchecked fl mlf (bcFor fl mlf (g.s.size + 1))) (sizeFor_pos _) nm
        refine ⟨g1, bb, xs1, f1, f2, f3, f4, f5, f7, ?_⟩
        cases bb with
        | true =>
          obtain ⟨h1, h2, h3⟩ := f8 rfl
          refine ⟨by rw [h2]; exact w.bc, by rw [h2, h3]; exact w.ml, by rw [h3, f7]; exact w.room, (fun k => nomatch k), fun _ => h1, by rw [h2]; exact xa, ?_⟩
          rw [h2]
          exact w.paid.mono (Nat.le_refl _) (by simp only [if_true]; omega)
        | false =>
          obtain ⟨h2, h3⟩ := f9 rfl
          refine ⟨by rw [h2]; exact sizeFor_mem _, by rw [h2, h3]; rfl, ?_, fun _ => by rw [h3, f7]; exact r4, (fun k => nomatch k), by rw [h2]; exact xa', ?_⟩
          · rw [h3, f7]
            exact Nat.le_trans (Nat.le_succ _) r4
          · rw [h2]
            have hb : (g.s.a.size : ℚ) * mlf < P + 1 := by
              have : ((g.s.size + 1 : Nat) : ℚ) ≤ ((P + 1 : Nat) : ℚ) := by exact_mod_cast Nat.add_le_add_right pk 1
              push_cast at this r3
              linarith
            have e : g1.calls = g.calls + (g1.calls - g.calls) := by omega
            rw [e]
            simp only [Bool.false_eq_true, if_false, Nat.add_zero]
            exact w.paid.grow m0 w.bc r1 r2 hb small (by rw [w.size]; omega)
      · rename_i full
        refine ⟨g, false, xs, rfl, w.holds, w.size, .refl _, Nat.le_refl _, rfl, w.bc, w.ml, w.room, fun _ => by omega, (fun k => nomatch k), xa, ?_⟩
        simpa using w.paid
    obtain ⟨g1, b, xs1, e1, e2, e3, e4, e5, e6, e7, e8, e9, e10, e11, e12, e13⟩ := res
    cases b with
    | true =>
      refine ⟨g1, xs1, by simp only [stepG, e1], fun k => ⟨e2, e3, e7, e8, e9, k, e13.mono (Nat.le_refl _) ?_⟩⟩
      cases t with
      | none => exact absurd rfl (e11 rfl)
      | some j => simp only [bill, if_true]; omega
    | false =>
      simp only [Bool.false_eq_true, if_false, Nat.add_zero] at e13
      have b1 : 1 ≤ bill P (.insert x base cpy t) := by cases t <;> simp [bill]
      by_cases ht : t = some (g1.calls - g.calls)
      · refine ⟨{ g1 with calls := g1.calls + 1 }, xs1, by simp only [stepG, e1, if_pos ht], fun k => ⟨e2, e3, e7, e8, e9, k, e13.mono (Nat.le_refl _) ?_⟩⟩
        dsimp only
        omega
      · obtain ⟨s', xs', q1, q2, q3, q4, q5⟩ := step_effect (n := n) eh e2 e3 (.refl _) (by rw [e4.length_eq]; omega) (.insert x)
          ⟨x0, by simpa [e4.mem_iff] using xn, e12⟩
        have q6 : s'.a = g1.s.a := by
          simp only [step] at q1
          split at q1 <;> first | (rw [← Out.ok.inj q1]) | (exfalso; cases q1)
        refine ⟨{ g1 with s := s', calls := g1.calls + 1 }, xs', by simp only [stepG, e1, if_neg ht, q1], fun k => ?_⟩
        refine ⟨q2, q3, by dsimp only; rw [q6]; exact e7, by dsimp only; rw [q6]; exact e8, ?_, k, ?_⟩
        · have := e10 rfl
          dsimp only
          omega
        · dsimp only
          rw [q6]
          exact e13.mono (Nat.le_refl _) (by omega)

theorem runG_spec (eh : EqHash eq hash) (R : Rounding fl M) (m0 : 0 < mlf) (hM : M ≤ sizeTop) (hP : P + 1 ≤ M) (hy : ((P + 1 : Nat) : ℚ) / mlf + 2 ≤ M)
    (hn : P ≤ n) : ∀ (ops : List GOp) {g : GState} {xs : List Id} {m : Nat}, GrowInv c eq hash hd fl mlf P M g xs m →
      ValidG fl mlf n c eq hash hd P ops g →
      ∃ g' xs', runG fl mlf n c eq hash hd ops g = .ok g' ∧ GrowInv c eq hash hd fl mlf P M g' xs' (m + (ops.map (bill P)).sum)
  | [], g, xs, m, w, _ => ⟨g, xs, rfl, by simpa using w⟩
  | op :: ops, g, xs, m, w, hv => by
    have hl := hv.1
    rw [w.elems hn] at hl
    obtain ⟨g1, xs1, e1, w1⟩ := stepG_spec eh R m0 hM hP hy w hn op hl
    obtain ⟨k1, k2⟩ := hv.2 g1 e1
    obtain ⟨g2, xs2, e2, w2⟩ := runG_spec eh R m0 hM hP hy hn ops (w1 k1) k2
    refine ⟨g2, xs2, by simp only [runG, e1, e2], ?_⟩
    rw [List.map_cons, List.sum_cons, ← Nat.add_assoc]
    exact w2

/-- What the calls come to. -/
theorem Paid.total {bc calls m : Nat} (p : Paid mlf P (2 ^ 24) bc calls m) (m0 : 0 < mlf) : 10 * calls ≤ 10 * m + 21 * (P + 1) + 190 := by
  rcases p with p | ⟨b, hb, h1, h2, h3, h4⟩
  · omega
  · obtain ⟨u1, u2⟩ := upTo_le b hb h2
    have u1' : mlf * (10 * (upTo b : ℚ)) ≤ mlf * (21 * b) := mul_le_mul_of_nonneg_left (by exact_mod_cast u1) (le_of_lt m0)
    have u2' : (upToN b : ℚ) ≤ 19 := by exact_mod_cast u2
    have : (10 * (calls : ℚ)) ≤ 10 * m + 21 * (P + 1) + 190 := by linarith
    exact_mod_cast this

end
end MI.Hash

/-! ## Checking that a history is legal -/
namespace MI.Hash
open MI

/-- `LegalG`, decided. -/
def legalGB (fl : ℚ → ℚ) (mlf : ℚ) (hd : Id) (g : GState) (l : List Id) : GOp → Bool
  | .insert x base cpy _ => legalB g.s.a hd l (.insert x) &&
      (decide (g.s.size + 1 ≤ g.ml) || (legalB g.s.a hd l (.rehash ⟨base, sizeFor sizes (bcFor fl mlf (g.s.size + 1))⟩ cpy none) &&
        decide (x < base ∨ base + sizeFor sizes (bcFor fl mlf (g.s.size + 1)) < x)))
  | .erase x => decide (x ∈ l)
  | .rehash b base cpy _ => legalB g.s.a hd l (.rehash ⟨base, (Policy.rehash fl mlf ⟨g.s.a.size, g.ml⟩ g.s.size b).bc⟩ cpy none)
  | .clear => true

theorem legalG_of {fl : ℚ → ℚ} {mlf : ℚ} {hd : Id} {g : GState} {l : List Id} {op : GOp} (h : legalGB fl mlf hd g l op = true) : LegalG fl mlf hd g l op := by
  cases op with
  | insert x base cpy t =>
    simp only [legalGB, Bool.and_eq_true, Bool.or_eq_true, decide_eq_true_eq] at h
    obtain ⟨h1, h2, h3⟩ := (legal_of h.1 : Legal g.s.a hd l (.insert x))
    refine ⟨h1, h2, h3, fun k => ?_⟩
    rcases h.2 with q | q
    · omega
    · exact ⟨(legal_of q.1 : Legal g.s.a hd l (.rehash _ cpy none)).2, q.2⟩
  | erase x => simpa [legalGB, LegalG] using h
  | rehash b base cpy t => exact (legal_of h : Legal g.s.a hd l (.rehash _ cpy none)).2
  | clear => trivial

/-- `ValidG`, decided. -/
def validGB (fl : ℚ → ℚ) (mlf : ℚ) (n : Nat) (c : Cat) (eq : Id → Id → Bool) (hash : Id → Nat) (hd : Id) (P : Nat) : List GOp → GState → Bool
  | [], _ => true
  | op :: ops, g => legalGB fl mlf hd g (elems n c hd g.s.h) op &&
      match stepG fl mlf n c eq hash hd g op with
      | .ok g' => decide (g'.s.size ≤ P) && validGB fl mlf n c eq hash hd P ops g'
      | _ => true

theorem validG_of {fl : ℚ → ℚ} {mlf : ℚ} {n : Nat} {c : Cat} {eq : Id → Id → Bool} {hash : Id → Nat} {hd : Id} {P : Nat} :
    ∀ (ops : List GOp) {g : GState}, validGB fl mlf n c eq hash hd P ops g = true → ValidG fl mlf n c eq hash hd P ops g
  | [], _, _ => trivial
  | op :: ops, g, h => by
    simp only [validGB, Bool.and_eq_true] at h
    refine ⟨legalG_of h.1, fun g' e => ?_⟩
    have := h.2
    rw [e] at this
    simp only [Bool.and_eq_true, decide_eq_true_eq] at this
    exact ⟨this.1, validG_of ops this.2⟩

end MI.Hash
