import Verif.Hash.Load
import Mathlib.Data.Int.Log
import Mathlib.Tactic.NormNum
import Mathlib.Tactic.Ring
/-!
# Rounding to IEEE 754 binary32

The rounding of non-negative rationals to `float` (24 bit significands, round to nearest, ties to even), without overflow.
-/
namespace MI.Hash
open MI

/-- Round to the nearest integer, ties to even. -/
def rne (q : ℚ) : ℤ :=
  if q - ⌊q⌋ < 1 / 2 then ⌊q⌋
  else if 1 / 2 < q - ⌊q⌋ then ⌊q⌋ + 1
  else if ⌊q⌋ % 2 = 0 then ⌊q⌋ else ⌊q⌋ + 1

/-- The exponent of the last bit of the significand. -/
def ulpExp (q : ℚ) : ℤ := max (Int.log 2 q - 23) (-149)

/-- The `float` nearest to `q`. -/
def fl32 (q : ℚ) : ℚ := if q ≤ 0 then 0 else (rne (q / 2 ^ ulpExp q) : ℚ) * 2 ^ ulpExp q

theorem rne_int (k : ℤ) : rne (k : ℚ) = k := by simp [rne]

theorem rne_bounds (q : ℚ) : ⌊q⌋ ≤ rne q ∧ rne q ≤ ⌊q⌋ + 1 := by
  unfold rne
  split
  · omega
  · split
    · omega
    · split <;> omega

theorem rne_mono {p q : ℚ} (h : p ≤ q) : rne p ≤ rne q := by
  have hf := Int.floor_le_floor h
  rcases Int.lt_or_le ⌊p⌋ ⌊q⌋ with k | k
  · have := (rne_bounds p).2
    have := (rne_bounds q).1
    omega
  · have e : ⌊p⌋ = ⌊q⌋ := by omega
    unfold rne
    rw [e]
    split
    · split
      · exact le_refl _
      · split
        · omega
        · split <;> omega
    · rename_i h1
      have h1' : ¬ (q - ⌊q⌋ < 1 / 2) := by intro k; apply h1; linarith
      rw [if_neg h1']
      split
      · rename_i h2
        have h2' : 1 / 2 < q - ⌊q⌋ := by linarith
        rw [if_pos h2']
      · split
        · split <;> omega
        · split
          · exact le_refl _
          · exact le_refl _

theorem fl32_nonneg (q : ℚ) : 0 ≤ fl32 q := by
  unfold fl32
  split
  · exact le_refl _
  · rename_i k
    have k : 0 < q := by linarith
    have h2 : (0 : ℚ) < 2 ^ ulpExp q := zpow_pos (by norm_num) _
    have h1 : 0 ≤ q / 2 ^ ulpExp q := div_nonneg (le_of_lt k) (le_of_lt h2)
    have h3 : 0 ≤ rne (q / 2 ^ ulpExp q) := le_trans (Int.floor_nonneg.2 h1) (rne_bounds _).1
    have h4 : (0 : ℚ) ≤ (rne (q / 2 ^ ulpExp q) : ℚ) := by exact_mod_cast h3
    exact mul_nonneg h4 (le_of_lt h2)

theorem two_zpow_lt (a b : ℤ) (h : a ≤ b) : (2 : ℚ) ^ a ≤ 2 ^ b := zpow_le_zpow_right₀ (by norm_num) h

theorem fl32_mono {p q : ℚ} (h : p ≤ q) : fl32 p ≤ fl32 q := by
  by_cases p0 : p ≤ 0
  · have : fl32 p = 0 := by unfold fl32; rw [if_pos p0]
    rw [this]
    exact fl32_nonneg q
  have p0 : 0 < p := by linarith
  have q0 : 0 < q := by linarith
  unfold fl32
  rw [if_neg (by linarith), if_neg (by linarith)]
  have le : Int.log 2 p ≤ Int.log 2 q := Int.log_mono_right p0 h
  have ee : ulpExp p ≤ ulpExp q := by unfold ulpExp; omega
  have hp2 : (0 : ℚ) < 2 ^ ulpExp p := zpow_pos (by norm_num) _
  have hq2 : (0 : ℚ) < 2 ^ ulpExp q := zpow_pos (by norm_num) _
  rcases eq_or_lt_of_le ee with e | e
  · rw [e]
    have h1 : rne (p / 2 ^ ulpExp q) ≤ rne (q / 2 ^ ulpExp q) := rne_mono (by gcongr)
    have h2 : (rne (p / 2 ^ ulpExp q) : ℚ) ≤ rne (q / 2 ^ ulpExp q) := by exact_mod_cast h1
    gcongr
  · -- different exponents: a power of two lies between
    have a1 : p < 2 ^ (ulpExp p + 24) := by
      have h1 : p < 2 ^ (Int.log 2 p + 1) := by
        have := Int.lt_zpow_succ_log_self (b := 2) (by norm_num) p
        simpa using this
      refine lt_of_lt_of_le h1 (two_zpow_lt _ _ ?_)
      unfold ulpExp; omega
    have a2 : (2 : ℚ) ^ (ulpExp q + 23) ≤ q := by
      have h1 : (2 : ℚ) ^ (Int.log 2 q) ≤ q := by
        have := Int.zpow_log_le_self (b := 2) (r := q) (by norm_num) q0
        simpa using this
      refine le_trans (two_zpow_lt _ _ ?_) h1
      have : -149 ≤ ulpExp p := by unfold ulpExp; omega
      unfold ulpExp at e ⊢
      omega
    have b1 : p / 2 ^ ulpExp p ≤ ((2 ^ 24 : ℤ) : ℚ) := by
      rw [div_le_iff₀ hp2]
      rw [zpow_add₀ (by norm_num)] at a1
      have : (2 : ℚ) ^ (24 : ℤ) = ((2 ^ 24 : ℤ) : ℚ) := by norm_num
      rw [← this]
      linarith
    have b2 : ((2 ^ 23 : ℤ) : ℚ) ≤ q / 2 ^ ulpExp q := by
      rw [le_div_iff₀ hq2]
      rw [zpow_add₀ (by norm_num)] at a2
      have : (2 : ℚ) ^ (23 : ℤ) = ((2 ^ 23 : ℤ) : ℚ) := by norm_num
      rw [← this]
      linarith
    have c1 : rne (p / 2 ^ ulpExp p) ≤ 2 ^ 24 := by
      have := rne_mono b1
      rwa [rne_int] at this
    have c2 : 2 ^ 23 ≤ rne (q / 2 ^ ulpExp q) := by
      have := rne_mono b2
      rwa [rne_int] at this
    have d1 : (rne (p / 2 ^ ulpExp p) : ℚ) ≤ 2 ^ 24 := by exact_mod_cast c1
    have d2 : (2 ^ 23 : ℚ) ≤ rne (q / 2 ^ ulpExp q) := by exact_mod_cast c2
    have d3 : (2 : ℚ) ^ 24 * 2 ^ ulpExp p ≤ 2 ^ 23 * 2 ^ ulpExp q := by
      have h1 : (2 : ℚ) ^ (ulpExp p + 1) ≤ 2 ^ ulpExp q := two_zpow_lt _ _ e
      rw [zpow_add₀ (by norm_num)] at h1
      norm_num at h1 ⊢
      linarith
    calc (rne (p / 2 ^ ulpExp p) : ℚ) * 2 ^ ulpExp p ≤ 2 ^ 24 * 2 ^ ulpExp p := by gcongr
      _ ≤ 2 ^ 23 * 2 ^ ulpExp q := d3
      _ ≤ _ := by gcongr

/-- Multiples of the unit in the last place are exact. -/
theorem fl32_of_int {q : ℚ} (q0 : 0 < q) {z : ℤ} (hz : q / 2 ^ ulpExp q = z) : fl32 q = q := by
  unfold fl32
  rw [if_neg (by linarith), hz, rne_int, ← hz]
  have : (2 : ℚ) ^ ulpExp q ≠ 0 := ne_of_gt (zpow_pos (by norm_num) _)
  field_simp

theorem log_eq {q : ℚ} {e : ℤ} (h1 : (2 : ℚ) ^ e ≤ q) (h2 : q < 2 ^ (e + 1)) : Int.log 2 q = e := by
  have q0 : 0 < q := lt_of_lt_of_le (zpow_pos (by norm_num) _) h1
  apply le_antisymm
  · have : Int.log 2 q < e + 1 := (Int.lt_zpow_iff_log_lt (b := 2) (by norm_num) q0).1 (by exact_mod_cast h2)
    omega
  · exact (Int.zpow_le_iff_le_log (b := 2) (by norm_num) q0).1 (by exact_mod_cast h1)

theorem fl32_exact (k : Nat) (hk : k ≤ 2 ^ 24) : fl32 (k : ℚ) = k := by
  rcases Nat.eq_zero_or_pos k with rfl | k0
  · simp [fl32]
  have kq : (0 : ℚ) < k := by exact_mod_cast k0
  rcases Nat.lt_or_eq_of_le hk with h | h
  · have l1 : Int.log 2 (k : ℚ) < 24 := by
      apply (Int.lt_zpow_iff_log_lt (b := 2) (by norm_num) kq).1
      have : ((2 : ℕ) : ℚ) ^ (24 : ℤ) = ((2 ^ 24 : ℕ) : ℚ) := by norm_num
      rw [this]
      exact_mod_cast h
    obtain ⟨m, hm⟩ : ∃ m : Nat, ulpExp (k : ℚ) = -(m : ℤ) := by
      refine ⟨(-(ulpExp (k : ℚ))).toNat, ?_⟩
      have : ulpExp (k : ℚ) ≤ 0 := by unfold ulpExp; omega
      omega
    refine fl32_of_int kq (z := (k * 2 ^ m : ℕ)) ?_
    rw [hm, zpow_neg, div_inv_eq_mul]
    push_cast
    simp
  · subst h
    have l : Int.log 2 (((2 ^ 24 : ℕ)) : ℚ) = 24 := by
      apply log_eq
      · norm_num
      · norm_num
    refine fl32_of_int kq (z := 2 ^ 23) ?_
    unfold ulpExp
    rw [l]
    norm_num

/-- IEEE 754 single precision rounding is exact up to `2^24`. -/
theorem rounding32 : Rounding fl32 (2 ^ 24) := ⟨fl32_mono, fl32_exact⟩

/-- Rounding of an integer, given the exponent. -/
theorem fl32_nat {n : Nat} {e : Nat} (h1 : 2 ^ (23 + e) ≤ n) (h2 : n < 2 ^ (24 + e)) : fl32 (n : ℚ) = (rne ((n : ℚ) / 2 ^ e) : ℚ) * 2 ^ e := by
  have n0 : 0 < n := lt_of_lt_of_le (by positivity) h1
  have nq : (0 : ℚ) < n := by exact_mod_cast n0
  have l : Int.log 2 (n : ℚ) = 23 + e := by
    apply log_eq
    · have : (2 : ℚ) ^ ((23 : ℤ) + (e : ℤ)) = ((2 ^ (23 + e) : ℕ) : ℚ) := by
        push_cast
        rw [← zpow_natCast]
        push_cast
        rfl
      rw [this]
      exact_mod_cast h1
    · have : (2 : ℚ) ^ ((23 : ℤ) + (e : ℤ) + 1) = ((2 ^ (24 + e) : ℕ) : ℚ) := by
        push_cast
        rw [← zpow_natCast]
        push_cast
        congr 1
        ring
      rw [this]
      exact_mod_cast h2
  have u : ulpExp (n : ℚ) = e := by unfold ulpExp; rw [l]; omega
  unfold fl32
  rw [if_neg (by linarith), u]
  simp

end MI.Hash
