import Verif.Hash.Float
/-!
# The load policy beyond the integers that `float` represents

Relative errors of `float` arithmetic, and what they make of the load policy, for all sizes.
-/
namespace MI.Hash
open MI

variable {mlf q : ℚ} {n bc : Nat}

/-- The relative error of one rounding. -/
abbrev relErr : ℚ := 1 / 2 ^ 24

theorem rne_close (q : ℚ) : q - 1 / 2 ≤ rne q ∧ (rne q : ℚ) ≤ q + 1 / 2 := by
  have h1 := Int.floor_le q
  have h2 := Int.lt_floor_add_one q
  unfold rne
  split
  · constructor <;> linarith
  · split
    · push_cast; constructor <;> linarith
    · split
      · constructor <;> linarith
      · push_cast; constructor <;> linarith

/-- Rounding of numbers from 2^-126 on. -/
theorem fl32_close (h : (2 : ℚ) ^ (-126 : ℤ) ≤ q) : q * (1 - relErr) ≤ fl32 q ∧ fl32 q ≤ q * (1 + relErr) := by
  have p0 : (0 : ℚ) < 2 ^ (-126 : ℤ) := zpow_pos (by norm_num) _
  have q0 : 0 < q := lt_of_lt_of_le p0 h
  have l : -126 ≤ Int.log 2 q := (Int.zpow_le_iff_le_log (b := 2) (by norm_num) q0).1 (by exact_mod_cast h)
  have ue : ulpExp q = Int.log 2 q - 23 := by unfold ulpExp; omega
  have u0 : (0 : ℚ) < 2 ^ ulpExp q := zpow_pos (by norm_num) _
  have ul : (2 : ℚ) ^ ulpExp q ≤ q / 2 ^ 23 := by
    have h1 : (2 : ℚ) ^ (Int.log 2 q) ≤ q := by
      have := Int.zpow_log_le_self (b := 2) (r := q) (by norm_num) q0
      simpa using this
    rw [ue, zpow_sub₀ (by norm_num)]
    have : (2 : ℚ) ^ (23 : ℤ) = 2 ^ 23 := by norm_num
    rw [this]
    gcongr
  have e : q = q / 2 ^ ulpExp q * 2 ^ ulpExp q := by field_simp
  obtain ⟨r1, r2⟩ := rne_close (q / 2 ^ ulpExp q)
  have k1 := mul_le_mul_of_nonneg_right r1 (le_of_lt u0)
  have k2 := mul_le_mul_of_nonneg_right r2 (le_of_lt u0)
  rw [sub_mul, ← e] at k1
  rw [add_mul, ← e] at k2
  unfold fl32
  rw [if_neg (by linarith)]
  norm_num at ul ⊢
  constructor <;> linarith

theorem fl32_one : fl32 1 = 1 := by
  have := fl32_exact 1 (by decide)
  simpa using this

theorem small_le (h : 1 ≤ q) : (2 : ℚ) ^ (-126 : ℤ) ≤ q := le_trans (by norm_num) h

theorem fl32_nat_close (n : Nat) : (n : ℚ) * (1 - relErr) ≤ fl32 n ∧ fl32 n ≤ n * (1 + relErr) := by
  rcases Nat.eq_zero_or_pos n with rfl | h
  · simp [fl32]
  · exact fl32_close (small_le (by exact_mod_cast h))

/-- The allowance for rounding. -/
abbrev slack : ℚ := 1 / 2 ^ 21

/-- A number of elements that does not exceed the computed maximum load does not exceed the exact one by more than the allowance. -/
theorem load_of_le (m0 : 0 < mlf) (hs : n ≤ sizeMax) (h : n ≤ maxLoad fl32 mlf bc) : (n : ℚ) ≤ mlf * bc * (1 + slack) := by
  rcases Nat.eq_zero_or_pos n with rfl | n0
  · push_cast
    positivity
  have n1 : (1 : ℚ) ≤ n := by exact_mod_cast n0
  have key : (n : ℚ) * (1 - relErr) ≤ fl32 (mlf * fl32 bc) := by
    unfold maxLoad toSize at h
    split at h
    · have : (n : ℚ) ≤ fl32 (mlf * fl32 bc) := (Nat.le_floor_iff (fl32_nonneg _)).1 h
      refine le_trans ?_ this
      norm_num
      linarith
    · rename_i k
      refine le_trans ?_ (le_trans (fl32_nat_close sizeMax).1 (not_lt.1 k))
      have : (n : ℚ) ≤ sizeMax := by exact_mod_cast hs
      have u1 : (0 : ℚ) ≤ 1 - relErr := by norm_num
      exact mul_le_mul_of_nonneg_right this u1
  have t0 : (2 : ℚ) ^ (-126 : ℤ) ≤ mlf * fl32 bc := by
    by_contra k
    have k := not_le.1 k
    have : fl32 (mlf * fl32 bc) ≤ (2 : ℚ) ^ (-126 : ℤ) * (1 + relErr) := le_trans (fl32_mono (le_of_lt k)) (fl32_close (le_refl _)).2
    have h1 : (2 : ℚ) ^ (-126 : ℤ) * (1 + relErr) ≤ 1 / 2 := by norm_num
    have h2 : (1 : ℚ) * (1 - relErr) ≤ n * (1 - relErr) := mul_le_mul_of_nonneg_right n1 (by norm_num)
    have h3 : (1 : ℚ) / 2 < 1 * (1 - relErr) := by norm_num
    exact absurd (lt_of_lt_of_le h3 (le_trans h2 (le_trans key (le_trans this h1)))) (lt_irrefl _)
  have a1 := (fl32_close t0).2
  have a2 : mlf * fl32 bc ≤ mlf * (bc * (1 + relErr)) := mul_le_mul_of_nonneg_left (fl32_nat_close bc).2 (le_of_lt m0)
  have a3 : mlf * fl32 bc * (1 + relErr) ≤ mlf * (bc * (1 + relErr)) * (1 + relErr) := mul_le_mul_of_nonneg_right a2 (by norm_num)
  have x0 : 0 ≤ mlf * bc := by positivity
  have a4 : (n : ℚ) * (1 - relErr) ≤ mlf * bc * ((1 + relErr) * (1 + relErr)) := by linarith
  norm_num at a4 ⊢
  linarith

/-- The bucket count asked for has room for the elements, up to the allowance. -/
theorem bcFor_load (m0 : 0 < mlf) (h53 : 53 ≤ bc) (h : bcFor fl32 mlf n ≤ bc) (hb : bc < sizeMax) : (n : ℚ) ≤ mlf * bc * (1 + slack) := by
  have b1 : (53 : ℚ) ≤ bc := by exact_mod_cast h53
  have c := (fl32_nat_close n).1
  by_cases y : fl32 n / mlf < 1
  · have y := (div_lt_iff₀ m0).1 y
    have : mlf * 53 ≤ mlf * bc := mul_le_mul_of_nonneg_left b1 (le_of_lt m0)
    norm_num at c ⊢
    linarith
  have y := not_lt.1 y
  unfold bcFor toSize at h
  split at h
  · obtain ⟨z, hz⟩ : ∃ z : ℚ, z = fl32 n / mlf := ⟨_, rfl⟩
    rw [← hz] at h y
    have s1 := (fl32_close (small_le y)).1
    have z1 : 0 ≤ fl32 z := fl32_nonneg _
    have s2 := (fl32_close (q := 1 + fl32 z) (small_le (by linarith))).1
    have s3 := Nat.lt_floor_add_one (fl32 (1 + fl32 z))
    have s4 : (⌊fl32 (1 + fl32 z)⌋₊ : ℚ) ≤ bc := by exact_mod_cast h
    have s5 : z * mlf = fl32 n := by rw [hz]; field_simp
    have s6 : z * ((1 - relErr) * (1 - relErr)) ≤ bc * (1 + relErr) := by
      norm_num at s1 s2 ⊢
      linarith
    have s7 : mlf * (z * ((1 - relErr) * (1 - relErr))) ≤ mlf * (bc * (1 + relErr)) := mul_le_mul_of_nonneg_left s6 (le_of_lt m0)
    have s8 : fl32 n * ((1 - relErr) * (1 - relErr)) ≤ mlf * bc * (1 + relErr) := by
      rw [← s5]
      linarith
    have x0 : 0 ≤ mlf * bc := by positivity
    norm_num at c s8 ⊢
    linarith
  · omega

/-- The bucket count that `reserve` asks for. -/
theorem ceil_load (m0 : 0 < mlf) (h53 : 53 ≤ bc) (h : ⌈fl32 (fl32 n / mlf)⌉₊ ≤ bc) : (n : ℚ) ≤ mlf * bc * (1 + slack) := by
  have b1 : (53 : ℚ) ≤ bc := by exact_mod_cast h53
  have c := (fl32_nat_close n).1
  by_cases y : fl32 n / mlf < 1
  · have y := (div_lt_iff₀ m0).1 y
    have : mlf * 53 ≤ mlf * bc := mul_le_mul_of_nonneg_left b1 (le_of_lt m0)
    norm_num at c ⊢
    linarith
  have y := not_lt.1 y
  obtain ⟨z, hz⟩ : ∃ z : ℚ, z = fl32 n / mlf := ⟨_, rfl⟩
  rw [← hz] at h y
  have s1 := (fl32_close (small_le y)).1
  have s4 : fl32 z ≤ bc := Nat.ceil_le.1 h
  have s5 : z * mlf = fl32 n := by rw [hz]; field_simp
  have s7 : mlf * (z * (1 - relErr)) ≤ mlf * bc := mul_le_mul_of_nonneg_left (le_trans s1 s4) (le_of_lt m0)
  have s8 : fl32 n * (1 - relErr) ≤ mlf * bc := by
    rw [← s5]
    linarith
  have x0 : 0 ≤ mlf * bc := by positivity
  norm_num at c s8 ⊢
  linarith

end MI.Hash
