import Verif.Hash.LoadError
/-!
# C49 for all sizes

`C49_full_false` shows that `max_load` may be exceeded, since `float` represents large integers only approximately. For all sizes, however, the load factor
stays below the maximum load factor up to one part in two millions.
-/
namespace MI.Hash
open MI

/-- The load factor of `n` elements in `bc` buckets does not exceed the maximum load factor `mlf` by more than one part in 2^21, or the largest bucket array is in use. -/
def NearlyOk (mlf : ℚ) (n bc : Nat) : Prop := (n : ℚ) / bc ≤ mlf * (1 + 1 / 2 ^ 21) ∨ bc = sizeTop

/-- What the policy keeps: a bucket count from the table and the `max_load` computed from it, which every function that changes bucket count or maximum load factor establishes. -/
def Policy.Fits (mlf : ℚ) (p : Policy) : Prop := p.bc ∈ sizes ∧ p.ml = maxLoad fl32 mlf p.bc

theorem nearlyOk_of {mlf : ℚ} {n bc : Nat} (b0 : 53 ≤ bc) (h : (n : ℚ) ≤ mlf * bc * (1 + slack)) : NearlyOk mlf n bc := by
  left
  have : (53 : ℚ) ≤ bc := by exact_mod_cast b0
  rw [div_le_iff₀ (by linarith)]
  exact le_of_le_of_eq h (by unfold slack; ring)

theorem fits_unchecked (mlf : ℚ) (n : Nat) : (Policy.unchecked fl32 mlf n).Fits mlf := ⟨(sizeFor_spec sizes_sorted sizes_ne n).1, rfl⟩

theorem unchecked_nearly {mlf : ℚ} {n b : Nat} (m0 : 0 < mlf) (h : bcFor fl32 mlf n ≤ b) : NearlyOk mlf n (Policy.unchecked fl32 mlf b).bc := by
  have st := sizeFor_top b
  have b0 := sizes_pos _ (sizeFor_spec sizes_sorted sizes_ne b).1
  by_cases k : b ≤ sizeTop
  · exact nearlyOk_of b0 (bcFor_load m0 b0 (Nat.le_trans h (st.2.1 k)) (Nat.lt_of_le_of_lt st.1 (by decide)))
  · exact Or.inr (st.2.2 (by omega))

/-- C49, for all maximum load factors and sizes: the room made for an insertion, with `n` elements afterwards. -/
theorem C49_insert_load {mlf : ℚ} {n : Nat} {p : Policy} (m0 : 0 < mlf) (hn : n ≤ sizeMax) (hp : p.Fits mlf) :
    NearlyOk mlf n (p.reserveForInsert fl32 mlf n).bc ∧ (p.reserveForInsert fl32 mlf n).Fits mlf := by
  unfold Policy.reserveForInsert
  split
  · exact ⟨unchecked_nearly m0 (Nat.le_refl _), fits_unchecked _ _⟩
  · rename_i k
    exact ⟨nearlyOk_of (sizes_pos _ hp.1) (load_of_le m0 hn (by rw [← hp.2]; omega)), hp⟩

/-- C49, for all maximum load factors and sizes: `rehash(b)` with `n` elements. There are `b` buckets afterwards, or the largest array is in use. -/
theorem C49_rehash_load {mlf : ℚ} {n : Nat} {p : Policy} (m0 : 0 < mlf) (hn : n ≤ sizeMax) (hp : p.Fits mlf) (b : Nat) :
    NearlyOk mlf n (p.rehash fl32 mlf n b).bc ∧ (b ≤ (p.rehash fl32 mlf n b).bc ∨ (p.rehash fl32 mlf n b).bc = sizeTop) ∧ (p.rehash fl32 mlf n b).Fits mlf := by
  unfold Policy.rehash
  split
  · rename_i k
    exact ⟨nearlyOk_of (sizes_pos _ hp.1) (load_of_le m0 hn (by rw [← hp.2]; exact k.1)), Or.inl k.2, hp⟩
  · dsimp only
    obtain ⟨bc, hbc⟩ : ∃ bc, bc = (if fl32 (sizeMax : ℚ) > fl32 (1 + fl32 (fl32 n / mlf)) then
        (if ⌊fl32 (1 + fl32 (fl32 n / mlf))⌋₊ < b then b else ⌊fl32 (1 + fl32 (fl32 n / mlf))⌋₊) else sizeMax) := ⟨_, rfl⟩
    rw [← hbc]
    have h1 : bcFor fl32 mlf n ≤ bc ∧ (b ≤ bc ∨ sizeMax ≤ bc) := by
      unfold bcFor toSize
      rw [hbc]
      split
      · split
        · exact ⟨by omega, Or.inl (Nat.le_refl _)⟩
        · exact ⟨Nat.le_refl _, Or.inl (by omega)⟩
      · exact ⟨Nat.le_refl _, Or.inr (Nat.le_refl _)⟩
    refine ⟨unchecked_nearly m0 h1.1, ?_, fits_unchecked _ _⟩
    have st := sizeFor_top bc
    have lt : sizeTop < sizeMax := by decide
    show b ≤ sizeFor sizes bc ∨ sizeFor sizes bc = sizeTop
    by_cases k : bc ≤ sizeTop
    · exact Or.inl (Nat.le_trans (h1.2.resolve_right (by omega)) (st.2.1 k))
    · exact Or.inr (st.2.2 (by omega))

/-- C49, for all maximum load factors and sizes: after `reserve(r)` with `n` elements there are enough buckets for `r` elements. A quotient too large for `size_type`
would be undefined behaviour (hashed_index.hpp:747), hence `hr`. -/
theorem C49_reserve_load {mlf : ℚ} {n r : Nat} {p : Policy} (m0 : 0 < mlf) (hn : n ≤ sizeMax) (hp : p.Fits mlf) (hr : fl32 (fl32 r / mlf) ≤ sizeMax) :
    NearlyOk mlf r (p.reserve fl32 mlf n r).bc ∧ NearlyOk mlf n (p.reserve fl32 mlf n r).bc ∧ (p.reserve fl32 mlf n r).Fits mlf := by
  have k := C49_rehash_load m0 hn hp ⌈fl32 (fl32 r / mlf)⌉₊
  refine ⟨?_, k.1, k.2.2⟩
  rcases k.2.1 with h | h
  · exact nearlyOk_of (sizes_pos _ k.2.2.1) (ceil_load m0 (sizes_pos _ k.2.2.1) h)
  · exact Or.inr h

example : NearlyOk 1 (2 ^ 40) ((Policy.unchecked fl32 1 0).reserve fl32 1 0 (2 ^ 40)).bc := by
  have e : fl32 ((2 ^ 40 : Nat) : ℚ) = 2 ^ 40 := by
    rw [fl32_nat (e := 17) (by norm_num) (by norm_num)]
    norm_num [rne]
  have e' : fl32 ((2 : ℚ) ^ 40) = 2 ^ 40 := by
    have : ((2 ^ 40 : Nat) : ℚ) = 2 ^ 40 := by norm_num
    rwa [this] at e
  refine (C49_reserve_load (by norm_num) (by decide) (fits_unchecked _ _) ?_).1
  rw [e, div_one, e']
  unfold sizeMax
  norm_num

/-- The case of `C49_full_false`: more than 2^28 elements. -/
example : NearlyOk 1 402653185 ((Policy.unchecked fl32 1 402653189).reserveForInsert fl32 1 402653185).bc :=
  (C49_insert_load (by norm_num) (by decide) (fits_unchecked _ _)).1

/-- The claim is not void: two elements in one bucket would be too many. -/
example : ¬ NearlyOk 1 106 53 := by
  rintro (h | h)
  · norm_num at h
  · revert h
    decide

end MI.Hash
