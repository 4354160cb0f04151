import Verif.Hash.Sizes
import Mathlib.Data.Rat.Floor
import Mathlib.Tactic.Linarith
import Mathlib.Tactic.Positivity
import Mathlib.Tactic.FieldSimp
/-!
# Load policy of hashed indices

Models hashed_index.hpp:726-748, 1440-1455. Conversions to `float` and operations on `float` round: `fl` is the rounding
function (for the single operations `+`, `*`, `/` the result is the rounding of the exact result, as IEEE 754 requires). Not modelled: infinities and
not-a-number values of `max_load_factor`.
-/
namespace MI.Hash
open MI

/-- Rounding to `float`: monotone, exact on the integers up to `M`. -/
structure Rounding (fl : ℚ → ℚ) (M : Nat) : Prop where
  mono : ∀ {p q : ℚ}, p ≤ q → fl p ≤ fl q
  exact : ∀ k : Nat, k ≤ M → fl (k : ℚ) = k

/-- `(std::numeric_limits<size_type>::max)()` for 64 bits. -/
def sizeMax : Nat := 2 ^ 64 - 1

/-- The largest size of a bucket array. -/
def sizeTop : Nat := 18446744073709551557

/-- Conversion of a `float` to `size_type` guarded by `max>f`: hashed_index.hpp:1442-1444, 1450-1452. -/
def toSize (fl : ℚ → ℚ) (f : ℚ) : Nat := if fl (sizeMax : ℚ) > f then ⌊f⌋₊ else sizeMax

/-- `calculate_max_load()`: hashed_index.hpp:1440-1445. -/
def maxLoad (fl : ℚ → ℚ) (mlf : ℚ) (bucketCount : Nat) : Nat := toSize fl (fl (mlf * fl bucketCount))

/-- The bucket count asked for `n` elements: hashed_index.hpp:1450-1452. -/
def bcFor (fl : ℚ → ℚ) (mlf : ℚ) (n : Nat) : Nat := toSize fl (fl (1 + fl (fl n / mlf)))

/-- Bucket count and `max_load`. -/
structure Policy where
  bc : Nat
  ml : Nat
deriving Repr, DecidableEq

/-- The effect of `unchecked_rehash(n)` on bucket count and `max_load`: hashed_index.hpp:1465, 1507-1508. -/
def Policy.unchecked (fl : ℚ → ℚ) (mlf : ℚ) (n : Nat) : Policy :=
  let bc := sizeFor sizes n
  ⟨bc, maxLoad fl mlf bc⟩

/-- `reserve_for_insert(n)`: hashed_index.hpp:1447-1455. -/
def Policy.reserveForInsert (fl : ℚ → ℚ) (mlf : ℚ) (p : Policy) (n : Nat) : Policy :=
  if n > p.ml then Policy.unchecked fl mlf (bcFor fl mlf n) else p

/-- `rehash(n)` with `size` elements: hashed_index.hpp:731-743. -/
def Policy.rehash (fl : ℚ → ℚ) (mlf : ℚ) (p : Policy) (size n : Nat) : Policy :=
  if size ≤ p.ml ∧ n ≤ p.bc then p
  else
    let fbc := fl (1 + fl (fl size / mlf))
    let bc := if fl (sizeMax : ℚ) > fbc then (if ⌊fbc⌋₊ < n then n else ⌊fbc⌋₊) else sizeMax
    Policy.unchecked fl mlf bc

/-- `reserve(n)`: hashed_index.hpp:745-748. -/
def Policy.reserve (fl : ℚ → ℚ) (mlf : ℚ) (p : Policy) (size n : Nat) : Policy :=
  p.rehash fl mlf size ⌈fl (fl n / mlf)⌉₊

section
variable {fl : ℚ → ℚ} {M : Nat} {mlf : ℚ} {n : Nat}

theorem sizeFor_top (n : Nat) : sizeFor sizes n ≤ sizeTop ∧ (n ≤ sizeTop → n ≤ sizeFor sizes n) ∧ (sizeTop < n → sizeFor sizes n = sizeTop) := by
  have sp := sizeFor_spec sizes_sorted sizes_ne n
  have top : sizeTop ∈ sizes := by decide
  have all : ∀ s ∈ sizes, s ≤ sizeTop := by decide
  refine ⟨all _ sp.1, fun k => (sp.2.1 ⟨_, top, k⟩).1, fun k => ?_⟩
  apply Nat.le_antisymm (all _ sp.1)
  exact sp.2.2 (fun s hs => Nat.lt_of_le_of_lt (all s hs) k) _ top

/-- The bucket count asked for is more than the number of elements divided by the maximum load factor. -/
theorem bcFor_gt (R : Rounding fl M) (m0 : 0 < mlf) (hn : n ≤ M) (hy : (n : ℚ) / mlf + 2 ≤ M) :
    (n : ℚ) / mlf < bcFor fl mlf n ∨ sizeMax ≤ bcFor fl mlf n := by
  unfold bcFor toSize
  split
  · left
    rw [R.exact n hn]
    have y0 : (0 : ℚ) ≤ (n : ℚ) / mlf := by positivity
    obtain ⟨k, hk⟩ : ∃ k : Nat, k = ⌊(n : ℚ) / mlf⌋₊ := ⟨_, rfl⟩
    have k1 : (k : ℚ) ≤ (n : ℚ) / mlf := by rw [hk]; exact Nat.floor_le y0
    have k2 : (n : ℚ) / mlf < (k : ℚ) + 1 := by rw [hk]; exact Nat.lt_floor_add_one _
    have kM : k + 1 ≤ M := by
      have : (k : ℚ) + 1 ≤ M := by linarith
      exact_mod_cast this
    have f1 : (k : ℚ) ≤ fl ((n : ℚ) / mlf) := by
      have := R.mono k1
      rwa [R.exact k (by omega)] at this
    have f2 : ((k + 1 : Nat) : ℚ) ≤ fl (1 + fl ((n : ℚ) / mlf)) := by
      rw [← R.exact (k + 1) kM]
      apply R.mono
      push_cast
      linarith
    have f3 : k + 1 ≤ ⌊fl (1 + fl ((n : ℚ) / mlf))⌋₊ := Nat.le_floor f2
    have f4 : ((k + 1 : Nat) : ℚ) ≤ (⌊fl (1 + fl ((n : ℚ) / mlf))⌋₊ : ℚ) := by exact_mod_cast f3
    push_cast at f4
    linarith
  · right
    exact Nat.le_refl _

/-- With at least that many buckets the maximum load is at least the number of elements. -/
theorem maxLoad_ge (R : Rounding fl M) (m0 : 0 < mlf) (hn : n ≤ M) (hs : n ≤ sizeMax) {k bc : Nat} (kM : k ≤ M) (hk : (n : ℚ) / mlf ≤ k) (hb : k ≤ bc) :
    n ≤ maxLoad fl mlf bc := by
  unfold maxLoad toSize
  split
  · apply Nat.le_floor
    rw [← R.exact n hn]
    apply R.mono
    have h1 : (k : ℚ) ≤ fl bc := by
      rw [← R.exact k kM]
      apply R.mono
      exact_mod_cast hb
    have h2 : (n : ℚ) ≤ mlf * k := by
      have := (div_le_iff₀ m0).1 hk
      linarith
    exact le_trans h2 (mul_le_mul_of_nonneg_left h1 (le_of_lt m0))
  · exact hs

/-- After `reserve_for_insert(n)` the index can hold `n` elements, or has the largest bucket array. -/
theorem reserveForInsert_load (R : Rounding fl M) (m0 : 0 < mlf) (hn : n ≤ M) (hs : n ≤ sizeMax) (hy : (n : ℚ) / mlf + 2 ≤ M) (p : Policy) :
    n ≤ (p.reserveForInsert fl mlf n).ml ∨ (p.reserveForInsert fl mlf n).bc = sizeTop := by
  unfold Policy.reserveForInsert
  split
  · unfold Policy.unchecked
    dsimp only
    have st := sizeFor_top (bcFor fl mlf n)
    by_cases k : bcFor fl mlf n ≤ sizeTop
    · left
      have h2 := st.2.1 k
      rcases bcFor_gt R m0 hn hy with g | g
      · obtain ⟨y, hy'⟩ : ∃ y : Nat, y = ⌈(n : ℚ) / mlf⌉₊ := ⟨_, rfl⟩
        have c1 : (n : ℚ) / mlf ≤ y := by rw [hy']; exact Nat.le_ceil _
        have c2 : y ≤ bcFor fl mlf n := by rw [hy']; exact Nat.ceil_le.2 (le_of_lt g)
        have c3 : (y : ℚ) < (n : ℚ) / mlf + 1 := by rw [hy']; exact Nat.ceil_lt_add_one (by positivity)
        have c4 : y ≤ M := by
          have : (y : ℚ) ≤ M := by linarith
          exact_mod_cast this
        exact maxLoad_ge R m0 hn hs c4 c1 (Nat.le_trans c2 h2)
      · unfold sizeMax at g
        unfold sizeTop at k
        omega
    · right
      exact st.2.2 (by omega)
  · left
    rename_i k
    omega

/-- After `rehash(b)` there are at least `b` buckets and the index can hold its elements, or it has the largest bucket array. -/
theorem rehash_load (R : Rounding fl M) (m0 : 0 < mlf) (hn : n ≤ M) (hs : n ≤ sizeMax) (hy : (n : ℚ) / mlf + 2 ≤ M) (p : Policy) (b : Nat) :
    (b ≤ (p.rehash fl mlf n b).bc ∧ n ≤ (p.rehash fl mlf n b).ml) ∨ (p.rehash fl mlf n b).bc = sizeTop := by
  unfold Policy.rehash
  split
  · rename_i k
    exact Or.inl ⟨k.2, k.1⟩
  · dsimp only
    obtain ⟨bc, hbc⟩ : ∃ bc, bc = (if fl (sizeMax : ℚ) > fl (1 + fl (fl n / mlf)) then
        (if ⌊fl (1 + fl (fl n / mlf))⌋₊ < b then b else ⌊fl (1 + fl (fl n / mlf))⌋₊) else sizeMax) := ⟨_, rfl⟩
    rw [← hbc]
    have h1 : bcFor fl mlf n ≤ bc ∧ (b ≤ bc ∨ sizeMax ≤ bc) := by
      unfold bcFor toSize
      rw [hbc]
      split
      · split
        · constructor
          · omega
          · left; omega
        · constructor
          · omega
          · left; omega
      · exact ⟨Nat.le_refl _, Or.inr (Nat.le_refl _)⟩
    unfold Policy.unchecked
    dsimp only
    have st := sizeFor_top bc
    by_cases k : bc ≤ sizeTop
    · left
      have h2 := st.2.1 k
      have lt : sizeTop < sizeMax := by decide
      refine ⟨Nat.le_trans (h1.2.resolve_right (by omega)) h2, ?_⟩
      rcases bcFor_gt R m0 hn hy with g | g
      · obtain ⟨y, hy'⟩ : ∃ y : Nat, y = ⌈(n : ℚ) / mlf⌉₊ := ⟨_, rfl⟩
        have c1 : (n : ℚ) / mlf ≤ y := by rw [hy']; exact Nat.le_ceil _
        have c2 : y ≤ bcFor fl mlf n := by rw [hy']; exact Nat.ceil_le.2 (le_of_lt g)
        have c3 : (y : ℚ) < (n : ℚ) / mlf + 1 := by rw [hy']; exact Nat.ceil_lt_add_one (by positivity)
        have c4 : y ≤ M := by
          have : (y : ℚ) ≤ M := by linarith
          exact_mod_cast this
        exact maxLoad_ge R m0 hn hs c4 c1 (Nat.le_trans c2 (Nat.le_trans h1.1 h2))
      · omega
    · right
      exact st.2.2 (by omega)

/-- After `reserve(r)` there is room for `r` elements without rehashing, or the index has the largest bucket array, provided
`r/max_load_factor` is a `float`, for instance if `max_load_factor` is a power of two. -/
theorem reserve_load (R : Rounding fl M) (m0 : 0 < mlf) {r size : Nat} (hs : r ≤ sizeMax) (hr : r ≤ M) (hy : (r : ℚ) / mlf + 2 ≤ M)
    (hf : fl ((r : ℚ) / mlf) = (r : ℚ) / mlf) (p : Policy) (hp : p.ml = maxLoad fl mlf p.bc)
    (hz : size ≤ M) (hzs : size ≤ sizeMax) (hzy : (size : ℚ) / mlf + 2 ≤ M) :
    r ≤ (p.reserve fl mlf size r).ml ∨ (p.reserve fl mlf size r).bc = sizeTop := by
  unfold Policy.reserve
  rw [R.exact r hr, hf]
  obtain ⟨y, hy'⟩ : ∃ y : Nat, y = ⌈(r : ℚ) / mlf⌉₊ := ⟨_, rfl⟩
  rw [← hy']
  have c1 : (r : ℚ) / mlf ≤ y := by rw [hy']; exact Nat.le_ceil _
  have c3 : (y : ℚ) < (r : ℚ) / mlf + 1 := by rw [hy']; exact Nat.ceil_lt_add_one (by positivity)
  have c4 : y ≤ M := by
    have : (y : ℚ) ≤ M := by linarith
    exact_mod_cast this
  have ml : (p.rehash fl mlf size y).ml = maxLoad fl mlf (p.rehash fl mlf size y).bc := by
    unfold Policy.rehash
    split
    · exact hp
    · rfl
  rcases rehash_load R m0 hz hzs hzy p y with ⟨h1, -⟩ | h1
  · left
    rw [ml]
    exact maxLoad_ge R m0 hr hs c4 c1 h1
  · exact Or.inr h1

end
end MI.Hash
