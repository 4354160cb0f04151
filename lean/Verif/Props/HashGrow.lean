import Verif.Hash.GrowLemmas
import Verif.Props.Hash
/-!
# C67: insertion in hashed indices is amortized constant

The documentation says that insertion is constant on average: rehashes, which take time proportional to the size, must be rare. Here the calls of
the hash function are counted over histories of insertions, erasures, rehashes and clearings of one index (`Verif.Hash.Grow`), whose bucket array grows by itself.
`fl` rounds to `float`; all that is used is that it is monotone and exact up to 2^24, as `float` is (`rounding32`).
-/
namespace MI.Hash
open MI

section
variable {K : Type} {c : Cat} {key : Id → K} {eqK : K → K → Bool} {hashK : K → Nat} {a : Arr} {hd : Id} {n P : Nat} {fl : ℚ → ℚ} {mlf : ℚ}

/-- A new index with the bucket array `a`. -/
abbrev newIndex (fl : ℚ → ℚ) (mlf : ℚ) (h : Heap) (a : Arr) (hd : Id) : GState := ⟨⟨clear h a hd, a, 0⟩, maxLoad fl mlf a.size, 0⟩

/-- C67, up to 2^24 elements and buckets: every history of a new index with at most `P` elements at any time runs to completion, and the hash function is called
at most once for each insertion, `P` times for each explicit rehash and each insertion it throws in, and 2.1*(P+1)+19 times for all automatic
rehashes together. In the end the index is well formed and its maximum load is not exceeded. Beyond 2^24 the claim is false of the code: see `C67_grows_full_false`. -/
theorem C67_history_partial (eh : EqHash eqK hashK) (R : Rounding fl (2 ^ 24)) (m0 : 0 < mlf) (hP : P + 1 ≤ 2 ^ 24) (hy : ((P + 1 : Nat) : ℚ) / mlf + 2 ≤ 2 ^ 24)
    (hn : P ≤ n) {h : Heap} (bs : a.size ∈ sizes) (b0 : 0 < a.base) (h0 : hd ≠ 0) (dis : hd < a.base ∨ a.endB < hd) (ops : List GOp)
    (hv : ValidG fl mlf n c (fun x y => eqK (key x) (key y)) (fun x => hashK (key x)) hd P ops (newIndex fl mlf h a hd)) :
    ∃ g xs, runG fl mlf n c (fun x y => eqK (key x) (key y)) (fun x => hashK (key x)) hd ops (newIndex fl mlf h a hd) = .ok g ∧
      10 * g.calls ≤ 10 * (ops.map (bill P)).sum + 21 * (P + 1) + 190 ∧
      Index c key eqK hashK g.s.h g.s.a hd xs ∧ g.s.size = xs.length ∧ xs.length ≤ g.ml ∧ g.ml = maxLoad fl mlf g.s.a.size := by
  have s0 : 0 < a.size := Nat.lt_of_lt_of_le (by decide) (sizes_pos _ bs)
  have w : GrowInv c (fun x y => eqK (key x) (key y)) (fun x => hashK (key x)) hd fl mlf P (2 ^ 24) (newIndex fl mlf h a hd) [] 0 :=
    ⟨holds_clear c _ _ h s0 b0 h0 dis, rfl, bs, rfl, Nat.zero_le _, Nat.zero_le _, Or.inl (Nat.le_refl _)⟩
  obtain ⟨g, xs, e, w'⟩ := runG_spec (eh.comap key) R m0 (by decide) hP (by exact_mod_cast hy) hn ops w hv
  refine ⟨g, xs, e, ?_, w'.holds, w'.size, by rw [← w'.size]; exact w'.room, w'.ml⟩
  simpa using w'.paid.total m0

/-- C67: so `N` insertions into a new index call the hash function at most 3.1*N+21.1 times. -/
theorem C67_insertions_partial (eh : EqHash eqK hashK) (R : Rounding fl (2 ^ 24)) (m0 : 0 < mlf) {h : Heap} (bs : a.size ∈ sizes) (b0 : 0 < a.base) (h0 : hd ≠ 0)
    (dis : hd < a.base ∨ a.endB < hd) (ops : List GOp) (hi : ∀ op ∈ ops, ∃ x base cpy, op = .insert x base cpy none)
    (hP : ops.length + 1 ≤ 2 ^ 24) (hy : ((ops.length + 1 : Nat) : ℚ) / mlf + 2 ≤ 2 ^ 24) (hn : ops.length ≤ n)
    (hv : ValidG fl mlf n c (fun x y => eqK (key x) (key y)) (fun x => hashK (key x)) hd ops.length ops (newIndex fl mlf h a hd)) :
    ∃ g, runG fl mlf n c (fun x y => eqK (key x) (key y)) (fun x => hashK (key x)) hd ops (newIndex fl mlf h a hd) = .ok g ∧
      10 * g.calls ≤ 31 * ops.length + 211 := by
  obtain ⟨g, xs, e, b, -⟩ := C67_history_partial eh R m0 hP hy hn bs b0 h0 dis ops hv
  refine ⟨g, e, ?_⟩
  have : ∀ l : List GOp, (∀ op ∈ l, ∃ x base cpy, op = .insert x base cpy none) → (l.map (bill ops.length)).sum = l.length := by
    intro l
    induction l with
    | nil => intro _; rfl
    | cons op l ih =>
      intro hl
      obtain ⟨x, base, cpy, rfl⟩ := hl op List.mem_cons_self
      rw [List.map_cons, List.sum_cons, ih (fun o ho => hl o (List.mem_cons_of_mem _ ho))]
      simp [bill, Nat.add_comm]
  rw [this ops hi] at b
  omega

/-- C67: `rehash(b)` leads to at least `b` buckets, enough for the elements (or the largest array), with the same elements. -/
theorem C67_rehash_partial (eh : EqHash eqK hashK) (R : Rounding fl (2 ^ 24)) (m0 : 0 < mlf) {g : GState} {xs : List Id} (w : Index c key eqK hashK g.s.h g.s.a hd xs)
    (sz : g.s.size = xs.length) (hs : xs.length ≤ 2 ^ 24) (hy : (xs.length : ℚ) / mlf + 2 ≤ 2 ^ 24) {b : Nat} {base cpy : Id}
    (nm : NewAt g hd xs base cpy (Policy.rehash fl mlf ⟨g.s.a.size, g.ml⟩ g.s.size b).bc) :
    ∃ g' xs', stepG fl mlf n c (fun x y => eqK (key x) (key y)) (fun x => hashK (key x)) hd g (.rehash b base cpy none) = .ok g' ∧
      Index c key eqK hashK g'.s.h g'.s.a hd xs' ∧ xs'.Perm xs ∧ ((b ≤ g'.s.a.size ∧ xs.length ≤ g'.ml) ∨ g'.s.a.size = sizeTop) := by
  by_cases ne : g.s.size ≤ g.ml ∧ b ≤ g.s.a.size
  · exact ⟨g, xs, by simp only [stepG, if_pos ne], w, .refl _, Or.inl ⟨ne.2, by rw [← sz]; exact ne.1⟩⟩
  · have p0 : 0 < (Policy.rehash fl mlf ⟨g.s.a.size, g.ml⟩ g.s.size b).bc := by
      unfold Policy.rehash
      rw [if_neg ne]
      exact sizeFor_pos _
    obtain ⟨g1, bb, xs1, f1, f2, f3, f4, f5, f6, f7, f8, f9⟩ := rehashG_spec (t := none) (eh.comap key) w sz p0 nm
    refine ⟨g1, xs1, by simp only [stepG, if_neg ne, f1], f2, f4, ?_⟩
    cases bb with
    | true => exact absurd rfl (f8 rfl).1
    | false =>
      obtain ⟨h1, h2⟩ := f9 rfl
      rw [h1, h2, ← sz]
      exact rehash_load R m0 (by omega) (by rw [sz]; exact Nat.le_trans hs (by decide)) (by rw [sz]; exact_mod_cast hy) ⟨g.s.a.size, g.ml⟩ b

end

/-- What keeps rehashes rare: whenever there is no room for `n` elements, the rehash that follows leads to more buckets, with room for `n`. -/
def GrowsOk (mlf : ℚ) (bc n : Nat) : Prop :=
  maxLoad fl32 mlf bc < n → bc < sizeFor sizes (bcFor fl32 mlf n) ∧ n ≤ maxLoad fl32 mlf (sizeFor sizes (bcFor fl32 mlf n))

/-- For all maximum load factors, bucket counts but the largest, and sizes. -/
def C67GrowsFull : Prop := ∀ (mlf : ℚ) (bc n : Nat), 0 < mlf → bc ∈ sizes → bc < sizeTop → n ≤ sizeMax → GrowsOk mlf bc n

/-- C67: this holds up to 2^24 elements and buckets. -/
theorem C67_grows_partial {mlf : ℚ} {bc n : Nat} (m0 : 0 < mlf) (hn : n ≤ 2 ^ 24) (hy : (n : ℚ) / mlf + 2 ≤ 2 ^ 24) : GrowsOk mlf bc n := fun lt =>
  have := grows rounding32 m0 hn (by exact_mod_cast hy) (by decide) lt
  ⟨this.1, this.2.2.2⟩

/-- C67: it is false of the code for larger sizes: with a maximum load factor of 1 and 402653189 buckets, an index that holds 402653184 elements is rehashed by an insertion to the
same number of buckets, and so do the next fifteen insertions: `max_load` stays 402653184, since conversion to `float` rounds. -/
theorem C67_grows_full_false : ¬ C67GrowsFull ∧
    ∀ n, 402653184 < n → n ≤ 402653200 → (Policy.unchecked fl32 1 402653189).reserveForInsert fl32 1 n = Policy.unchecked fl32 1 402653189 ∧
      maxLoad fl32 1 402653189 < n := by
  have s1 : sizeFor sizes 402653189 = 402653189 := by decide +kernel
  have s2 : sizeFor sizes 402653184 = 402653189 := by decide +kernel
  have h1 : fl32 (402653184 : ℚ) = 402653184 := by simpa using fl32_402653184
  have ml : maxLoad fl32 1 402653189 = 402653184 := by
    unfold maxLoad toSize
    rw [fl32_402653189, one_mul, h1, if_pos fl32_sizeMax]
    norm_num
  have top : fl32 ((402653200 : Nat) : ℚ) = 402653184 := by
    rw [fl32_nat (e := 5) (by norm_num) (by norm_num)]
    norm_num [rne]
  have h2 : fl32 (1 + 402653184 : ℚ) = 402653184 := by
    have := fl32_402653185
    push_cast at this
    norm_num at this ⊢
    exact this
  have bc : ∀ n, 402653184 < n → n ≤ 402653200 → bcFor fl32 1 n = 402653184 := by
    intro n l u
    have e : fl32 (n : ℚ) = 402653184 := by
      apply le_antisymm
      · rw [← top]
        exact fl32_mono (by exact_mod_cast u)
      · rw [← fl32_402653184]
        exact fl32_mono (by exact_mod_cast Nat.le_of_lt l)
    unfold bcFor toSize
    rw [e, div_one, h1, h2, if_pos fl32_sizeMax]
    norm_num
  have all : ∀ n, 402653184 < n → n ≤ 402653200 → (Policy.unchecked fl32 1 402653189).reserveForInsert fl32 1 n = Policy.unchecked fl32 1 402653189 ∧
      maxLoad fl32 1 402653189 < n := by
    intro n l u
    refine ⟨?_, by rw [ml]; exact l⟩
    unfold Policy.reserveForInsert Policy.unchecked
    simp only [bc n l u, s2, s1, ml, ite_self]
  refine ⟨fun h => ?_, all⟩
  have k := (h 1 402653189 402653185 (by norm_num) (by decide +kernel) (by decide) (by decide) (by rw [ml]; decide)).1
  rw [bc _ (by decide) (by decide), s2] at k
  omega

/-! ## Examples: 53 buckets and a maximum load factor of 1/10 -/

example : GrowsOk 1 53 54 := C67_grows_partial (by norm_num) (by norm_num) (by norm_num)

theorem rounding_id : Rounding id (2 ^ 24) := ⟨fun h => h, fun _ _ => rfl⟩

/-- Five elements are allowed; the sixth insertion makes the index grow. -/
def exGrow : List GOp :=
  [.insert 13 1000 2 none, .insert 26 1000 2 none, .insert 23 1000 2 none, .insert 39 1000 2 none, .insert 33 1000 2 none,
   .insert 16 1000 2 (some 3), .insert 16 1000 2 none, .erase 39, .insert 43 2000 2 none, .rehash 120 3000 2 none, .insert 19 4000 2 none]

theorem exGrow_valid (c : Cat) : ValidG id (1/10) 40 c exEqI exHashI 1 8 exGrow (newIndex id (1/10) exHeap ⟨100, 53⟩ 1) := by
  apply validG_of
  cases c <;> decide +kernel

/-- What it comes to: array, `max_load`, calls and elements. -/
def exGrown (c : Cat) : Option (Arr × Nat × Nat × List Id) :=
  match runG id (1/10) 40 c exEqI exHashI 1 exGrow (newIndex id (1/10) exHeap ⟨100, 53⟩ 1) with
  | .ok g => some (g.s.a, g.ml, g.calls, elems 40 c 1 g.s.h)
  | _ => none

example : exGrown .multi = some (⟨3000, 193⟩, 19, 15, [19, 16, 26, 43, 33, 23, 13]) := by decide +kernel
example : exGrown .uniq = some (⟨3000, 193⟩, 19, 11, [19, 26, 13]) := by decide +kernel

example (c : Cat) : ∃ g xs, runG id (1/10) 40 c exEqI exHashI 1 exGrow (newIndex id (1/10) exHeap ⟨100, 53⟩ 1) = .ok g ∧
    10 * g.calls ≤ 10 * (exGrow.map (bill 8)).sum + 21 * (8 + 1) + 190 ∧
    Index c exKey exEq exHash g.s.h g.s.a 1 xs ∧ g.s.size = xs.length ∧ xs.length ≤ g.ml ∧ g.ml = maxLoad id (1/10) g.s.a.size :=
  C67_history_partial exEqHash rounding_id (by norm_num) (by norm_num) (by norm_num) (by decide) (by decide) (by decide) (by decide) (by decide) exGrow
    (exGrow_valid c)

example : ∃ g' xs', stepG id 1 40 .multi exEqI exHashI 1 ⟨⟨exMem .multi, exArr, 9⟩, 7, 0⟩ (.rehash 80 400 2 none) = .ok g' ∧
    Index .multi exKey exEq exHash g'.s.h g'.s.a 1 xs' ∧ xs'.Perm (exElems .multi) ∧ ((80 ≤ g'.s.a.size ∧ (exElems .multi).length ≤ g'.ml) ∨ g'.s.a.size = sizeTop) :=
  C67_rehash_partial exEqHash rounding_id (by norm_num) (g := ⟨⟨exMem .multi, exArr, 9⟩, 7, 0⟩) (exMem_index .multi) rfl (by decide) (by norm_num [exElems])
    (legalG_of (op := .rehash 80 400 2 none) (by decide +kernel))

/-- Six insertions. -/
example (c : Cat) : ∃ g, runG id (1/10) 40 c exEqI exHashI 1 (exGrow.take 5 ++ [.insert 16 1000 2 none]) (newIndex id (1/10) exHeap ⟨100, 53⟩ 1) = .ok g ∧
    10 * g.calls ≤ 31 * 6 + 211 :=
  C67_insertions_partial exEqHash rounding_id (by norm_num) (by decide) (by decide) (by decide) (by decide) _ (by simp [exGrow]) (by norm_num [exGrow])
    (by norm_num [exGrow]) (by decide) (validG_of _ (by cases c <;> decide +kernel))

end MI.Hash
