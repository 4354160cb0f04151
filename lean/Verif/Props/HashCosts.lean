import Verif.Hash.CallsLemmas
import Verif.Props.Hash
import Verif.Props.Costs
/-!
# C66: how often user functions are called by hashed indices

The documentation says that lookup, insertion and modification take constant time on average and, at worst, time proportional to the number
of non-equivalent elements (doc/reference/hash_indices.html, "Complexity signature"). Here: numbers of calls of the equality predicate and of the hash function,
for indices of every size and every hash function. `distinct` (`Verif.Spec.Distinct`) is the number of non-equivalent elements.

`c.Computes ans r m` (`Verif.Spec.Calls`) says that the computation `c`, in which calls of the equality predicate are explicit, returns `r` when the predicate
answers as `ans` does, and makes at most `m` calls, whatever a predicate answers. In each theorem `r` is the result of the function of
`Verif/Hash/Index.lean` to which the other properties of hashed indices apply.
-/
namespace MI.Hash
open MI Asks

section
variable {K CK : Type} {c : Cat} {key : Id → K} {eqK : K → K → Bool} {hashK : K → Nat} {ceq : CK → K → Bool}
variable {h : Heap} {a : Arr} {hd : Id} {xs : List Id} {n : Nat}

/-- The elements in the bucket a hash value leads to. -/
abbrev mates (key : Id → K) (hashK : K → Nat) (a : Arr) (xs : List Id) (hk : Nat) : List Id :=
  xs.filter fun y => hashK (key y) % a.size == hk % a.size

/-- The number of comparisons allowed: one for each element of the bucket, and no more than two for each key in it. -/
abbrev allowed (key : Id → K) (eqK : K → K → Bool) (hashK : K → Nat) (a : Arr) (xs : List Id) (hk : Nat) : Nat :=
  min (mates key hashK a xs hk).length (2 * distinct (fun x y => eqK (key x) (key y)) (mates key hashK a xs hk))

theorem ask1F (x : CK) (y : Id) : (isFound key x y).AtMost 1 := AtMost.ask _
theorem ask1S (x y : Id) : (isSame CK key x y).AtMost 1 := AtMost.ask _

theorem findLoop_cost (w : Index c key eqK hashK h a hd xs) (x : CK) (hk : Nat) :
    (findLoopA c (isFound key x) h n (h.prior (a.at (a.position hk)))).AtMost (allowed key eqK hashK a xs hk) := by
  obtain ⟨s0, T, r, gd, rfl⟩ := w
  have r' := rep_parts.2 r
  unfold Arr.at Arr.position
  rw [r'.bucketFirst (Nat.mod_lt hk s0)]
  exact (findLoopA_atMost r' gd.cat.parts (fun i g hg => parts_solid T i g hg) (ask1F x) _ [] n rfl).mono (parts_bound r gd _)

/-- C66: `find`. -/
theorem C66_find (w : Index c key eqK hashK h a hd xs) (x : CK) (hk : Nat) :
    (findA n c (isFound key x) hk h a hd).Computes (EqCall.ans ceq eqK) (find n c (fun y => ceq x (key y)) hk h a hd) (allowed key eqK hashK a xs hk) := by
  refine Ord.computes (findA_run ..) ?_
  unfold findA
  refine AtMost.bind' (findLoop_cost w x hk) (b := 0) (fun r => ?_) (by omega)
  rcases r with (_ | _) | _ | _ | _ <;> exact AtMost.done _

/-- C66: `count` and `equal_range`, for any number of equivalent elements: one comparison more. -/
theorem C66_equal_range (w : Index c key eqK hashK h a hd xs) (x : CK) (hk : Nat) :
    (countA n c (isSame CK key) (isFound key x) hk h a).Computes (EqCall.ans ceq eqK)
      (count n c (fun x y => eqK (key x) (key y)) (fun y => ceq x (key y)) hk h a) (allowed key eqK hashK a xs hk + 1) ∧
    (equalRangeA n c (isSame CK key) (isFound key x) hk h a hd).Computes (EqCall.ans ceq eqK)
      (equalRange n c (fun x y => eqK (key x) (key y)) (fun y => ceq x (key y)) hk h a hd) (allowed key eqK hashK a xs hk + 1) := by
  constructor
  · refine Ord.computes (countA_run ..) ?_
    unfold countA
    refine AtMost.bind' (findLoop_cost w x hk) (b := 1) (fun r => ?_) (by omega)
    rcases r with (_ | _) | _ | _ | _ <;> try exact AtMost.done _
    exact AtMost.bind' (endOfRangeA_atMost ask1S _) (b := 0) (fun _ => AtMost.done _) (by omega)
  · refine Ord.computes (equalRangeA_run ..) ?_
    unfold equalRangeA
    refine AtMost.bind' (findLoop_cost w x hk) (b := 1) (fun r => ?_) (by omega)
    rcases r with (_ | _) | _ | _ | _ <;> try exact AtMost.done _
    exact AtMost.bind' (endOfRangeA_atMost ask1S _) (b := 0) (fun _ => AtMost.done _) (by omega)

/-- C66: the search an insertion or replacement makes. In a unique index there is no comparison more. -/
theorem C66_insert (w : Index c key eqK hashK h a hd xs) (x : K) (hv : Nat) :
    (linkPointA n c (isSame K key) (isFound key x) hv h a).Computes (EqCall.ans eqK eqK)
      (linkPoint n c (fun x y => eqK (key x) (key y)) (fun y => eqK x (key y)) hv h a)
      (allowed key eqK hashK a xs hv + if c = .uniq then 0 else 1) := by
  refine Ord.computes (linkPointA_run ..) ?_
  cases c with
  | uniq =>
    unfold linkPointA
    refine AtMost.bind' (a := allowed key eqK hashK a xs hv) ?_ (b := 0) (fun r => ?_) (by simp)
    · rw [linkPointUA_eq]
      exact findLoop_cost w x hv
    · rcases r with (_ | _) | _ | _ | _ <;> exact AtMost.done _
  | multi =>
    obtain ⟨s0, T, r, gd, rfl⟩ := w
    have r' := rep_parts.2 r
    unfold linkPointA Arr.at Arr.position
    dsimp only
    rw [r'.bucketFirst (Nat.mod_lt hv s0)]
    refine AtMost.bind' ((linkPointNA_atMost r' gd.cat.parts (fun i g hg => parts_solid T i g hg) (ask1F x) ask1S _ [] n rfl).mono
      (Nat.add_le_add_right (parts_bound r gd _) 1)) (b := 0) (fun r => ?_) (by simp)
    rcases r with (_ | _) | _ | _ | _ <;> exact AtMost.done _

/-- C66: the check a modification makes whether the element `x` may stay where it is. `w` is about the keys before the modification;
`k` is the new one. -/
theorem C66_modify (w : Index c key eqK hashK h a hd xs) {K' : Type} {key' : Id → K'} {eqK' : K' → K' → Bool} (k : K') (x : Id) (hk : Nat) :
    (inPlaceA n c (isFound key' k) hk h a x).Computes (EqCall.ans eqK' eqK')
      (inPlace n c (fun y => eqK' k (key' y)) hk h a x) (allowed key eqK hashK a xs hk) := by
  refine Ord.computes (inPlaceA_run ..) ?_
  obtain ⟨s0, T, r, gd, rfl⟩ := w
  have r' := rep_parts.2 r
  unfold inPlaceA Arr.at Arr.position
  dsimp only
  rw [r'.bucketFirst (Nat.mod_lt hk s0)]
  cases c with
  | uniq =>
    refine (inPlaceUA_atMost r' gd.cat.parts (fun _ => AtMost.ask _) x _ [] n false rfl).mono ?_
    show (gnodes ((T.B (hk % a.size)).flatMap Grp.parts)).length ≤ _
    have l := (ones_length (gd.cat rfl (hk % a.size))).1
    have d := distinct_groups (gd.same (hk % a.size)) (gd.diff (hk % a.size))
    have b : mates key hashK a T.nodes hk = gnodes (T.B (hk % a.size)) := bucket_filter r gd _
    unfold allowed
    rw [gnodes_parts, b, d, ← l]
    omega
  | multi =>
    exact (inPlaceNA_atMost r' gd.cat.parts (fun i g hg => parts_solid T i g hg) (fun _ => AtMost.ask _) x _ [] n false 0 rfl).mono (parts_bound r gd _)

/-- C66: the comparisons allowed are at most twice the number of non-equivalent elements of the whole index, whatever the hash function. -/
theorem C66_worst_case (eh : EqHash eqK hashK) (a : Arr) (xs : List Id) (hk : Nat) :
    allowed key eqK hashK a xs hk ≤ 2 * distinct (fun x y => eqK (key x) (key y)) xs := by
  refine Nat.le_trans (Nat.min_le_right _ _) (Nat.mul_le_mul_left 2 (distinct_filter ?_))
  intro x y e k
  rw [eh.cons (eh.symm e)]
  exact k

/-- C66: in a unique index every element counts. -/
theorem C66_unique (eh : EqHash eqK hashK) (w : Index .uniq key eqK hashK h a hd xs) (hk : Nat) :
    allowed key eqK hashK a xs hk = (mates key hashK a xs hk).length := by
  have p : (mates key hashK a xs hk).Pairwise (fun x y => eqK (key x) (key y) = false) := (C21_unique eh w).sublist List.filter_sublist
  have : distinct (fun x y => eqK (key x) (key y)) (mates key hashK a xs hk) = (mates key hashK a xs hk).length := by
    unfold allowed at *
    generalize mates key hashK a xs hk = l at p
    induction l with
    | nil => rfl
    | cons x l ih =>
      rw [List.pairwise_cons] at p
      rw [distinct, ih p.2, if_neg]
      · simp [Nat.add_comm]
      · simpa using p.1
  unfold allowed
  rw [this]
  omega

/-- C66: a rehash calls the hash function `m` times, and no more often if one of the calls throws; if call number `t` (from 0) throws then the rehash
fails exactly if `t < m`. There are at least as many calls as keys,
at most one for each element and at most two for each key; in a unique index exactly one for each element. -/
theorem C66_rehash (eh : EqHash eqK hashK) (w : Index c key eqK hashK h a hd xs) {na : Arr} {cpy : Id} (ns : 0 < na.size) (nm : NewMem a na hd cpy xs) :
    ∃ m, distinct (fun x y => eqK (key x) (key y)) xs ≤ m ∧ m ≤ xs.length ∧ m ≤ 2 * distinct (fun x y => eqK (key x) (key y)) xs ∧
      (c = .uniq → m = xs.length) ∧ rehashCalls c (fun x => hashK (key x)) xs.length none h na hd cpy = m ∧
      (∀ t, rehashCalls c (fun x => hashK (key x)) xs.length t h na hd cpy ≤ m) ∧
      ∀ t, ∃ h', rehash c (fun x => hashK (key x)) xs.length (some t) h a na hd cpy = .ok (h', decide (t < m)) := by
  obtain ⟨s0, T, r, gd, rfl⟩ := w
  have d : distinct (fun x y => eqK (key x) (key y)) T.nodes = T.groups.length := by
    rw [nodes_groups]
    refine distinct_groups ?_ (gd.groups_diff r (eh.comap key))
    intro g hg
    obtain ⟨i, hg⟩ := (r.groups_mem).1 hg
    exact gd.same i g hg
  have l := parts_length T.groups
  rw [← nodes_groups] at l
  refine ⟨T.parts.groups.length, ?_, ?_, ?_, ?_, ?_, ?_, ?_⟩
  · rw [d, Tab.parts_groups]; exact l.1
  · rw [Tab.parts_groups]; exact l.2.1
  · rw [d, Tab.parts_groups]; exact l.2.2
  · rintro rfl
    have : ∀ g ∈ T.groups, ∃ x, g = .one x := by
      intro g hg
      obtain ⟨i, hg⟩ := (r.groups_mem).1 hg
      exact gd.cat rfl i g hg
    rw [Tab.parts_groups, nodes_groups]
    exact (ones_length this).2
  · obtain ⟨h', b, e1, -, -, -, e, -, f⟩ := rehash_table (t := none) r gd (eh.comap key) s0 ns nm
    apply f
    rw [← Bool.not_eq_true, e]
    simp
  · intro t
    obtain ⟨h', b, e1, -, -, -, e, f, -⟩ := rehash_table (t := t) r gd (eh.comap key) s0 ns nm
    exact f
  · intro t
    obtain ⟨h', b, e1, -, -, -, e, -⟩ := rehash_table (t := some t) r gd (eh.comap key) s0 ns nm
    refine ⟨h', ?_⟩
    rw [e1]
    congr 2
    rw [Bool.eq_iff_iff, e]
    simp

end

/-! ## Examples -/

/-- The bucket of key 3 holds seven elements with three keys. -/
example : mates exKey exHash exArr (exElems .multi) (exHash 3) = [19, 16, 26, 53, 43, 33, 13] ∧
    allowed exKey exEq exHash exArr (exElems .multi) (exHash 3) = 6 := by decide +kernel

/-- Looking for key 3 compares with 9, with both ends of the group of 6 and with 3. -/
example : ((findA 40 .multi (isFound exKey 3) (exHash 3) (exMem .multi) exArr 1).calls (EqCall.ans exEq exEq)).map
    (fun | .found _ k => k | .same k _ => k) = [9, 6, 6, 3] := by decide +kernel

example : ((findA 40 .multi (isFound exKey 3) (exHash 3) (exMem .multi) exArr 1).calls (EqCall.ans exEq exEq)).length ≤ 6 :=
  Nat.le_trans (C66_find (ceq := exEq) (exMem_index .multi) 3 (exHash 3)).2.1 (by decide +kernel)

example : ((countA 40 .multi (isSame Nat exKey) (isFound exKey 3) (exHash 3) (exMem .multi) exArr).calls (EqCall.ans exEq exEq)).length ≤ 7 :=
  Nat.le_trans (C66_equal_range (ceq := exEq) (exMem_index .multi) 3 (exHash 3)).1.2.1 (by decide +kernel)

example : ((linkPointA 40 .multi (isSame Nat exKey) (isFound exKey 6) (exHash 6) (exMem .multi) exArr).calls (EqCall.ans exEq exEq)).length ≤ 7 ∧
    ((linkPointA 40 .uniq (isSame Nat exKey) (isFound exKey 6) (exHash 6) (exMem .uniq) exArr).calls (EqCall.ans exEq exEq)).length ≤ 4 :=
  ⟨Nat.le_trans (C66_insert (exMem_index .multi) 6 (exHash 6)).2.1 (by decide +kernel),
    Nat.le_trans (C66_insert (exMem_index .uniq) 6 (exHash 6)).2.1 (by decide +kernel)⟩

/-- Element 53 (key 3) is given the key 6, which the bucket has already. -/
example : ((inPlaceA 40 .multi (isFound (upd exKey 53 6) 6) (exHash 6) (exMem .multi) exArr 53).calls (EqCall.ans exEq exEq)).length ≤ 6 :=
  Nat.le_trans (C66_modify (exMem_index .multi) 6 53 (exHash 6)).2.1 (by decide +kernel)

example : allowed exKey exEq exHash exArr (exElems .multi) (exHash 3) ≤ 2 * 4 :=
  Nat.le_trans (C66_worst_case exEqHash exArr (exElems .multi) (exHash 3)) (by decide +kernel)

example : allowed exKey exEq exHash exArr (exElems .uniq) (exHash 3) = 4 :=
  (C66_unique exEqHash (exMem_index .uniq) (exHash 3)).trans (by decide +kernel)

/-- Nine elements with four keys: six calls of the hash function. -/
example : rehashCalls .multi exHashI 9 none (exMem .multi) ⟨400, 11⟩ 1 2 = 6 ∧ rehashCalls .multi exHashI 9 (some 2) (exMem .multi) ⟨400, 11⟩ 1 2 = 3 := by
  decide +kernel

example : ∃ m, 4 ≤ m ∧ m ≤ 8 ∧ ∀ t, ∃ h', rehash .multi exHashI 9 (some t) (exMem .multi) exArr ⟨400, 11⟩ 1 2 = .ok (h', decide (t < m)) := by
  obtain ⟨m, h1, -, h3, -, -, -, h5⟩ := C66_rehash exEqHash (exMem_index .multi) (na := ⟨400, 11⟩) (cpy := 2) (by decide) exNew
  exact ⟨m, Nat.le_trans (by decide +kernel) h1, Nat.le_trans h3 (by decide +kernel), h5⟩

end MI.Hash
