import Verif.Key.StdTuple
import Verif.Props.Key
/-! C40: looking up with a `std::tuple` is the same as with a `boost::tuple`. -/
namespace MI.Key
open MI MI.Cont
variable {V : Type} {K L : Nat → Type}

/-- `LexLess` from component `N` on, `n` components at most. -/
theorem lex_from {x : ∀ j, K j} {y : ∀ j, L j} {lt : ∀ j, K j → L j → Bool} {lt' : ∀ j, L j → K j → Bool} {f : Nat → Nat → Bool} {m : Nat} (h0 : ∀ N, f 0 N = false)
    (h1 : ∀ n N, f (n + 1) N = if N < m then if lt N (x N) (y N) then true else if lt' N (y N) (x N) then false else f n (N + 1) else false) : ∀ n N,
    f n N = true ↔ ∃ k, N ≤ k ∧ k < m ∧ k < N + n ∧ (∀ j, N ≤ j → j < k → lt j (x j) (y j) = false ∧ lt' j (y j) (x j) = false) ∧ lt k (x k) (y k) = true
  | 0, N => by rw [h0]; constructor <;> intro h; (· exact nomatch h); obtain ⟨k, _, _, _, _⟩ := h; omega
  | n + 1, N => by
    rw [h1]
    by_cases hN : N < m
    · rw [if_pos hN]
      by_cases a : lt N (x N) (y N) = true
      · rw [if_pos a]
        exact ⟨fun _ => ⟨N, Nat.le_refl _, hN, by omega, fun j _ _ => by omega, a⟩, fun _ => rfl⟩
      · rw [if_neg a]
        by_cases b : lt' N (y N) (x N) = true
        · rw [if_pos b]
          refine ⟨fun h => by simp at h, fun ⟨k, k1, k2, k3, k4, k5⟩ => ?_⟩
          rcases Nat.eq_or_lt_of_le k1 with rfl | hk
          · exact absurd k5 a
          · have := (k4 N (Nat.le_refl _) hk).2; rw [b] at this; exact nomatch this
        · rw [if_neg b, lex_from h0 h1 n (N + 1)]
          constructor
          · rintro ⟨k, k1, k2, k3, k4, k5⟩
            refine ⟨k, by omega, k2, by omega, fun j j1 j2 => ?_, k5⟩
            rcases Nat.eq_or_lt_of_le j1 with rfl | hj
            · exact ⟨by simpa using a, by simpa using b⟩
            · exact k4 j hj j2
          · rintro ⟨k, k1, k2, k3, k4, k5⟩
            rcases Nat.eq_or_lt_of_le k1 with rfl | hk
            · exact absurd k5 a
            · exact ⟨k, hk, k2, by omega, fun j j1 j2 => k4 j (by omega) j2, k5⟩
    · rw [if_neg hN]
      refine ⟨fun h => by simp at h, fun ⟨k, k1, k2, _⟩ => by omega⟩

theorem lex_all {x : ∀ j, K j} {y : ∀ j, L j} {lt : ∀ j, K j → L j → Bool} {lt' : ∀ j, L j → K j → Bool} {n m : Nat} :
    (∃ k, 0 ≤ k ∧ k < m ∧ k < 0 + n ∧ (∀ j, 0 ≤ j → j < k → lt j (x j) (y j) = false ∧ lt' j (y j) (x j) = false) ∧ lt k (x k) (y k) = true) ↔ LexLess (min n m) lt lt' x y := by
  constructor
  · rintro ⟨k, -, k2, k3, k4, k5⟩; exact ⟨k, by omega, fun j hj => k4 j (Nat.zero_le _) hj, k5⟩
  · rintro ⟨k, k1, k4, k5⟩; exact ⟨k, Nat.zero_le _, by omega, by omega, fun j _ hj => k4 j hj, k5⟩

theorem eq_from {x : ∀ j, K j} {y : ∀ j, L j} {eq : ∀ j, K j → L j → Bool} {f : Nat → Nat → Bool} {m : Nat} (h0 : ∀ N, f 0 N = true)
    (h1 : ∀ n N, f (n + 1) N = if N < m then if !eq N (x N) (y N) then false else f n (N + 1) else true) : ∀ n N,
    f n N = true ↔ ∀ j, N ≤ j → j < m → j < N + n → eq j (x j) (y j) = true
  | 0, N => by rw [h0]; exact ⟨fun _ j _ _ _ => by omega, fun _ => rfl⟩
  | n + 1, N => by
    rw [h1]
    by_cases hN : N < m
    · rw [if_pos hN]
      cases a : eq N (x N) (y N)
      · refine ⟨fun h => by simp at h, fun h => ?_⟩
        have := h N (Nat.le_refl _) hN (by omega); rw [a] at this; exact nomatch this
      · simp only [Bool.not_true, Bool.false_eq_true, if_false]
        rw [eq_from h0 h1 n (N + 1)]
        constructor
        · intro h j j1 j2 j3
          rcases Nat.eq_or_lt_of_le j1 with rfl | hj
          · exact a
          · exact h j hj j2 (by omega)
        · intro h j j1 j2 j3; exact h j (by omega) j2 (by omega)
    · rw [if_neg hN]
      exact ⟨fun _ j j1 j2 _ => by omega, fun _ => rfl⟩

/-- C40: comparing a composite key with a `std::tuple`, on either side, is the lexicographic comparison of their components, as many as both have: the same as with a `boost::tuple` of the same
values. -/
theorem C40_std_compare (c : Composite V K) (v : V) (t : Tup L) (comp : ∀ j, K j → L j → Bool) (comp' : ∀ j, L j → K j → Bool) :
    (c.lessStd v t comp comp' = true ↔ LexLess (min c.len t.len) comp comp' (fun j => c.ext j v) t.get) ∧
    (t.lessStd c v comp comp' = true ↔ LexLess (min c.len t.len) comp' comp t.get (fun j => c.ext j v)) ∧
    c.lessStd v t comp comp' = c.lessTup v t comp comp' ∧ t.lessStd c v comp comp' = t.lessComposite c v comp comp' := by
  have a : c.lessStd v t comp comp' = true ↔ LexLess (min c.len t.len) comp comp' (fun j => c.ext j v) t.get :=
    (lex_from (x := fun j => c.ext j v) (y := t.get) (lt := comp) (lt' := comp') (f := compareCS c.ext v t comp comp') (m := t.len) (fun _ => rfl)
      (fun n N => by simp only [compareCS, Tup.has, decide_eq_true_eq]) c.len 0).trans lex_all
  have b : t.lessStd c v comp comp' = true ↔ LexLess (min c.len t.len) comp' comp t.get (fun j => c.ext j v) :=
    (lex_from (x := t.get) (y := fun j => c.ext j v) (lt := comp') (lt' := comp) (f := compareSC t c.ext v comp comp') (m := t.len) (fun _ => rfl)
      (fun n N => by simp only [compareSC, Tup.has, decide_eq_true_eq]) c.len 0).trans lex_all
  refine ⟨a, b, Bool.eq_iff_iff.2 (a.trans (compareCV_iff ..).symm), Bool.eq_iff_iff.2 (b.trans (compareVC_iff ..).symm)⟩

/-- C40: equality of a composite key and a `std::tuple` is equality of all components (the lengths agree: anything else does not compile). -/
theorem C40_std_equal (c : Composite V K) (v : V) (t : Tup L) (eq : ∀ j, K j → L j → Bool) (eq' : ∀ j, L j → K j → Bool) (ht : t.len = c.len) :
    (c.equalStd v t eq = true ↔ AllEq c.len eq (fun j => c.ext j v) t.get) ∧ (t.equalStd c v eq' = true ↔ AllEq c.len eq' t.get (fun j => c.ext j v)) := by
  constructor
  · refine (eq_from (x := fun j => c.ext j v) (y := t.get) (eq := eq) (f := equalCS c.ext v t eq) (m := t.len) (fun _ => rfl)
      (fun n N => by simp only [equalCS, Tup.has, decide_eq_true_eq]) c.len 0).trans ?_
    exact ⟨fun h j hj => h j (Nat.zero_le _) (by omega) (by omega), fun h j _ hj _ => h j (by omega)⟩
  · refine (eq_from (x := t.get) (y := fun j => c.ext j v) (eq := eq') (f := equalSC t c.ext v eq') (m := t.len) (fun _ => rfl)
      (fun n N => by simp only [equalSC, Tup.has, decide_eq_true_eq]) c.len 0).trans ?_
    exact ⟨fun h j hj => h j (Nat.zero_le _) (by omega) (by omega), fun h j _ hj _ => h j (by omega)⟩

theorem hashS_eq {b : Nat} (t : Tup K) (h : ∀ j, K j → BitVec b) : ∀ (n N : Nat) (carry : BitVec b), N + n = t.len →
    hashS t h n N carry = (List.range' N n).foldl (fun x j => combine x (h j (t.get j))) carry
  | 0, _, _, _ => rfl
  | n + 1, N, carry, e => by
    have : N < t.len := by omega
    simp only [hashS, Tup.has, this, decide_true, if_true, List.range'_succ, List.foldl_cons]
    exact hashS_eq t h n (N + 1) _ (by omega)

theorem hashV_range {b : Nat} : ∀ {K : Nat → Type} (n : Nat) (vc : ∀ j, K j) (h : ∀ j, K j → BitVec b) (carry : BitVec b),
    hashV n vc h carry = (List.range' 0 n).foldl (fun x j => combine x (h j (vc j))) carry
  | _, 0, _, _, _ => rfl
  | _, n + 1, vc, h, carry => by
    rw [hashV, hashV_range n, List.range'_succ, List.foldl_cons,
      show List.range' (0 + 1) n = (List.range' 0 n).map (· + 1) by rw [List.range'_eq_map_range, List.range'_eq_map_range, List.map_map]; apply List.map_congr_left; intro a _; simp; omega]
    rw [List.foldl_map]

/-- C40: the hash of a `std::tuple` is that of a `boost::tuple` of the same values. -/
theorem C40_std_hash {b : Nat} (t : Tup K) (h : ∀ j, K j → BitVec b) : t.hashStd h t.len = t.hash h := by
  rw [Tup.hashStd, Tup.hash, hashS_eq t h _ _ _ (Nat.zero_add _), hashV_range]

example : exC.lessStd (5, 'a') (exT 3) exLt exLt = true ∧ (exT 3).lessStd exC (5, 'a') exLt exLt = false ∧ exC.lessStd (5, 'a') (exT 5) exLt exLt = false := by decide
example : exC.lessStd (5, 'a') (exT 3) exLt exLt = exC.lessTup (5, 'a') (exT 3) exLt exLt := (C40_std_compare ..).2.2.1
end MI.Key
