import Verif.Ser.LoadCost
import Verif.Ser.SaveCostLemmas
/-! Bounds of the time of reading the pointers of an archive. -/
namespace MI.Ser
open MI MI.Cont

theorem checkCost_le (es : List Id) (x : Id) : checkCost es x ≤ Nat.log2 es.length + 2 := by
  have := lowerBoundC_log (fun i => decide (es.getD i 0 < x)) (fuel := es.length) (first := 0) (Nat.le_refl es.length)
  unfold checkCost
  omega

/-- With `s` what sorting can still cost. -/
theorem parseTime_le (S : Nat → Nat) (es : List Id) : ∀ (ts : List (Option Id)) (b : Bool) (p : Option Id), (p ≠ none → b = true) →
    (parseTime S es b p ts).1 + sortDue S es.length (parseTime S es b p ts).2 + (parse es p ts).2.2.length * (Nat.log2 es.length + 3) ≤
        sortDue S es.length b + ts.length * (Nat.log2 es.length + 3) + 1
  | [], b, p, h => by
    cases p <;> simp [parseTime, parse] <;> omega
  | none :: ts, b, none, h => by
    simp only [parseTime, parse, List.length_cons, Nat.succ_mul ts.length]
    omega
  | some q :: ts, b, none, h => by
    have hc := checkCost_le es q
    simp only [parseTime, parse, List.length_cons, Nat.succ_mul ts.length]
    cases hk : checkNode es q with
    | true =>
      have ih := parseTime_le S es ts true (some q) (fun _ => rfl)
      rw [show sortDue S es.length true = 0 from rfl] at ih
      simp only [if_true] at ih ⊢
      omega
    | false =>
      simp only [Bool.false_eq_true, if_false, sortDue]
      omega
  | none :: ts, b, some q, h => by
    have ih := parseTime_le S es ts b none (fun h => absurd rfl h)
    simp only [parseTime, parse, List.length_cons, Nat.succ_mul ts.length]
    omega
  | some x :: ts, b, some q, h => by
    have hc := checkCost_le es x
    simp only [parseTime, parse, List.length_cons, Nat.succ_mul ts.length]
    cases hk : checkNode es x with
    | true =>
      have ih := parseTime_le S es ts b (some x) (fun _ => h (by simp))
      simp only [if_true] at ih ⊢
      omega
    | false =>
      simp only [Bool.false_eq_true, if_false]
      omega

theorem readTime_le (S : Nat → Nat) (es : List Id) : ∀ (k : Nat) (b : Bool) (ts : List (Option Id)),
    readTime S es k b ts ≤ sortDue S es.length b + ts.length * (Nat.log2 es.length + 3) + k
  | 0, b, ts => by simp [readTime]
  | k + 1, b, ts => by
    have h := parseTime_le S es ts b none (fun h => absurd rfl h)
    have ih := readTime_le S es k (parseTime S es b none ts).2 (parse es none ts).2.2
    simp only [readTime]
    cases (parse es none ts).2.1 with
    | true => simp only [if_true]; omega
    | false => simp only [Bool.false_eq_true, if_false]; omega

theorem readTime_order (S : Nat → Nat) (es : List Id) : ∀ (k : Nat) (ts : List (Option Id)), readTime S es k false (List.replicate k none ++ ts) = k
  | 0, _ => rfl
  | k + 1, ts => by
    have := readTime_order S es k ts
    simp only [List.replicate_succ, List.cons_append, readTime, parseTime, parse, if_true]
    omega

end MI.Ser
