import Verif.Ord.Calls
import Verif.Ord.LookupLemmas
/-! Numbers of calls of the comparison object (helper lemmas). -/
namespace MI
namespace Asks
variable {Q α β : Type}

@[simp] theorem pure_def (a : α) : (pure a : Asks Q α) = done a := rfl
@[simp] theorem bind_def (m : Asks Q α) (f : α → Asks Q β) : m >>= f = m.bind f := rfl

@[simp] theorem run_done (ans : Q → Bool) (a : α) : (done a : Asks Q α).run ans = a := rfl
@[simp] theorem run_ask (ans : Q → Bool) (q : Q) : (ask q).run ans = ans q := rfl
@[simp] theorem run_bind (ans : Q → Bool) (m : Asks Q α) (f : α → Asks Q β) : (m.bind f).run ans = (f (m.run ans)).run ans := by
  induction m with
  | done a => rfl
  | call q k ih => exact ih _

@[simp] theorem calls_done (ans : Q → Bool) (a : α) : (done a : Asks Q α).calls ans = [] := rfl
@[simp] theorem calls_ask (ans : Q → Bool) (q : Q) : (ask q).calls ans = [q] := rfl
@[simp] theorem calls_bind (ans : Q → Bool) (m : Asks Q α) (f : α → Asks Q β) :
    (m.bind f).calls ans = m.calls ans ++ (f (m.run ans)).calls ans := by
  induction m with
  | done a => rfl
  | call q k ih => exact congrArg (q :: ·) (ih _)

theorem AtMost.mono {n m : Nat} (hnm : n ≤ m) {c : Asks Q α} (hc : c.AtMost n) : c.AtMost m := by
  induction c generalizing n m with
  | done a => cases m <;> trivial
  | call q k ih =>
    cases n with
    | zero => exact hc.elim
    | succ n =>
      cases m with
      | zero => omega
      | succ m => exact fun b => ih b (by omega) (hc b)

theorem AtMost.done {n : Nat} (a : α) : (done a : Asks Q α).AtMost n := by cases n <;> trivial

theorem AtMost.ask {n : Nat} (q : Q) : (ask q).AtMost (n + 1) := fun _ => AtMost.done _

theorem AtMost.bind {a b : Nat} {m : Asks Q α} {f : α → Asks Q β} (hm : m.AtMost a) (hf : ∀ x, (f x).AtMost b) :
    (m.bind f).AtMost (a + b) := by
  induction m generalizing a with
  | done x => exact (hf x).mono (by omega)
  | call q k ih =>
    cases a with
    | zero => exact hm.elim
    | succ a =>
      rw [show a + 1 + b = a + b + 1 by omega]
      exact fun c => ih c (hm c)

theorem AtMost.bind' {a b n : Nat} {m : Asks Q α} {f : α → Asks Q β} (hm : m.AtMost a) (hf : ∀ x, (f x).AtMost b) (h : a + b ≤ n) :
    (m.bind f).AtMost n := (hm.bind hf).mono h

theorem AtMost.calls {n : Nat} {c : Asks Q α} (hc : c.AtMost n) (ans : Q → Bool) : (c.calls ans).length ≤ n := by
  induction c generalizing n with
  | done a => simp
  | call q k ih =>
    cases n with
    | zero => exact hc.elim
    | succ n => have := ih (ans q) (hc (ans q)); simp only [Asks.calls, List.length_cons]; omega

theorem run_ite (ans : Q → Bool) (p : Prop) [Decidable p] (a b : Asks Q α) :
    (if p then a else b).run ans = if p then a.run ans else b.run ans := by split <;> rfl

end Asks

namespace Ord
open Asks

section Run
variable {Q : Type} (ans : Q → Bool)

theorem boundLoopA_run (q : Id → Asks Q Bool) (h : Heap) : ∀ (n : Nat) (top y : Id),
    (boundLoopA q h n top y).run ans = boundLoop (fun p => (q p).run ans) h n top y := by
  intro n
  induction n with
  | zero => intro top y; rfl
  | succ n ih =>
    intro top y
    simp only [boundLoopA, boundLoop, pure_def, bind_def, run_ite, run_bind, run_done, ih]

theorem rangeLoopA_run (b a lo up : Id → Asks Q Bool) (h : Heap) : ∀ (n : Nat) (top y : Id),
    (rangeLoopA b a lo up h n top y).run ans =
      rangeLoop (fun p => (b p).run ans) (fun p => (a p).run ans) (fun p => (lo p).run ans) (fun p => (up p).run ans) h n top y := by
  intro n
  induction n with
  | zero => intro top y; rfl
  | succ n ih =>
    intro top y
    simp only [rangeLoopA, rangeLoop, pure_def, bind_def, run_ite, run_bind, run_done, ih, boundLoopA_run]
    repeat' split
    all_goals simp_all

theorem descendA_run (q : Id → Asks Q Bool) (h : Heap) : ∀ (n : Nat) (x y : Id) (s : Side),
    (descendA q h n x y s).run ans = descend (fun p => (q p).run ans) h n x y s := by
  intro n
  induction n with
  | zero => intro x y s; rfl
  | succ n ih =>
    intro x y s
    simp only [descendA, descend, pure_def, bind_def, run_ite, run_bind, run_done, ih]

theorem rankLoopA_run (q : Id → Asks Q Bool) (h : Heap) : ∀ (n : Nat) (top y : Id) (s : Nat),
    (rankLoopA q h n top y s).run ans = rankLoop (fun p => (q p).run ans) h n top y s := by
  intro n
  induction n with
  | zero => intro top y s; rfl
  | succ n ih =>
    intro top y s
    simp only [rankLoopA, rankLoop, pure_def, bind_def, run_ite, run_bind, run_done, ih]

theorem boundRankA_run (q : Id → Asks Q Bool) (n : Nat) (h : Heap) (top y : Id) :
    (boundRankA q n h top y).run ans = boundRank (fun p => (q p).run ans) n h top y := by
  simp only [boundRankA, boundRank, pure_def, bind_def, run_ite, run_bind, run_done, rankLoopA_run]

theorem rangeRankLoopA_run (b a lo up : Id → Asks Q Bool) (h : Heap) : ∀ (n : Nat) (top y : Id) (s : Nat),
    (rangeRankLoopA b a lo up h n top y s).run ans =
      rangeRankLoop (fun p => (b p).run ans) (fun p => (a p).run ans) (fun p => (lo p).run ans) (fun p => (up p).run ans) h n top y s := by
  intro n
  induction n with
  | zero => intro top y s; rfl
  | succ n ih =>
    intro top y s
    simp only [rangeRankLoopA, rangeRankLoop, pure_def, bind_def, run_ite, run_bind, run_done, ih, boundRankA_run]
    repeat' split
    all_goals simp_all

end Run

section RunLookup
variable {K CK : Type} (key : Id → K) (ltk : K → CK → Bool) (gtk : CK → K → Bool) (n : Nat) (h : Heap) (hd : Id) (x : CK)

theorem isBefore_run (p : Id) : (isBefore key x p).run (Cmp.ans ltk gtk) = ltk (key p) x := rfl
theorem notBefore_run (p : Id) : (notBefore key x p).run (Cmp.ans ltk gtk) = !ltk (key p) x := rfl
theorem isAfter_run (p : Id) : (isAfter key x p).run (Cmp.ans ltk gtk) = gtk x (key p) := rfl

theorem lowerBoundA_run : (lowerBoundA key n h hd x).run (Cmp.ans ltk gtk) = lowerBound key ltk n h hd x := by
  simp only [lowerBoundA, lowerBound, lowerBoundFrom, boundLoopA_run, notBefore_run]
theorem upperBoundA_run : (upperBoundA key n h hd x).run (Cmp.ans ltk gtk) = upperBound key gtk n h hd x := by
  simp only [upperBoundA, upperBound, upperBoundFrom, boundLoopA_run, isAfter_run]
theorem findA_run : (findA key n h hd x).run (Cmp.ans ltk gtk) = find key ltk gtk n h hd x := by
  simp only [findA, find, pure_def, bind_def, run_bind, boundLoopA_run, notBefore_run]
  cases boundLoop (fun p => !ltk (key p) x) h n (h.parent hd) hd with
  | none => rfl
  | some y =>
    simp only [run_ite, run_bind, run_done, isAfter_run]
    by_cases e : y = hd
    · simp [e]
    · by_cases g : gtk x (key y) = true <;> simp [e, g]
theorem equalRangeA_run : (equalRangeA key n h hd x).run (Cmp.ans ltk gtk) = equalRange key ltk gtk n h hd x := by
  simp only [equalRangeA, equalRange, rangeLoopA_run, isBefore_run, isAfter_run, notBefore_run]
theorem countA_run : (countA key n h hd x).run (Cmp.ans ltk gtk) = count key ltk gtk n h hd x := by
  simp only [countA, count, pure_def, bind_def, run_bind, equalRangeA_run]
  cases equalRange key ltk gtk n h hd x <;> rfl

theorem rangeA_run (lower upper : Option (K → Bool)) :
    (rangeA key lower.isSome upper.isSome n h hd).run (Bnd.ans (lower.getD fun _ => true) (upper.getD fun _ => true)) =
      range key lower upper n h hd := by
  have e1 : ∀ lo up : K → Bool, ∀ p, (inLower key p).run (Bnd.ans lo up) = lo (key p) := fun _ _ _ => rfl
  have e2 : ∀ lo up : K → Bool, ∀ p, (notLower key p).run (Bnd.ans lo up) = !lo (key p) := fun _ _ _ => rfl
  have e3 : ∀ lo up : K → Bool, ∀ p, (notUpper key p).run (Bnd.ans lo up) = !up (key p) := fun _ _ _ => rfl
  cases lower <;> cases upper <;>
    simp only [rangeA, range, Option.isSome, pure_def, bind_def, run_bind, run_done, rangeLoopA_run, boundLoopA_run, e1, e2, e3, Option.getD]

theorem lowerBoundRankA_run : (lowerBoundRankA key n h hd x).run (Cmp.ans ltk gtk) = lowerBoundRank key ltk n h hd x := by
  simp only [lowerBoundRankA, lowerBoundRank, boundRankA_run, notBefore_run]
theorem upperBoundRankA_run : (upperBoundRankA key n h hd x).run (Cmp.ans ltk gtk) = upperBoundRank key gtk n h hd x := by
  simp only [upperBoundRankA, upperBoundRank, boundRankA_run, isAfter_run]
theorem findRankA_run : (findRankA key n h hd x).run (Cmp.ans ltk gtk) = findRank key ltk gtk n h hd x := by
  simp only [findRankA, findRank, pure_def, bind_def, run_ite, run_bind, rankLoopA_run, notBefore_run, run_done]
  split
  · rfl
  · cases rankLoop (fun p => !ltk (key p) x) h n (h.parent hd) hd (h.size (h.parent hd)) with
    | none => rfl
    | some r =>
      obtain ⟨s, y⟩ := r
      simp only [run_ite, run_bind, run_done, isAfter_run]
      by_cases e : y = hd
      · simp [e]
      · by_cases g : gtk x (key y) = true <;> simp [e, g]
theorem equalRangeRankA_run : (equalRangeRankA key n h hd x).run (Cmp.ans ltk gtk) = equalRangeRank key ltk gtk n h hd x := by
  simp only [equalRangeRankA, equalRangeRank, pure_def, run_ite, run_done, rangeRankLoopA_run, isBefore_run, isAfter_run, notBefore_run]
theorem countRankedA_run : (countRankedA key n h hd x).run (Cmp.ans ltk gtk) = countRanked key ltk gtk n h hd x := by
  simp only [countRankedA, countRanked, pure_def, bind_def, run_bind, run_done, equalRangeRankA_run]
end RunLookup

section RunPoints
variable {K : Type} (key : Id → K) (lt : K → K → Bool) (n : Nat) (h : Heap) (hd : Id) (k : K)

theorem linkPointUA_run : (linkPointUA key n h hd k).run (fun p => lt p.1 p.2) = linkPointU key lt n h hd k := by
  simp only [linkPointUA, linkPointU, pure_def, bind_def, run_bind, descendA_run, run_ask]
  cases descend (fun x => lt k (key x)) h n (h.parent hd) hd .left with
  | none => rfl
  | some r =>
    obtain ⟨y, s⟩ := r
    simp only [run_ite, run_done]
    split
    · rfl
    · cases (if s = Side.left then decrement h n y else some y) with
      | none => rfl
      | some yy => by_cases e : lt (key yy) k = true <;> simp [e]

theorem linkPointNA_run : (linkPointNA key n h hd k).run (fun p => lt p.1 p.2) = linkPointN key lt n h hd k := by
  simp only [linkPointNA, linkPointN, pure_def, bind_def, run_bind, descendA_run, run_ask]
  cases descend (fun x => lt k (key x)) h n (h.parent hd) hd .left <;> rfl

theorem lowerLinkPointA_run : (lowerLinkPointA key n h hd k).run (fun p => lt p.1 p.2) = lowerLinkPoint key lt n h hd k := by
  simp only [lowerLinkPointA, lowerLinkPoint, pure_def, bind_def, run_bind, descendA_run, run_ask, run_done]
  cases descend (fun x => !lt (key x) k) h n (h.parent hd) hd .left <;> rfl

theorem hintedPointUA_run (position : Id) :
    (hintedPointUA key n h hd k position).run (fun p => lt p.1 p.2) = hintedPointU key lt n h hd k position := by
  simp only [hintedPointUA, hintedPointU, pure_def, bind_def, run_ite, run_bind, run_done, run_ask, linkPointUA_run]
  by_cases e1 : position = h.left hd
  · rw [if_pos e1, if_pos e1]
    by_cases e2 : h.parent hd ≠ 0 <;> by_cases e3 : lt k (key position) = true <;> simp [e2, e3, linkPointUA_run]
  · rw [if_neg e1, if_neg e1]
    by_cases e2 : position = hd
    · rw [if_pos e2, if_pos e2]
      by_cases e3 : lt (key (h.right hd)) k = true <;> simp [e3, linkPointUA_run]
    · rw [if_neg e2, if_neg e2]
      cases decrement h n position with
      | none => rfl
      | some b =>
        simp only [run_ite, run_bind, run_done, run_ask, linkPointUA_run]
        by_cases e3 : lt (key b) k = true <;> by_cases e4 : lt k (key position) = true <;> simp [e3, e4, run_ite, linkPointUA_run]

theorem hintedPointNA_run (position : Id) :
    (hintedPointNA key n h hd k position).run (fun p => lt p.1 p.2) = hintedPointN key lt n h hd k position := by
  simp only [hintedPointNA, hintedPointN, pure_def, bind_def, run_ite, run_bind, run_done, run_ask, linkPointNA_run, lowerLinkPointA_run]
  by_cases e1 : position = h.left hd
  · rw [if_pos e1, if_pos e1]
    by_cases e2 : h.parent hd ≠ 0 <;> by_cases e3 : lt (key position) k = true <;> simp [e2, e3, lowerLinkPointA_run]
  · rw [if_neg e1, if_neg e1]
    by_cases e2 : position = hd
    · rw [if_pos e2, if_pos e2]
      by_cases e3 : lt k (key (h.right hd)) = true <;> simp [e3, linkPointNA_run]
    · rw [if_neg e2, if_neg e2]
      cases decrement h n position with
      | none => rfl
      | some b =>
        simp only [run_ite, run_bind, run_done, run_ask, linkPointNA_run, lowerLinkPointA_run]
        by_cases e3 : lt k (key b) = true <;> by_cases e4 : lt (key position) k = true <;> simp [e3, e4, run_ite, linkPointNA_run, lowerLinkPointA_run]

theorem inPlaceUA_run (x : Id) : (inPlaceUA key n h hd k x).run (fun p => lt p.1 p.2) = inPlaceU key lt n h hd k x := by
  simp only [inPlaceUA, inPlaceU, pure_def, bind_def, run_bind]
  have last : ∀ y, (if y = hd then Asks.done (some true) else (ask (k, key y)).bind fun b => Asks.done (some (b)) :
      Asks (Cmp2 K) (Option Bool)).run (fun p => lt p.1 p.2) = some (decide (y = hd) || lt k (key y)) := by
    intro y; by_cases e : y = hd <;> simp [e]
  by_cases e : x ≠ h.left hd
  · simp only [if_pos e]
    cases decrement h n x with
    | none => rfl
    | some y =>
      simp only [run_bind, run_ask, run_done, Option.map]
      cases lt (key y) k <;> first | rfl | (cases increment h n x with | none => rfl | some z => exact last z)
  · simp only [if_neg e, run_done]
    cases increment h n x with
    | none => rfl
    | some z => exact last z

theorem inPlaceNA_run (x : Id) : (inPlaceNA key n h hd k x).run (fun p => lt p.1 p.2) = inPlaceN key lt n h hd k x := by
  simp only [inPlaceNA, inPlaceN, pure_def, bind_def, run_bind]
  have last : ∀ y, (if y = hd then Asks.done (some true) else (ask (key y, k)).bind fun b => Asks.done (some (!b)) :
      Asks (Cmp2 K) (Option Bool)).run (fun p => lt p.1 p.2) = some (decide (y = hd) || !lt (key y) k) := by
    intro y; by_cases e : y = hd <;> simp [e]
  by_cases e : x ≠ h.left hd
  · simp only [if_pos e]
    cases decrement h n x with
    | none => rfl
    | some y =>
      simp only [run_bind, run_ask, run_done, Option.map]
      cases lt k (key y) <;> first | rfl | (cases increment h n x with | none => rfl | some z => exact last z)
  · simp only [if_neg e, run_done]
    cases increment h n x with
    | none => rfl
    | some z => exact last z

end RunPoints

/-! ## Bounds -/
section Bounds
variable {Q : Type} {h : Heap}

theorem boundLoopA_atMost {q : Id → Asks Q Bool} (hq : ∀ p, (q p).AtMost 1) (t : T) : ∀ {p : Id} {n : Nat} {y : Id},
    At h p t → 0 ∉ t.ids → (boundLoopA q h n t.root y).AtMost t.height := by
  induction t with
  | nil => intro p n y _ _; cases n <;> exact AtMost.done _
  | node c s l x r ihl ihr =>
    intro p n y ha h0
    obtain ⟨_, _, _, hl, hr, al, ar⟩ := ha
    cases n with
    | zero => exact AtMost.done _
    | succ n =>
      simp only [T.ids, List.mem_append, List.mem_cons, not_or] at h0
      have hx0 : x ≠ 0 := fun h => h0.2.1 h.symm
      rw [root_node]
      simp only [boundLoopA, pure_def, bind_def, T.height]
      rw [if_neg hx0]
      refine AtMost.bind' (hq x) (b := max l.height r.height) (fun b => ?_) (by omega)
      split
      · rw [hl]; exact (ihl al h0.1).mono (by omega)
      · rw [hr]; exact (ihr ar h0.2.2).mono (by omega)

theorem rangeLoopA_atMost {b a lo up : Id → Asks Q Bool} (hb : ∀ p, (b p).AtMost 1) (ha : ∀ p, (a p).AtMost 1)
    (hlo : ∀ p, (lo p).AtMost 1) (hup : ∀ p, (up p).AtMost 1) (t : T) : ∀ {p : Id} {n : Nat} {y : Id},
    At h p t → 0 ∉ t.ids → (rangeLoopA b a lo up h n t.root y).AtMost (2 * t.height) := by
  induction t with
  | nil => intro p n y _ _; cases n <;> exact AtMost.done _
  | node c s l x r ihl ihr =>
    intro p n y hat h0
    obtain ⟨_, _, _, hl, hr, al, ar⟩ := hat
    cases n with
    | zero => exact AtMost.done _
    | succ n =>
      simp only [T.ids, List.mem_append, List.mem_cons, not_or] at h0
      have hx0 : x ≠ 0 := fun h => h0.2.1 h.symm
      rw [root_node]
      simp only [rangeLoopA, pure_def, bind_def, T.height]
      rw [if_neg hx0]
      refine AtMost.bind' (hb x) (b := 1 + 2 * max l.height r.height) (fun c => ?_) (by omega)
      split
      · rw [hr]; exact (ihr ar h0.2.2).mono (by omega)
      · refine AtMost.bind' (ha x) (b := 2 * max l.height r.height) (fun c => ?_) (by omega)
        split
        · rw [hl]; exact (ihl al h0.1).mono (by omega)
        · rw [hl, hr]
          refine AtMost.bind' (boundLoopA_atMost hlo l al h0.1) (b := r.height) (fun u => ?_) (by omega)
          refine AtMost.bind' (boundLoopA_atMost hup r ar h0.2.2) (b := 0) (fun v => ?_) (by omega)
          split <;> exact AtMost.done _

theorem descendA_atMost {q : Id → Asks Q Bool} (hq : ∀ p, (q p).AtMost 1) (t : T) : ∀ {p : Id} {n : Nat} {y : Id} {s : Side},
    At h p t → 0 ∉ t.ids → (descendA q h n t.root y s).AtMost t.height := by
  induction t with
  | nil => intro p n y s _ _; cases n <;> exact AtMost.done _
  | node c s l x r ihl ihr =>
    intro p n y sd ha h0
    obtain ⟨_, _, _, hl, hr, al, ar⟩ := ha
    cases n with
    | zero => exact AtMost.done _
    | succ n =>
      simp only [T.ids, List.mem_append, List.mem_cons, not_or] at h0
      have hx0 : x ≠ 0 := fun h => h0.2.1 h.symm
      rw [root_node]
      simp only [descendA, pure_def, bind_def, T.height]
      rw [if_neg hx0]
      refine AtMost.bind' (hq x) (b := max l.height r.height) (fun b => ?_) (by omega)
      split
      · rw [hl]; exact (ihl al h0.1).mono (by omega)
      · rw [hr]; exact (ihr ar h0.2.2).mono (by omega)

theorem rankLoopA_atMost {q : Id → Asks Q Bool} (hq : ∀ p, (q p).AtMost 1) (t : T) (ht : t ≠ .nil) : ∀ {p : Id} {n : Nat} {y : Id} {s : Nat},
    At h p t → 0 ∉ t.ids → (rankLoopA q h n t.root y s).AtMost t.height := by
  induction t with
  | nil => exact absurd rfl ht
  | node c s l x r ihl ihr =>
    intro p n y sd ha h0
    obtain ⟨_, _, _, hl, hr, al, ar⟩ := ha
    cases n with
    | zero => exact AtMost.done _
    | succ n =>
      simp only [T.ids, List.mem_append, List.mem_cons, not_or] at h0
      rw [root_node]
      simp only [rankLoopA, pure_def, bind_def, T.height]
      refine AtMost.bind' (hq x) (b := max l.height r.height) (fun b => ?_) (by omega)
      cases b with
      | true =>
        simp only [if_true, hl]
        split
        · exact AtMost.done _
        · rename_i e
          exact (ihl (by rintro rfl; exact e rfl) al h0.1).mono (by omega)
      | false =>
        simp only [Bool.false_eq_true, if_false, hr]
        split
        · exact AtMost.done _
        · rename_i e
          exact (ihr (by rintro rfl; exact e rfl) ar h0.2.2).mono (by omega)

theorem boundRankA_atMost {q : Id → Asks Q Bool} (hq : ∀ p, (q p).AtMost 1) (t : T) {p : Id} {n : Nat} {y : Id}
    (ha : At h p t) (h0 : 0 ∉ t.ids) : (boundRankA q n h t.root y).AtMost t.height := by
  simp only [boundRankA, pure_def, bind_def]
  split
  · exact AtMost.done _
  · rename_i e
    exact AtMost.bind' (rankLoopA_atMost hq t (by rintro rfl; exact e rfl) ha h0) (b := 0) (fun _ => AtMost.done _) (by omega)

theorem rangeRankLoopA_atMost {b a lo up : Id → Asks Q Bool} (hb : ∀ p, (b p).AtMost 1) (ha : ∀ p, (a p).AtMost 1)
    (hlo : ∀ p, (lo p).AtMost 1) (hup : ∀ p, (up p).AtMost 1) (t : T) (ht : t ≠ .nil) : ∀ {p : Id} {n : Nat} {y : Id} {s : Nat},
    At h p t → 0 ∉ t.ids → (rangeRankLoopA b a lo up h n t.root y s).AtMost (2 * t.height) := by
  induction t with
  | nil => exact absurd rfl ht
  | node c s l x r ihl ihr =>
    intro p n y sd hat h0
    obtain ⟨_, _, _, hl, hr, al, ar⟩ := hat
    cases n with
    | zero => exact AtMost.done _
    | succ n =>
      simp only [T.ids, List.mem_append, List.mem_cons, not_or] at h0
      rw [root_node]
      simp only [rangeRankLoopA, pure_def, bind_def, T.height]
      refine AtMost.bind' (hb x) (b := 1 + 2 * max l.height r.height) (fun c => ?_) (by omega)
      split
      · rw [hr]
        split
        · exact AtMost.done _
        · rename_i e
          exact (ihr (by rintro rfl; exact e rfl) ar h0.2.2).mono (by omega)
      · refine AtMost.bind' (ha x) (b := 2 * max l.height r.height) (fun c => ?_) (by omega)
        split
        · rw [hl]
          split
          · exact AtMost.done _
          · rename_i e
            exact (ihl (by rintro rfl; exact e rfl) al h0.1).mono (by omega)
        · rw [hl, hr]
          refine AtMost.bind' (boundRankA_atMost hlo l al h0.1) (b := r.height) (fun u => ?_) (by omega)
          refine AtMost.bind' (boundRankA_atMost hup r ar h0.2.2) (b := 0) (fun v => ?_) (by omega)
          split <;> exact AtMost.done _

end Bounds

theorem ask1 {Q : Type} (q : Q) : (Asks.ask q).AtMost 1 := AtMost.ask q
theorem notAsk1 {Q : Type} {m : Asks Q Bool} (hm : m.AtMost 1) : (do return !(← m) : Asks Q Bool).AtMost 1 :=
  AtMost.bind' hm (b := 0) (fun _ => AtMost.done _) (by omega)

/-- The tree of a represented index, with its height. -/
theorem rep_tree {h : Heap} {hd : Id} {xs : List Id} (hr : Rep h hd xs) :
    ∃ t p, h.parent hd = t.root ∧ At h p t ∧ 0 ∉ t.ids ∧ t.height ≤ 2 * Nat.log2 (xs.length + 1) := by
  obtain ⟨t, R, hb, hs, rfl⟩ := hr
  exact ⟨t, _, R.shape.root, R.shape.at', fun e => R.shape.nz (by simp [e]), rb_height hb⟩

section Points
variable {K : Type} {key : Id → K} {h : Heap} {hd : Id} {xs : List Id} {n : Nat} {k : K}

theorem linkPointUA_atMost (hr : Rep h hd xs) : (linkPointUA key n h hd k).AtMost (2 * Nat.log2 (xs.length + 1) + 1) := by
  obtain ⟨t, p, e, ha, h0, hh⟩ := rep_tree hr
  simp only [linkPointUA, pure_def, bind_def, e]
  refine AtMost.bind' (descendA_atMost (fun _ => ask1 _) t ha h0) (b := 1) (fun r => ?_) (by omega)
  split
  · exact AtMost.done _
  · split
    · exact AtMost.done _
    · split
      · exact AtMost.done _
      · refine AtMost.bind' (ask1 _) (b := 0) (fun _ => ?_) (by omega)
        split <;> exact AtMost.done _

theorem linkPointNA_atMost (hr : Rep h hd xs) : (linkPointNA key n h hd k).AtMost (2 * Nat.log2 (xs.length + 1)) := by
  obtain ⟨t, p, e, ha, h0, hh⟩ := rep_tree hr
  simp only [linkPointNA, pure_def, bind_def, e]
  refine AtMost.bind' (descendA_atMost (fun _ => ask1 _) t ha h0) (b := 0) (fun r => ?_) (by omega)
  split <;> exact AtMost.done _

theorem lowerLinkPointA_atMost (hr : Rep h hd xs) : (lowerLinkPointA key n h hd k).AtMost (2 * Nat.log2 (xs.length + 1)) := by
  obtain ⟨t, p, e, ha, h0, hh⟩ := rep_tree hr
  simp only [lowerLinkPointA, pure_def, bind_def, e]
  refine AtMost.bind' (descendA_atMost (fun _ => notAsk1 (ask1 _)) t ha h0) (b := 0) (fun r => ?_) (by omega)
  split <;> exact AtMost.done _

theorem hintedPointUA_atMost (hr : Rep h hd xs) (position : Id) :
    (hintedPointUA key n h hd k position).AtMost (2 * Nat.log2 (xs.length + 1) + 3) := by
  have hU := linkPointUA_atMost (key := key) (n := n) (k := k) hr
  simp only [hintedPointUA, pure_def, bind_def]
  repeat' first
    | exact AtMost.done _
    | exact hU.mono (by omega)
    | refine AtMost.bind (a := 1) (ask1 _) (fun _ => ?_)
    | (rw [show ∀ m, m + 3 = 1 + (m + 2) from fun m => by omega]; refine AtMost.bind (a := 1) (ask1 _) (fun _ => ?_))
    | (rw [show ∀ m, m + 2 = 1 + (m + 1) from fun m => by omega]; refine AtMost.bind (a := 1) (ask1 _) (fun _ => ?_))
    | split

theorem hintedPointNA_atMost (hr : Rep h hd xs) (position : Id) :
    (hintedPointNA key n h hd k position).AtMost (2 * Nat.log2 (xs.length + 1) + 2) := by
  have hN := linkPointNA_atMost (key := key) (n := n) (k := k) hr
  have hL := lowerLinkPointA_atMost (key := key) (n := n) (k := k) hr
  simp only [hintedPointNA, pure_def, bind_def]
  repeat' first
    | exact AtMost.done _
    | exact hN.mono (by omega)
    | exact hL.mono (by omega)
    | (rw [show ∀ m, m + 2 = 1 + (m + 1) from fun m => by omega]; refine AtMost.bind (a := 1) (ask1 _) (fun _ => ?_))
    | (rw [show ∀ m, m + 1 = 1 + (m + 0) from fun m => by omega]; refine AtMost.bind (a := 1) (ask1 _) (fun _ => ?_))
    | split

theorem inPlaceUA_atMost (x : Id) : (inPlaceUA key n h hd k x).AtMost 2 := by
  simp only [inPlaceUA, pure_def, bind_def]
  refine AtMost.bind' (a := 1) (b := 1) ?_ (fun r => ?_) (by omega)
  · split
    · split
      · exact AtMost.done _
      · exact AtMost.bind' (ask1 _) (b := 0) (fun _ => AtMost.done _) (by omega)
    · exact AtMost.done _
  · split
    · exact AtMost.done _
    · exact AtMost.done _
    · split
      · exact AtMost.done _
      · split
        · exact AtMost.done _
        · exact AtMost.bind' (ask1 _) (b := 0) (fun _ => AtMost.done _) (by omega)

theorem inPlaceNA_atMost (x : Id) : (inPlaceNA key n h hd k x).AtMost 2 := by
  simp only [inPlaceNA, pure_def, bind_def]
  refine AtMost.bind' (a := 1) (b := 1) ?_ (fun r => ?_) (by omega)
  · split
    · split
      · exact AtMost.done _
      · exact AtMost.bind' (ask1 _) (b := 0) (fun _ => AtMost.done _) (by omega)
    · exact AtMost.done _
  · split
    · exact AtMost.done _
    · exact AtMost.done _
    · split
      · exact AtMost.done _
      · split
        · exact AtMost.done _
        · exact AtMost.bind' (ask1 _) (b := 0) (fun _ => AtMost.done _) (by omega)

end Points
end Ord
end MI
