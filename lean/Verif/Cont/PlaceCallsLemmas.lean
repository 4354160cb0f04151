import Verif.Cont.PlaceCalls
import Verif.Cont.PlaceLemmas
import Verif.Cont.CallsLemmas
import Verif.Ord.AnyLookup
/-! Loading with explicit calls of comparison objects (helper lemmas). -/
set_option linter.unusedVariables false
namespace MI.Cont
open MI Runs
variable {V : Type} {fate : Nat → UserCall V → Option Bool} {ans : UserCall V → Bool}

/-! ## Honest answers -/

theorem Asks_run_bind {Q α β : Type} (f : Q → Bool) (g : α → Asks Q β) : ∀ c : Asks Q α, (c >>= g).run f = (g (c.run f)).run f
  | .done _ => rfl
  | .call q k => Asks_run_bind f g (k (f q))

theorem ordTargetA_run {n : Nat} {hd x : Id} {val : Id → V} {h : Ord.Heap} {lt : V → V → Bool} (p : Option Id) :
    ordPut n hd h x ((ordTargetA n hd val h x p).run (Ord.Cmp.ans lt lt)) = ordRearranger n hd val lt h p x := by
  have lb : ((do match ← Ord.lowerBoundA val n h hd (val x) with | none => return Out.hang | some p => return Out.ok p : Asks (Ord.Cmp V V) (Out Id)).run
      (Ord.Cmp.ans lt lt)) = (match Ord.lowerBound val lt n h hd (val x) with | none => Out.hang | some p => Out.ok p) := by
    rw [Asks_run_bind, Ord.lowerBoundA_run]
    cases Ord.lowerBound val lt n h hd (val x) <;> rfl
  cases p with
  | none =>
    simp only [ordTargetA, ordRearranger]
    erw [lb]
    cases Ord.lowerBound val lt n h hd (val x) <;> rfl
  | some p =>
    simp only [ordTargetA]
    rw [Asks_run_bind]
    change ordPut n hd h x (Asks.run _ (if lt (val p) (val x) = true then _ else _)) = _
    cases h1 : lt (val p) (val x) with
    | true =>
      simp only [if_true, ordRearranger, h1]
      erw [lb]
      cases Ord.lowerBound val lt n h hd (val x) <;> rfl
    | false =>
      simp only [Bool.false_eq_true, if_false]
      rw [Asks_run_bind]
      change ordPut n hd h x (Asks.run _ (if lt (val x) (val p) = true then _ else _)) = _
      cases h2 : lt (val x) (val p) with
      | true => simp only [if_true, ordRearranger, h1, h2]; rfl
      | false =>
        simp only [ordRearranger, h1, h2]
        cases Ord.increment h n p <;> rfl

theorem ordRearrangerR_sim {k n : Nat} {hd x : Id} {val : Id → V} {h : Ord.Heap} {lt : V → V → Bool} (hon : Honest ans fate) (ha : ∀ a b, ans (.less k a b) = lt a b)
    (p : Option Id) : Sim fate (ordRearrangerR k n hd val h p x) (· = ordRearranger n hd val lt h p x) (· = .threw h) := by
  have e : (fun q => ans (UserCall.ofSearch k q)) = Ord.Cmp.ans lt lt := by
    funext q
    cases q <;> exact ha _ _
  unfold ordRearrangerR
  refine Sim.bind (Sim.attempt hon _ _) ?_ ?_
  · rintro _ rfl
    rw [e]
    exact Sim.done (ordTargetA_run p)
  · rintro _ rfl
    exact Sim.done rfl

theorem ordPlaceR_sim {k n : Nat} {hd : Id} {val : Id → V} {lt : V → V → Bool} (hon : Honest ans fate) (ha : ∀ a b, ans (.less k a b) = lt a b) :
    ∀ (ins : List (Option Id × Id)) (h : Ord.Heap), Sim fate (ordPlaceR k n hd val h ins) (· = ordPlace n hd val lt h ins)
      (fun r => ∃ m h', m < ins.length ∧ ordPlace n hd val lt h (ins.take m) = .ok h' ∧ r = .threw h')
  | [], h => Sim.done rfl
  | (p, x) :: ins, h => by
    unfold ordPlaceR
    refine Sim.bind (ordRearrangerR_sim hon ha p) ?_ ?_
    · rintro _ rfl
      simp only [ordPlace]
      cases hr : ordRearranger n hd val lt h p x with
      | ok h1 =>
        refine (ordPlaceR_sim hon ha ins h1).mono (fun _ => id) ?_
        rintro r ⟨m, h', hm, k1, k2⟩
        exact ⟨m + 1, h', by simpa using hm, by simp only [List.take_succ_cons, ordPlace, hr, k1], k2⟩
      | threw h1 => exact Sim.done rfl
      | ub => exact Sim.done rfl
      | hang => exact Sim.done rfl
    · rintro _ rfl
      exact Sim.done ⟨0, h, by simp, rfl, rfl⟩

/-! ## Arbitrary answers -/

/-- Taking out an element and putting it back before any other position. -/
theorem ordPut_any {n : Nat} {hd x : Id} {h : Ord.Heap} {u v : List Id} (hr : Ord.Rep h hd (u ++ v)) (hx : x ∈ u ++ v) (hn : (u ++ v).length + 3 ≤ n) :
    ∃ h' xs', ordPut n hd h x (.ok (hdOr hd v)) = .ok h' ∧ Ord.Rep h' hd xs' ∧ xs'.Perm (u ++ v) := by
  by_cases e : hdOr hd v = x
  · exact ⟨h, u ++ v, by simp only [ordPut, e]; simp, hr, .refl _⟩
  · rcases List.mem_append.1 hx with hu | hv
    · obtain ⟨a, b, rfl⟩ := List.append_of_mem hu
      obtain ⟨h1, h2, k1, k2, k3⟩ := ord_move (u := a) (v := b ++ v) (s := a ++ b) (t := v) (n := n) (x := x) (by simpa using hr) (by simp) (by simpa using hn)
      refine ⟨h2, _, by simp only [ordPut, ne_eq, e, not_false_eq_true, if_true, k1, k2], k3, ?_⟩
      simp only [List.append_assoc, List.cons_append]
      refine List.Perm.append_left _ ?_
      exact List.perm_middle
    · obtain ⟨a, b, rfl⟩ := List.append_of_mem hv
      cases a with
      | nil => exact absurd rfl e
      | cons y a =>
        obtain ⟨h1, h2, k1, k2, k3⟩ := ord_move (u := u ++ y :: a) (v := b) (s := u) (t := y :: a ++ b) (n := n) (x := x) (by simpa using hr) (by simp) (by simpa using hn)
        have e' : y ≠ x := e
        have e1 : hdOr hd (y :: a ++ b) = y := rfl
        have e2 : hdOr hd (y :: a ++ x :: b) = y := rfl
        rw [e1] at k2
        refine ⟨h2, _, by simp only [ordPut, e2, ne_eq, e', not_false_eq_true, if_true, k1, k2], k3, ?_⟩
        refine List.Perm.append_left _ ?_
        exact List.perm_middle.symm

theorem ordTargetA_any {n : Nat} {hd x : Id} {val : Id → V} {h : Ord.Heap} {xs : List Id} {p : Option Id} (hr : Ord.Rep h hd xs) (hp : ∀ q ∈ p, q ∈ xs) (hn : xs.length + 3 ≤ n) :
    (ordTargetA n hd val h x p).Always fun r => (∃ q, r = .threw q) ∨ ∃ u v, xs = u ++ v ∧ r = .ok (hdOr hd v) := by
  have lb : (do match ← Ord.lowerBoundA val n h hd (val x) with | none => return Out.hang | some p => return Out.ok p : Asks (Ord.Cmp V V) (Out Id)).Always
      fun r => (∃ q, r = .threw q) ∨ ∃ u v, xs = u ++ v ∧ r = .ok (hdOr hd v) := by
    refine (Ord.boundA_any _ hr hn).then ?_
    rintro _ ⟨u, v, e, rfl⟩
    exact Or.inr ⟨u, v, e, rfl⟩
  cases p with
  | none => exact lb
  | some q =>
    refine Asks.Always.any _ fun b => ?_
    cases b with
    | true => exact lb
    | false =>
      refine Asks.Always.any _ fun b => ?_
      cases b with
      | true => exact Or.inl ⟨_, rfl⟩
      | false =>
        obtain ⟨a, b, rfl⟩ := List.append_of_mem (hp q rfl)
        have := Ord.increment_spec hr hn
        simp only [Bool.false_eq_true, if_false, this]
        exact Or.inr ⟨a ++ [q], b, by simp, rfl⟩

theorem ordPlaceR_any {k n : Nat} {hd : Id} {val : Id → V} : ∀ (ins : List (Option Id × Id)) {h : Ord.Heap} {xs : List Id}, Ord.Rep h hd xs →
    (∀ i ∈ ins, i.2 ∈ xs ∧ ∀ q ∈ i.1, q ∈ xs) → xs.length + 3 ≤ n →
    (ordPlaceR k n hd val h ins).Always fun r => ∃ h' xs', Ord.Rep h' hd xs' ∧ xs'.Perm xs ∧ (r = .ok h' ∨ r = .threw h')
  | [], h, xs, hr, _, _ => ⟨h, xs, hr, .refl _, Or.inl rfl⟩
  | (p, x) :: ins, h, xs, hr, hi, hn => by
    obtain ⟨hx, hp⟩ := hi (p, x) (by simp)
    unfold ordPlaceR ordRearrangerR
    refine Runs.Always.then (P := fun r => r = .threw h ∨ ∃ h' xs', r = .ok h' ∧ Ord.Rep h' hd xs' ∧ xs'.Perm xs) ?_ ?_
    · refine Runs.Always.then (Runs.Always.attempt _ (ordTargetA_any hr hp hn)) ?_
      rintro _ (rfl | ⟨_, rfl, ⟨q, rfl⟩ | ⟨u, v, rfl, rfl⟩⟩)
      · exact Or.inl rfl
      · exact Or.inl rfl
      · exact Or.inr (ordPut_any hr hx hn)
    · rintro _ (rfl | ⟨h', xs', rfl, k1, k2⟩)
      · exact ⟨h, xs, hr, .refl _, Or.inr rfl⟩
      · exact (ordPlaceR_any ins k1 (fun i hii => ⟨k2.mem_iff.2 (hi i (by simp [hii])).1, fun q hq => k2.mem_iff.2 ((hi i (by simp [hii])).2 q hq)⟩)
          (by rw [k2.length_eq]; exact hn)).mono fun r ⟨h2, xs2, j1, j2, j3⟩ => ⟨h2, xs2, j1, j2.trans k2, j3⟩

/-! ## Programs -/

theorem placeR_sim {w : World V} {i k : Nat} {fail : Bool} {ins : List (Option Id × Id)} (l : w.Legal (.place i k fail ins)) (hon : Honest (w.answers i) fate) :
    Sim fate (w.placeR i k fail ins) (· = w.step (.place i k fail ins))
      (fun out => ∃ m w1 ret, m < ins.length ∧ w.step (.place i k fail (ins.take m)) = .ok (w1, ret) ∧ out = .threw (w1, ret)) := by
  obtain ⟨c, L, hi, hL, -⟩ := l
  have plain : (∀ lt h, L ≠ .ord false lt h) → w.placeR i k fail ins = .done (w.step (.place i k fail ins)) := by
    intro h
    have e : L.placeR k c.budget c.hd w.m.val fail ins = .done (L.place c.budget c.hd w.m.val fail ins) := by
      cases L with
      | ord u lt t => cases u with
        | true => rfl
        | false => exact absurd rfl (h lt t)
      | _ => rfl
    simp only [World.placeR, hi, hL, e, World.step, Runs.bind_def, Runs.pure_def, Runs.bind_done]
    cases L.place c.budget c.hd w.m.val fail ins <;> rfl
  by_cases h : ∃ lt t, L = .ord false lt t
  · obtain ⟨lt, t, rfl⟩ := h
    have ha : ∀ a b, w.answers i (.less k a b) = lt a b := by
      intro a b
      simp only [World.answers, hi, hL, Option.bind_some, Option.map_some, Layer.spec]
    simp only [World.placeR, hi, hL, Layer.placeR, Runs.bind_def, Runs.pure_def]
    refine Sim.bind (Sim.bind (ordPlaceR_sim hon ha ins t) (P' := (· = (Layer.ord false lt t).place c.budget c.hd w.m.val fail ins))
      (R' := fun r => ∃ m h', m < ins.length ∧ ordPlace c.budget c.hd w.m.val lt t (ins.take m) = .ok h' ∧ r = .threw (.ord false lt h')) ?_ ?_) ?_ ?_
    · rintro _ rfl
      refine Sim.done ?_
      simp only [Layer.place]
      cases ordPlace c.budget c.hd w.m.val lt t ins <;> rfl
    · rintro _ ⟨m, h', k1, k2, rfl⟩
      exact Sim.done ⟨m, h', k1, k2, rfl⟩
    · rintro _ rfl
      refine Sim.done ?_
      simp only [World.step, hi, hL]
      cases (Layer.ord false lt t).place c.budget c.hd w.m.val fail ins <;> rfl
    · rintro _ ⟨m, h', k1, k2, rfl⟩
      exact Sim.done ⟨m, _, _, k1, by simp only [World.step, hi, hL, Layer.place, k2], rfl⟩
  · rw [plain fun lt t e => h ⟨lt, t, e⟩]
    exact Sim.done rfl

end MI.Cont
