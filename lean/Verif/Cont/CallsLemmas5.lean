import Verif.Cont.CallsLemmas4
import Verif.Props.HashCosts
/-!
Numbers of calls.
-/
set_option linter.unusedVariables false
namespace MI
namespace Runs
variable {Q Q' α β : Type} {p : Q → Bool}

/-- Whatever the outcomes of the calls: at most `b` calls are in `p`, and the result satisfies `P`. -/
def Cost (p : Q → Bool) (b : Nat) (P : α → Prop) (m : Runs Q α) : Prop :=
  ∀ fate t, (m.exec fate t).2.countP (fun a => p a.1) ≤ b ∧ P (m.exec fate t).1

theorem Cost.done {b : Nat} {P : α → Prop} {a : α} (h : P a) : Cost p b P (done a) := fun _ _ => ⟨Nat.zero_le _, h⟩

theorem Cost.mono {b b' : Nat} {P P' : α → Prop} {m : Runs Q α} (h : Cost p b P m) (hb : b ≤ b') (hP : ∀ a, P a → P' a) : Cost p b' P' m :=
  fun f t => ⟨Nat.le_trans (h f t).1 hb, hP _ (h f t).2⟩

theorem Cost.bind {b b1 b2 : Nat} {P : α → Prop} {P' : β → Prop} {m : Runs Q α} {f : α → Runs Q β} (h : Cost p b1 P m) (h' : ∀ a, P a → Cost p b2 P' (f a))
    (hb : b1 + b2 ≤ b) : Cost p b P' (m.bind f) := by
  intro fate t
  rw [exec_bind]
  dsimp only
  rw [List.countP_append]
  obtain ⟨k1, k2⟩ := h fate t
  obtain ⟨j1, j2⟩ := h' _ k2 fate (t + (m.exec fate t).2.length)
  exact ⟨by omega, j2⟩

theorem Cost.attempt (q : Q' → Q) : ∀ (c : Asks Q' α) {n : Nat}, c.AtMost n → Cost p n (fun _ => True) (Runs.attempt q c)
  | .done a, n, h => Cost.done trivial
  | .call r k, 0, h => h.elim
  | .call r k, n + 1, h => by
    intro fate t
    simp only [Runs.attempt, exec]
    refine ⟨?_, trivial⟩
    cases fate t (q r) with
    | none =>
      dsimp only
      rw [List.countP_cons]
      simp only [List.countP_nil]
      split <;> omega
    | some b =>
      have := (Cost.attempt q (k b) (h b) fate (t + 1)).1
      dsimp only
      rw [List.countP_cons]
      split <;> omega

theorem Cost.attempt_none (q : Q' → Q) (hq : ∀ r, p (q r) = false) : ∀ (c : Asks Q' α), Cost p 0 (fun _ => True) (Runs.attempt q c)
  | .done a => Cost.done trivial
  | .call r k => by
    intro fate t
    simp only [Runs.attempt, exec]
    refine ⟨?_, trivial⟩
    cases fate t (q r) with
    | none => simp [hq]
    | some b =>
      have := (Cost.attempt_none q hq (k b) fate (t + 1)).1
      simp only [List.countP_cons, hq, Bool.false_eq_true, if_false]
      omega

end Runs

section
variable {eq : Id → Id → Bool}

theorem distinct_perm (sy : ∀ {x y}, eq x y = true → eq y x = true) (tr : ∀ {x y z}, eq x y = true → eq y z = true → eq x z = true) {l m : List Id} (h : l.Perm m) :
    distinct eq l = distinct eq m := by
  induction h with
  | nil => rfl
  | cons x h ih => simp only [distinct, ih, h.any_eq]
  | trans _ _ a b => exact a.trans b
  | swap x y l =>
    have any : eq x y = true → l.any (eq x) = l.any (eq y) := by
      intro e
      rw [Bool.eq_iff_iff, List.any_eq_true, List.any_eq_true]
      exact ⟨fun ⟨z, h1, h2⟩ => ⟨z, h1, tr (sy e) h2⟩, fun ⟨z, h1, h2⟩ => ⟨z, h1, tr e h2⟩⟩
    have e2 : eq y x = eq x y := by rw [Bool.eq_iff_iff]; exact ⟨sy, sy⟩
    have h1 : (x :: l).any (eq y) = (eq x y || l.any (eq y)) := by rw [List.any_cons, e2]
    have h2 : (y :: l).any (eq x) = (eq x y || l.any (eq x)) := List.any_cons
    have d : ∀ (z : Id) (m : List Id), distinct eq (z :: m) = (if m.any (eq z) = true then 0 else 1) + distinct eq m := fun _ _ => rfl
    rw [d, d, d, d, h1, h2]
    rcases Bool.eq_false_or_eq_true (eq x y) with e | e
    · have := any e
      rw [this, e]
    · rw [e]
      simp only [Bool.false_or]
      omega

theorem distinct_erase (sy : ∀ {x y}, eq x y = true → eq y x = true) (tr : ∀ {x y z}, eq x y = true → eq y z = true → eq x z = true) {l : List Id} {x : Id} :
    distinct eq (l.erase x) ≤ distinct eq l := by
  by_cases h : x ∈ l
  · rw [distinct_perm (eq := eq) sy tr (List.perm_cons_erase h)]
    simp only [distinct]
    exact Nat.le_add_left _ _
  · rw [List.erase_of_not_mem h]

theorem distinct_congr {eq' : Id → Id → Bool} : ∀ {l : List Id}, (∀ x ∈ l, ∀ y ∈ l, eq' x y = eq x y) → distinct eq' l = distinct eq l
  | [], _ => rfl
  | x :: l, h => by
    have ih := distinct_congr (l := l) fun a ha b hb => h a (by simp [ha]) b (by simp [hb])
    have : l.any (eq' x) = l.any (eq x) := by
      rw [Bool.eq_iff_iff, List.any_eq_true, List.any_eq_true]
      exact exists_congr fun z => and_congr_right fun hz => by rw [h x (by simp) z (by simp [hz])]
    simp only [distinct, ih, this]

end

namespace Cont
open MI Runs Container
variable {V : Type} {κ : CallKind} {k j n : Nat} {hd x : Id} {val val' : Id → V} {xs els pool : List Id}

theorem is_other (q : UserCall V) (h : k ≠ q.index) : q.is κ k = false := by
  cases q <;> simp_all [UserCall.is, UserCall.index]

theorem note_cost (q : UserCall V) : Cost (UserCall.is κ k) (if q.is κ k then 1 else 0) (fun _ => True) (note q) := by
  intro fate t
  refine ⟨?_, trivial⟩
  simp only [note, exec]
  cases fate t q <;> simp [exec, List.countP_cons]

theorem noteIf_cost (b : Bool) (q : UserCall V) : Cost (UserCall.is κ k) (if b && q.is κ k then 1 else 0) (fun _ => True) (noteIf b q) := by
  cases b
  · exact Cost.done trivial
  · exact (note_cost q).mono (by simp) fun _ h => h

theorem hashCalls_cost : ∀ (m i : Nat), Cost (UserCall.is (V := V) κ k) (if κ = .hash ∧ k = j then m else 0) (fun _ => True) (hashCalls j m i)
  | 0, i => Cost.done trivial
  | m + 1, i => by
    intro fate t
    refine ⟨?_, trivial⟩
    have ih := fun fate t => (hashCalls_cost m (i + 1) fate t).1
    have e : UserCall.is κ k (.hash j : UserCall V) = decide (κ = .hash ∧ k = j) := by
      rw [Bool.eq_iff_iff]
      simp only [UserCall.is, Bool.and_eq_true, beq_iff_eq, decide_eq_true_eq]
    simp only [hashCalls, exec]
    cases fate t (.hash j) with
    | none =>
      simp only [exec, List.countP_cons, List.countP_nil, e, decide_eq_true_eq]
      split <;> omega
    | some b =>
      simp only [List.countP_cons, e, decide_eq_true_eq]
      have := ih fate (t + 1)
      by_cases h : κ = .hash ∧ k = j
      · rw [if_pos h] at this ⊢
        rw [if_pos h]
        omega
      · rw [if_neg h] at this ⊢
        rw [if_neg h]
        omega

/-- The number of keys. -/
abbrev keys (eq : V → V → Bool) (val : Id → V) (els : List Id) : Nat := distinct (fun x y => eq (val x) (val y)) els

/-- Calls made while room is made for an element. -/
def roomCost (val : Id → V) (els : List Id) (κ : CallKind) : Layer V → Nat
  | .hash _ eq _ _ ml _ _ => if κ = .hash ∧ els.length + 1 > ml then min els.length (2 * keys eq val els) else 0
  | _ => 0

/-- Calls made by the search for the place of an element among `els`. -/
def placeCost (val : Id → V) (els : List Id) (hashed hinted : Bool) (κ : CallKind) : Spec V → Nat
  | .ord u _ =>
    match κ with
    | .less => 2 * Nat.log2 (els.length + 1) + (if u then 1 else 0) + (if hinted then 2 else 0)
    | .key => 1
    | _ => 0
  | .hash c eq _ =>
    match κ with
    | .same => 2 * keys eq val els + (if c = .uniq then 0 else 1)
    | .hash => if hashed then 1 else 0
    | _ => 0
  | _ => 0

/-- Calls made by the check whether an element may stay. -/
def stayCost (val : Id → V) (els : List Id) (κ : CallKind) : Spec V → Nat
  | .ord _ _ => if κ = .less then 2 else 0
  | .hash _ eq _ =>
    match κ with
    | .same => 2 * keys eq val els
    | .hash => 1
    | _ => 0
  | _ => 0

theorem keys_perm {eq : V → V → Bool} {hf : V → Nat} (ok : EqHash eq hf) {els els' : List Id} (h : els.Perm els') : keys eq val els = keys eq val els' :=
  distinct_perm (eq := fun x y => eq (val x) (val y)) (fun a => ok.symm a) (fun a b => ok.trans a b) h

namespace Layer

theorem reserve_cost {L : Layer V} {size : Nat} {e : Env} (ok : L.spec.Ok) (w : L.Holds val hd xs) (hp : xs.Perm els) (hs : size = xs.length) (le : L.EnvOk hd size pool e)
    (sub : ∀ z ∈ xs, z ∈ pool) (av : ∀ z ∈ pool, L.Avoids z) :
    Cost (UserCall.is κ k) (if k = j then roomCost val els κ L else 0)
      (fun r => ∀ L1, r = .ok L1 → L1.spec = L.spec ∧ (∃ xs', L1.Holds val hd xs' ∧ xs'.Perm xs)) (L.reserveR j hd val size e) := by
  have post : ∀ e' : Env, e.Like e' → ∀ L1, L.reserve hd val size e' = .ok L1 → L1.spec = L.spec ∧ (∃ xs', L1.Holds val hd xs' ∧ xs'.Perm xs) := by
    intro e' l L1 h1
    have le' : L.EnvOk hd size pool e' := by
      obtain ⟨-, l2, -, l4⟩ := l
      cases L with
      | hash c eq hf pol ml hp a => simpa only [Layer.EnvOk, l2, l4] using le
      | ord => trivial
      | seq => trivial
      | rnd => trivial
    obtain ⟨L2, k1, k2, -, xs', k3, k4⟩ := Layer.reserve_spec (e := e') ok w hs le' sub av
    rcases k1 with ⟨k1, -⟩ | ⟨k1, -⟩
    · rw [h1] at k1
      cases k1
      exact ⟨k2, xs', k3, Same.perm k4⟩
    · rw [h1] at k1
      exact nomatch k1
  cases L with
  | ord u lt h => exact Cost.done (post e ⟨rfl, rfl, rfl, rfl⟩)
  | seq h => exact Cost.done (post e ⟨rfl, rfl, rfl, rfl⟩)
  | rnd s => exact Cost.done (post e ⟨rfl, rfl, rfl, rfl⟩)
  | hash c eq hf pol ml h a =>
    simp only [reserveR, Runs.pure_def, Runs.bind_def]
    by_cases q : size + 1 > ml ∧ e.allocFail = false
    · rw [if_pos q]
      have m : Hash.rehashCalls c (fun x => hf (val x)) size none h ⟨e.base, Hash.sizeFor Hash.sizes (pol.grow (size + 1))⟩ hd e.cpy ≤ min els.length (2 * keys eq val els) := by
        have nm : Hash.NewMem a ⟨e.base, Hash.sizeFor Hash.sizes (pol.grow (size + 1))⟩ hd e.cpy xs := by
          obtain ⟨b0, c0, cn, co, cna, xn, ar⟩ := le
          exact ⟨b0, c0, fun q => cn (by simp only [List.mem_cons] at q ⊢; exact q.imp id (sub _)), co, cna,
            fun z hz => xn z (by simp only [List.mem_cons] at hz ⊢; exact hz.imp id (sub _)), ar⟩
        obtain ⟨m, -, k1, k3, -, k2, -⟩ := Hash.C66_rehash (key := val) ok w.2 (Hash.sizeFor_pos (pol.grow (size + 1))) nm
        rw [hs] at k2 ⊢
        rw [k2, ← hp.length_eq, ← keys_perm ok hp]
        exact Nat.le_min.2 ⟨k1, k3⟩
      refine Cost.bind (hashCalls_cost _ 0) (b2 := 0) (fun t _ => Cost.done (post _ ⟨rfl, rfl, rfl, rfl⟩)) ?_
      simp only [roomCost]
      by_cases h1 : κ = .hash ∧ k = j
      · rw [if_pos h1, if_pos h1.2, if_pos ⟨h1.1, by rw [← hp.length_eq, ← hs]; exact q.1⟩]
        exact m
      · rw [if_neg h1]
        exact Nat.zero_le _
    · rw [if_neg q]
      exact Cost.done (post e ⟨rfl, rfl, rfl, rfl⟩)

theorem point_cost {L : Layer V} {hashed : Bool} {hint : Option Id} (ok : L.spec.Ok) (w : L.Holds val hd xs) (hp : xs.Perm els) :
    Cost (UserCall.is κ k) (if k = j then placeCost val els hashed hint.isSome κ L.spec else 0) (fun _ => True) (L.pointR j n hd val hashed hint x) := by
  cases L with
  | seq h => exact Cost.done trivial
  | rnd s => exact Cost.done trivial
  | ord u lt h =>
    simp only [pointR, Runs.pure_def, Runs.bind_def]
    have am : (ordPointA u n hd val hint (val x) h).AtMost (2 * Nat.log2 (els.length + 1) + (if u then 1 else 0) + (if hint.isSome then 2 else 0)) := by
      rw [← hp.length_eq]
      cases u <;> cases hint
      · exact Ord.linkPointNA_atMost w.1
      · exact Ord.hintedPointNA_atMost w.1 _
      · exact Ord.linkPointUA_atMost w.1
      · exact Ord.hintedPointUA_atMost w.1 _
    have c2 : Cost (UserCall.is κ k) (if κ = .less ∧ k = j then 2 * Nat.log2 (els.length + 1) + (if u then 1 else 0) + (if hint.isSome then 2 else 0) else 0) (fun _ => True)
        (Runs.attempt (UserCall.ofCmp j) (ordPointA u n hd val hint (val x) h)) := by
      by_cases h1 : κ = .less ∧ k = j
      · rw [if_pos h1]
        exact Cost.attempt _ _ am
      · rw [if_neg h1]
        refine Cost.attempt_none _ (fun r => ?_) _
        simp only [UserCall.ofCmp, UserCall.is]
        simpa using h1
    refine Cost.bind (note_cost _) (b2 := if κ = .less ∧ k = j then 2 * Nat.log2 (els.length + 1) + (if u then 1 else 0) + (if hint.isSome then 2 else 0) else 0) ?_ ?_
    · intro b _
      cases b with
      | false => exact Cost.done trivial
      | true =>
        refine Cost.bind c2 (b2 := 0) ?_ (Nat.le_refl _)
        intro o _
        rcases o with _ | _ | _ | _ <;> exact Cost.done trivial
    · simp only [UserCall.is, Layer.spec, placeCost]
      by_cases hk : k = j
      · subst hk
        cases κ <;> simp
      · simp [hk]
  | hash c eq hf pol ml h a =>
    simp only [pointR, Runs.pure_def, Runs.bind_def]
    have am : (Hash.linkPointA n c (Hash.isSame V val) (Hash.isFound val (val x)) (hf (val x)) h a).AtMost (2 * keys eq val els + (if c = .uniq then 0 else 1)) := by
      refine ((Hash.C66_insert (eqK := eq) (key := val) w.2 (val x) (hf (val x))).2.2).mono ?_
      have := Hash.C66_worst_case (key := val) ok a xs (hf (val x))
      rw [← keys_perm ok hp]
      exact Nat.add_le_add_right this _
    have c2 : Cost (UserCall.is κ k) (if κ = .same ∧ k = j then 2 * keys eq val els + (if c = .uniq then 0 else 1) else 0) (fun _ => True)
        (Runs.attempt (UserCall.ofEq j) (Hash.linkPointA n c (Hash.isSame V val) (Hash.isFound val (val x)) (hf (val x)) h a)) := by
      by_cases h1 : κ = .same ∧ k = j
      · rw [if_pos h1]
        exact Cost.attempt _ _ am
      · rw [if_neg h1]
        refine Cost.attempt_none _ (fun r => ?_) _
        cases r <;> simp only [UserCall.ofEq, UserCall.is] <;> simpa using h1
    refine Cost.bind (noteIf_cost _ _) (b2 := if κ = .same ∧ k = j then 2 * keys eq val els + (if c = .uniq then 0 else 1) else 0) ?_ ?_
    · intro b _
      cases b with
      | false => exact Cost.done trivial
      | true =>
        refine Cost.bind c2 (b2 := 0) ?_ (Nat.le_refl _)
        intro o _
        rcases o with _ | (_ | _) | _ | _ | _ <;> exact Cost.done trivial
    · simp only [UserCall.is, Layer.spec, placeCost]
      by_cases hk : k = j
      · subst hk
        cases κ <;> simp
      · simp [hk]

/-- `val'` is how the values are at the time, `val` how they were when the elements were put in their places. -/
theorem inPlace_cost {L : Layer V} (ok : L.spec.Ok) (w : L.Holds val hd xs) (hp : xs.Perm els) :
    Cost (UserCall.is κ k) (if k = j then stayCost val els κ L.spec else 0) (fun _ => True) (L.inPlaceR j n hd val' x) := by
  cases L with
  | seq h => exact Cost.done trivial
  | rnd s => exact Cost.done trivial
  | ord u lt h =>
    simp only [inPlaceR, Runs.pure_def, Runs.bind_def]
    have am : (if u = true then Ord.inPlaceUA val' n h hd (val' x) x else Ord.inPlaceNA val' n h hd (val' x) x).AtMost 2 := by
      cases u
      · exact Ord.inPlaceNA_atMost x
      · exact Ord.inPlaceUA_atMost x
    have c2 : Cost (UserCall.is κ k) (if κ = .less ∧ k = j then 2 else 0) (fun _ => True)
        (Runs.attempt (UserCall.ofCmp j) (if u = true then Ord.inPlaceUA val' n h hd (val' x) x else Ord.inPlaceNA val' n h hd (val' x) x)) := by
      by_cases h1 : κ = .less ∧ k = j
      · rw [if_pos h1]
        exact Cost.attempt _ _ am
      · rw [if_neg h1]
        refine Cost.attempt_none _ (fun r => ?_) _
        simp only [UserCall.ofCmp, UserCall.is]
        simpa using h1
    refine Cost.bind c2 (b2 := 0) ?_ ?_
    · intro o _
      rcases o with _ | _ | _ <;> exact Cost.done trivial
    · simp only [Layer.spec, stayCost]
      by_cases hk : k = j
      · subst hk
        cases κ <;> simp
      · simp [hk]
  | hash c eq hf pol ml h a =>
    simp only [inPlaceR, Runs.pure_def, Runs.bind_def]
    have am : (Hash.inPlaceA n c (Hash.isFound val' (val' x)) (hf (val' x)) h a x).AtMost (2 * keys eq val els) := by
      refine ((Hash.C66_modify (eqK := eq) (key := val) w.2 (eqK' := eq) (key' := val') (val' x) x (hf (val' x))).2.2).mono ?_
      rw [← keys_perm ok hp]
      exact Hash.C66_worst_case (key := val) ok a xs (hf (val' x))
    have c2 : Cost (UserCall.is κ k) (if κ = .same ∧ k = j then 2 * keys eq val els else 0) (fun _ => True)
        (Runs.attempt (UserCall.ofEq j) (Hash.inPlaceA n c (Hash.isFound val' (val' x)) (hf (val' x)) h a x)) := by
      by_cases h1 : κ = .same ∧ k = j
      · rw [if_pos h1]
        exact Cost.attempt _ _ am
      · rw [if_neg h1]
        refine Cost.attempt_none _ (fun r => ?_) _
        cases r <;> simp only [UserCall.ofEq, UserCall.is] <;> simpa using h1
    refine Cost.bind (note_cost _) (b2 := if κ = .same ∧ k = j then 2 * keys eq val els else 0) ?_ ?_
    · intro b _
      cases b with
      | false => exact Cost.done trivial
      | true =>
        refine Cost.bind c2 (b2 := 0) ?_ (Nat.le_refl _)
        intro o _
        rcases o with _ | _ <;> exact Cost.done trivial
    · simp only [UserCall.is, Layer.spec, stayCost]
      by_cases hk : k = j
      · subst hk
        cases κ <;> simp
      · simp [hk]

end Layer
end Cont
end MI
