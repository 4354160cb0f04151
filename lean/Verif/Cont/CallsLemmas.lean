import Verif.Cont.Calls
import Verif.Cont.CascadeLemmas
import Verif.Ord.CallsLemmas
import Verif.Hash.CallsLemmas
/-!
Operations with explicit calls of user functions (`Verif/Cont/Calls.lean`) and those whose failures are given by the environment agree.
-/
set_option linter.unusedVariables false
namespace MI
namespace Runs
variable {Q Q' α β : Type} {fate : Nat → Q → Option Bool} {ans : Q → Bool}

@[simp] theorem pure_def (a : α) : (pure a : Runs Q α) = done a := rfl
@[simp] theorem bind_def (m : Runs Q α) (f : α → Runs Q β) : m >>= f = m.bind f := rfl
@[simp] theorem bind_done (a : α) (f : α → Runs Q β) : (done a : Runs Q α).bind f = f a := rfl

theorem exec_bind (f : α → Runs Q β) : ∀ (m : Runs Q α) (t : Nat), (m.bind f).exec fate t =
    (((f (m.exec fate t).1).exec fate (t + (m.exec fate t).2.length)).1,
      (m.exec fate t).2 ++ ((f (m.exec fate t).1).exec fate (t + (m.exec fate t).2.length)).2)
  | done a, t => by simp [bind, exec]
  | call q ok threw, t => by
    simp only [bind, exec]
    cases fate t q with
    | none => simp [exec_bind f threw (t + 1), Nat.add_comm, Nat.add_left_comm, Nat.add_assoc]
    | some b => simp [exec_bind f (ok b) (t + 1), Nat.add_comm, Nat.add_left_comm, Nat.add_assoc]

/-- Some call in the record threw. -/
def Threw (l : List (Q × Bool)) : Prop := ∃ p ∈ l, p.2 = true

theorem threw_nil : ¬ Threw ([] : List (Q × Bool)) := fun ⟨_, h, _⟩ => nomatch h
theorem threw_append {l m : List (Q × Bool)} : Threw (l ++ m) ↔ Threw l ∨ Threw m := by
  unfold Threw
  simp only [List.mem_append]
  constructor
  · rintro ⟨p, h | h, k⟩
    · exact Or.inl ⟨p, h, k⟩
    · exact Or.inr ⟨p, h, k⟩
  · rintro (⟨p, h, k⟩ | ⟨p, h, k⟩)
    · exact ⟨p, Or.inl h, k⟩
    · exact ⟨p, Or.inr h, k⟩
theorem threw_cons {p : Q × Bool} {l : List (Q × Bool)} : Threw (p :: l) ↔ p.2 = true ∨ Threw l := by
  unfold Threw
  simp

/-- Whatever the number of earlier calls: if no call throws the result satisfies `P`, otherwise `R`. -/
def Sim (fate : Nat → Q → Option Bool) (m : Runs Q α) (P R : α → Prop) : Prop :=
  ∀ t, (¬ Threw (m.exec fate t).2 ∧ P (m.exec fate t).1) ∨ (Threw (m.exec fate t).2 ∧ R (m.exec fate t).1)

theorem Sim.done {P R : α → Prop} {a : α} (h : P a) : Sim fate (done a) P R := fun _ => Or.inl ⟨threw_nil, h⟩

theorem Sim.bind {P R : α → Prop} {P' R' : β → Prop} {m : Runs Q α} {f : α → Runs Q β} (h : Sim fate m P R) (h1 : ∀ a, P a → Sim fate (f a) P' R')
    (h2 : ∀ a, R a → Sim fate (f a) R' R') : Sim fate (m.bind f) P' R' := by
  intro t
  rw [exec_bind]
  dsimp only
  rw [threw_append]
  rcases h t with ⟨k1, k2⟩ | ⟨k1, k2⟩
  · rcases h1 _ k2 (t + (m.exec fate t).2.length) with ⟨j1, j2⟩ | ⟨j1, j2⟩
    · exact Or.inl ⟨fun k => k.elim k1 j1, j2⟩
    · exact Or.inr ⟨Or.inr j1, j2⟩
  · rcases h2 _ k2 (t + (m.exec fate t).2.length) with ⟨j1, j2⟩ | ⟨j1, j2⟩ <;> exact Or.inr ⟨Or.inl k1, j2⟩

theorem Sim.mono {P R P' R' : α → Prop} {m : Runs Q α} (h : Sim fate m P R) (h1 : ∀ a, P a → P' a) (h2 : ∀ a, R a → R' a) : Sim fate m P' R' :=
  fun t => (h t).imp (fun k => ⟨k.1, h1 _ k.2⟩) (fun k => ⟨k.1, h2 _ k.2⟩)

theorem Sim.attempt (hon : Honest ans fate) (q : Q' → Q) : ∀ c : Asks Q' α,
    Sim fate (attempt q c) (· = some (c.run (fun p => ans (q p)))) (· = none)
  | .done a => Sim.done rfl
  | .call p k => by
    intro t
    simp only [Runs.attempt, exec, Asks.run]
    cases h : fate t (q p) with
    | none => exact Or.inr ⟨threw_cons.2 (Or.inl rfl), rfl⟩
    | some b =>
      dsimp only
      rw [threw_cons, ← hon t _ b h]
      rcases Sim.attempt hon q (k b) (t + 1) with ⟨j1, j2⟩ | ⟨j1, j2⟩
      · exact Or.inl ⟨fun k => k.elim (by simp) j1, j2⟩
      · exact Or.inr ⟨Or.inr j1, j2⟩

end Runs

namespace Cont
variable {V : Type} {fate : Nat → UserCall V → Option Bool} {ans : UserCall V → Bool}
open Runs

/-- The functions of index `k` answer as the specifier says. -/
def Spec.Answers (ans : UserCall V → Bool) (k : Nat) : Spec V → Prop
  | .ord _ lt => ∀ a b, ans (.less k a b) = lt a b
  | .hash _ eq _ => ∀ a b, ans (.same k a b) = eq a b
  | _ => True

theorem Env.like_calm (e : Env) : e.Like e.calm := ⟨rfl, rfl, rfl, rfl⟩

theorem sim_note (q : UserCall V) : Sim fate (note q) (· = true) (· = false) := by
  intro t
  simp only [note, exec]
  cases fate t q with
  | none => exact Or.inr ⟨threw_cons.2 (Or.inl rfl), rfl⟩
  | some b => exact Or.inl ⟨fun k => (threw_cons.1 k).elim (by simp) threw_nil, rfl⟩

theorem sim_hashCalls (k : Nat) : ∀ (m j : Nat), Sim fate (hashCalls k m j) (· = none) (fun r => ∃ i, i < m ∧ r = some (j + i))
  | 0, j => Sim.done rfl
  | m + 1, j => by
    intro t
    simp only [hashCalls, exec]
    cases h : fate t (.hash k) with
    | none => exact Or.inr ⟨threw_cons.2 (Or.inl rfl), 0, by omega, rfl⟩
    | some b =>
      dsimp only
      rw [threw_cons]
      rcases sim_hashCalls k m (j + 1) (t + 1) with ⟨j1, j2⟩ | ⟨j1, i, j2, j3⟩
      · exact Or.inl ⟨fun k => k.elim (by simp) j1, j2⟩
      · exact Or.inr ⟨Or.inr j1, i + 1, by omega, by rw [j3]; congr 1; omega⟩

namespace Layer

theorem reserve_calm (hd : Id) (val : Id → V) (size : Nat) (e : Env) (t : Option Nat) (L : Layer V) :
    L.reserve hd val size { e with hashThrow := t } = L.reserve hd val size { e.calm with hashThrow := t } := by
  cases L <;> rfl

theorem reserve_other {e : Env} {e' : Env} (l : e.Like e') (h : e'.hashThrow = e.hashThrow) (hd : Id) (val : Id → V) (size : Nat) (L : Layer V) :
    L.reserve hd val size e' = L.reserve hd val size e := by
  obtain ⟨l1, l2, l3, l4⟩ := l
  cases L <;> simp only [reserve, l1, l2, l3, l4, h]

/-- The throwing hash call of a rehash is noticed. -/
theorem reserve_threw {val : Id → V} {hd : Id} {xs pool : List Id} {size : Nat} {e : Env} {c : Hash.Cat} {eq : V → V → Bool} {hf : V → Nat} {pol : Pol}
    {ml : Nat} {h : Hash.Heap} {a : Hash.Arr} (ok : EqHash eq hf) (w : (Layer.hash c eq hf pol ml h a).Holds val hd xs) (hs : size = xs.length)
    (le : (Layer.hash c eq hf pol ml h a).EnvOk hd size pool e) (sub : ∀ z ∈ xs, z ∈ pool) (k : size + 1 > ml) (ka : e.allocFail = false) {i : Nat}
    (hi : i < Hash.rehashCalls c (fun x => hf (val x)) size none h ⟨e.base, Hash.sizeFor Hash.sizes (pol.grow (size + 1))⟩ hd e.cpy) :
    ∃ L', (Layer.hash c eq hf pol ml h a).reserve hd val size { e with hashThrow := some i } = .threw L' := by
  have nm : Hash.NewMem a ⟨e.base, Hash.sizeFor Hash.sizes (pol.grow (size + 1))⟩ hd e.cpy xs := by
    obtain ⟨b0, c0, cn, co, cna, xn, ar⟩ := le
    exact ⟨b0, c0, fun q => cn (by simp only [List.mem_cons] at q ⊢; exact q.imp id (sub _)), co, cna,
      fun z hz => xn z (by simp only [List.mem_cons] at hz ⊢; exact hz.imp id (sub _)), ar⟩
  have ns : 0 < Hash.sizeFor Hash.sizes (pol.grow (size + 1)) := by
    have := (Hash.sizeFor_spec Hash.sizes_sorted Hash.sizes_ne (pol.grow (size + 1))).1
    exact (by decide : ∀ s ∈ Hash.sizes, 0 < s) _ this
  obtain ⟨-, s0, T, r, gd, rfl⟩ := w
  obtain ⟨h1, b1, -, c1, -, -, -, -, c3⟩ := Hash.rehash_table (t := none) r gd (eqv_ok ok val) s0 ns nm
  obtain ⟨h2, b2, d1, -, -, -, d2, -⟩ := Hash.rehash_table (t := some i) r gd (eqv_ok ok val) s0 ns nm
  rw [← hs] at c3 d1
  rw [c3 (c1 rfl)] at hi
  obtain rfl : b2 = true := d2.2 ⟨i, rfl, hi⟩
  refine ⟨.hash c eq hf pol ml h2 a, ?_⟩
  simp only [reserve, if_pos k, ka, Bool.false_eq_true, if_false]
  rw [d1]

theorem reserve_sim {L : Layer V} {val : Id → V} {hd : Id} {xs pool : List Id} {size k : Nat} {e : Env} (ok : L.spec.Ok) (w : L.Holds val hd xs)
    (hs : size = xs.length) (le : L.EnvOk hd size pool e) (sub : ∀ z ∈ xs, z ∈ pool) :
    Sim fate (L.reserveR k hd val size e) (· = L.reserve hd val size e.calm)
      (fun r => ∃ t L', r = L.reserve hd val size { e.calm with hashThrow := t } ∧ r = .threw L') := by
  cases L with
  | ord u lt h => exact Sim.done rfl
  | seq h => exact Sim.done rfl
  | rnd s => exact Sim.done rfl
  | hash c eq hf pol ml h a =>
    simp only [reserveR, Runs.pure_def, Runs.bind_def]
    by_cases q : size + 1 > ml ∧ e.allocFail = false
    · rw [if_pos q]
      refine Sim.bind (sim_hashCalls k _ 0) ?_ ?_
      · rintro _ rfl
        exact Sim.done (reserve_calm ..)
      · rintro _ ⟨i, hi, rfl⟩
        obtain ⟨L', hL⟩ := reserve_threw ok w hs le sub q.1 q.2 hi
        refine Sim.done ⟨some i, L', ?_, ?_⟩
        · rw [Nat.zero_add, reserve_calm]
        · rw [Nat.zero_add, hL]
    · rw [if_neg q]
      refine Sim.done ?_
      by_cases q1 : size + 1 > ml
      · have q2 : e.allocFail = true := by
          cases q2 : e.allocFail
          · exact absurd ⟨q1, q2⟩ q
          · rfl
        simp only [reserve, if_pos q1, Env.calm, q2, if_true]
      · simp only [reserve, if_neg q1]

theorem ordPointA_run (u : Bool) (n : Nat) (hd : Id) (val : Id → V) (lt : V → V → Bool) (hint : Option Id) (v : V) (h : Ord.Heap) :
    (ordPointA u n hd val hint v h).run (fun p => lt p.1 p.2) = if u then Ord.pointU val lt n h hd v hint else Ord.pointN val lt n h hd v hint := by
  cases u <;> cases hint <;> simp only [ordPointA, Bool.false_eq_true, if_false, if_true]
  · exact Ord.linkPointNA_run ..
  · exact Ord.hintedPointNA_run ..
  · exact Ord.linkPointUA_run ..
  · exact Ord.hintedPointUA_run ..

theorem point_sim {L : Layer V} {k : Nat} (hon : Honest ans fate) (an : L.spec.Answers ans k) (n : Nat) (hd : Id) (val : Id → V) (hashed : Bool) (hint : Option Id) (x : Id) :
    Sim fate (L.pointR k n hd val hashed hint x) (fun r => ∀ e : Env, e.point = false → r = L.point n hd val e hint x)
      (fun r => r = .threw ∧ ∀ e : Env, e.point = true → r = L.point n hd val e hint x) := by
  cases L with
  | seq h => exact Sim.done (fun _ _ => rfl)
  | rnd s => exact Sim.done (fun _ _ => rfl)
  | ord u lt h =>
    simp only [pointR, Runs.pure_def, Runs.bind_def]
    have t : ∀ e : Env, e.point = true → PtRes.threw = (Layer.ord u lt h).point n hd val e hint x := fun e he => by simp only [point, he, if_true]
    refine Sim.bind (sim_note _) ?_ ?_
    · rintro _ rfl
      simp only [Bool.not_true, Bool.false_eq_true, if_false]
      refine Sim.bind (Sim.attempt hon _ _) ?_ ?_
      · rintro _ rfl
        have hr : (ordPointA u n hd val hint (val x) h).run (fun p => ans (UserCall.ofCmp k p)) =
            if u then Ord.pointU val lt n h hd (val x) hint else Ord.pointN val lt n h hd (val x) hint := by
          rw [← ordPointA_run]
          congr 1
          funext p
          exact an p.1 p.2
        rw [hr]
        have : ∀ e : Env, e.point = false → (Layer.ord u lt h).point n hd val e hint x =
            match (if u then Ord.pointU val lt n h hd (val x) hint else Ord.pointN val lt n h hd (val x) hint) with
            | none => .hang
            | some (.reject y) => .reject y
            | some (.accept side pos) => .accept (.ord side pos) := fun e he => by
          show (if e.point = true then _ else _) = _
          rw [he]
          rfl
        generalize (if u then Ord.pointU val lt n h hd (val x) hint else Ord.pointN val lt n h hd (val x) hint) = o at this
        rcases o with _ | _ | _ <;> exact Sim.done fun e he => (this e he).symm
      · rintro _ rfl
        exact Sim.done ⟨rfl, t⟩
    · rintro _ rfl
      exact Sim.done ⟨rfl, t⟩
  | hash c eq hf pol ml h a =>
    simp only [pointR, Runs.pure_def, Runs.bind_def]
    have t : ∀ e : Env, e.point = true → PtRes.threw = (Layer.hash c eq hf pol ml h a).point n hd val e hint x := fun e he => by simp only [point, he, if_true]
    have s1 : Sim fate (noteIf hashed (.hash k)) (· = true) (· = false) := by
      cases hashed
      · exact Sim.done rfl
      · exact sim_note _
    refine Sim.bind s1 ?_ ?_
    · rintro _ rfl
      simp only [Bool.not_true, Bool.false_eq_true, if_false]
      refine Sim.bind (Sim.attempt hon _ _) ?_ ?_
      · rintro _ rfl
        have hr : (Hash.linkPointA n c (Hash.isSame V val) (Hash.isFound val (val x)) (hf (val x)) h a).run (fun p => ans (UserCall.ofEq k p)) =
            Hash.linkPoint n c (eqv eq val) (eqv eq val x) (hf (val x)) h a := by
          rw [Hash.linkPointA_run]
          congr 1
          · funext y z
            exact an _ _
          · funext y
            exact an _ _
        rw [hr]
        have : ∀ e : Env, e.point = false → (Layer.hash c eq hf pol ml h a).point n hd val e hint x =
            match Hash.linkPoint n c (eqv eq val) (eqv eq val x) (hf (val x)) h a with
            | .ok (.reject y) => .reject y
            | .ok (.accept pos) => .accept (.hash pos)
            | _ => .hang := fun e he => by
          show (if e.point = true then _ else _) = _
          rw [he]
          rfl
        generalize Hash.linkPoint n c (eqv eq val) (eqv eq val x) (hf (val x)) h a = o at this
        rcases o with (_ | _) | _ | _ | _ <;> exact Sim.done fun e he => (this e he).symm
      · rintro _ rfl
        exact Sim.done ⟨rfl, t⟩
    · rintro _ rfl
      exact Sim.done ⟨rfl, t⟩

theorem inPlace_sim {L : Layer V} {k : Nat} (hon : Honest ans fate) (an : L.spec.Answers ans k) (n : Nat) (hd : Id) (val : Id → V) (x : Id) :
    Sim fate (L.inPlaceR k n hd val x) (fun r => ∀ e : Env, e.place = false → r = L.inPlace n hd val e x)
      (fun r => r = .threw false ∧ ∀ e : Env, e.place = true → r = L.inPlace n hd val e x) := by
  cases L with
  | seq h => exact Sim.done (fun _ _ => rfl)
  | rnd s => exact Sim.done (fun _ _ => rfl)
  | ord u lt h =>
    simp only [inPlaceR, Runs.pure_def, Runs.bind_def]
    have t : ∀ e : Env, e.place = true → Out.threw false = (Layer.ord u lt h).inPlace n hd val e x := fun e he => by simp only [inPlace, he, if_true]
    refine Sim.bind (Sim.attempt hon _ _) ?_ ?_
    · rintro _ rfl
      have hr : (if u = true then Ord.inPlaceUA val n h hd (val x) x else Ord.inPlaceNA val n h hd (val x) x).run (fun p => ans (UserCall.ofCmp k p)) =
          if u then Ord.inPlaceU val lt n h hd (val x) x else Ord.inPlaceN val lt n h hd (val x) x := by
        have e : (fun p => ans (UserCall.ofCmp k p)) = fun p : V × V => lt p.1 p.2 := by funext p; exact an p.1 p.2
        rw [e]
        cases u
        · exact Ord.inPlaceNA_run ..
        · exact Ord.inPlaceUA_run ..
      rw [hr]
      have : ∀ e : Env, e.place = false → (Layer.ord u lt h).inPlace n hd val e x =
          match (if u then Ord.inPlaceU val lt n h hd (val x) x else Ord.inPlaceN val lt n h hd (val x) x) with
          | none => .hang
          | some b => .ok b := fun e he => by
        show (if e.place = true then _ else _) = _
        rw [he]
        rfl
      generalize (if u then Ord.inPlaceU val lt n h hd (val x) x else Ord.inPlaceN val lt n h hd (val x) x) = o at this
      rcases o with _ | _ <;> exact Sim.done fun e he => (this e he).symm
    · rintro _ rfl
      exact Sim.done ⟨rfl, t⟩
  | hash c eq hf pol ml h a =>
    simp only [inPlaceR, Runs.pure_def, Runs.bind_def]
    have t : ∀ e : Env, e.place = true → Out.threw false = (Layer.hash c eq hf pol ml h a).inPlace n hd val e x := fun e he => by simp only [inPlace, he, if_true]
    refine Sim.bind (sim_note _) ?_ ?_
    · rintro _ rfl
      simp only [Bool.not_true, Bool.false_eq_true, if_false]
      refine Sim.bind (Sim.attempt hon _ _) ?_ ?_
      · rintro _ rfl
        have hr : (Hash.inPlaceA n c (Hash.isFound val (val x)) (hf (val x)) h a x).run (fun p => ans (UserCall.ofEq k p)) =
            Hash.inPlace n c (eqv eq val x) (hf (val x)) h a x := by
          rw [Hash.inPlaceA_run]
          congr 1
          funext y
          exact an _ _
        rw [hr]
        exact Sim.done fun e he => by simp only [inPlace, he, Bool.false_eq_true, if_false]
      · rintro _ rfl
        exact Sim.done ⟨rfl, t⟩
    · rintro _ rfl
      exact Sim.done ⟨rfl, t⟩

theorem keeps_sim {L : Layer V} {k : Nat} (hon : Honest ans fate) (an : L.spec.Answers ans k) (n : Nat) (hd : Id) (val : Id → V) (old : V) (x : Id) :
    Sim fate (L.keepsR k n hd val old x) (fun r => ∀ e : Env, e.place = false → r = L.keeps n hd val old e x)
      (fun r => r = .threw false ∧ ∀ e : Env, e.place = true → r = L.keeps n hd val old e x) := by
  cases L with
  | hash c eq hf pol ml h a =>
    intro t
    simp only [keepsR, exec]
    cases h : fate t (.same k (val x) old) with
    | none => exact Or.inr ⟨threw_cons.2 (Or.inl rfl), rfl, fun e he => by simp only [keeps, he, if_true]⟩
    | some b =>
      obtain rfl := hon _ _ _ h
      exact Or.inl ⟨fun k => (threw_cons.1 k).elim (by simp) threw_nil, fun e he => by
        simp only [keeps, he, Bool.false_eq_true, if_false]; rw [an]⟩
  | ord u lt h => exact inPlace_sim hon an n hd val x
  | seq h => exact Sim.done (fun _ _ => rfl)
  | rnd s => exact Sim.done (fun _ _ => rfl)

end Layer

/-! ## The chains -/

/-- The functions of the indices, the first of which is number `k`, answer as the specifiers say. -/
def AnswersAll (ans : UserCall V → Bool) : Nat → List (Spec V) → Prop
  | _, [] => True
  | k, S :: Ss => S.Answers ans k ∧ AnswersAll ans (k + 1) Ss

/-- `a` for the first index, `e` for the others. -/
def consE (a : Env) (e : Nat → Env) : Nat → Env
  | 0 => a
  | i + 1 => e i

theorem consE_like {a b : Env} {e e' : Nat → Env} (h : (e 0).Like a) (h' : ∀ i, (tl e i).Like (e' i)) : ∀ i, (e i).Like (consE a e' i)
  | 0 => h
  | i + 1 => h' i

theorem like_calmE (e : Nat → Env) : ∀ i, (e i).Like (calmE e i) := fun i => (e i).like_calm

/-- The outcome is not a return. -/
def NotOk {α : Type} (r : Out α) : Prop := ∀ a, r ≠ .ok a

section
variable {M : Type} {val : Id → V} {hd x : Id} {els pool : List Id} {n size : Nat} {hint : Option Id} {m0 : M} {base : Out M}

theorem insertC_sim (hon : Honest ans fate) (hs : size = els.length) (sub : ∀ z ∈ els, z ∈ pool) :
    ∀ {Ls : List (Layer V)} {xss : List (List Id)} {e : Nat → Env} {k : Nat} {xr : Id}, AnswersAll ans k (specs Ls) → OkAll (specs Ls) → Fit val hd els Ls xss →
      EnvAll hd size pool e Ls → Clear pool Ls →
    Sim fate (insertCR n hd val hint size m0 base x k e xr Ls) (· = insertC n hd val hint size m0 base x (calmE e) xr Ls)
      (fun r => ∃ e' s, (∀ i, (e i).Like (e' i)) ∧ r = insertC n hd val hint size m0 base x e' xr Ls ∧ r = .threw s)
  | [], xss, e, k, xr, an, ok, f, env, cl => by
    simp only [insertCR, insertC]
    cases base <;> exact Sim.done rfl
  | L :: Ls, xss, e, k, xr, an, ok, f, env, cl => by
    obtain ⟨xs, yss, rfl, w, p, f2⟩ := f.cases
    simp only [insertCR, Runs.bind_def, Runs.pure_def]
    refine Sim.bind (Layer.reserve_sim ok.head w (by rw [hs, p.length_eq]) env.1 (fun z hz => sub z (p.mem_iff.1 hz))) ?_ ?_
    · rintro _ rfl
      have sp : ∀ L1, L.reserve hd val size (e 0).calm = .ok L1 → L1.spec = L.spec := by
        intro L1 h1
        obtain ⟨L2, k1, k2, -⟩ := Layer.reserve_spec (e := (e 0).calm) ok.head w (by rw [hs, p.length_eq]) env.1 (fun z hz => sub z (p.mem_iff.1 hz)) cl.head
        rcases k1 with ⟨k1, -⟩ | ⟨k1, -⟩
        · rw [h1] at k1
          cases k1
          exact k2
        · rw [h1] at k1
          exact nomatch k1
      generalize hres : L.reserve hd val size (e 0).calm = res at sp
      have e0 : ∀ e' : Nat → Env, insertC n hd val hint size m0 base x (consE (e 0).calm e') xr (L :: Ls) =
        (match (generalizing := false) res with
          | .threw L => .threw ⟨L :: Ls, m0, 0, xr⟩
          | .ub => .ub
          | .hang => .hang
          | .ok L =>
            match L.point n hd val (e 0).calm hint x with
            | .threw => .threw ⟨L :: Ls, m0, 0, xr⟩
            | .hang => .hang
            | .reject y => .ok ⟨L :: Ls, m0, y, xr⟩
            | .accept pt =>
              match insertC n hd val hint size m0 base x e' xr Ls with
              | .ok r =>
                if r.res = r.xr then
                  match L.link n hd r.xr pt with
                  | none => .hang
                  | some L => .ok { r with ls := L :: r.ls }
                else .ok { r with ls := L :: r.ls }
              | .threw r => .threw { r with ls := L :: r.ls }
              | .ub => .ub
              | .hang => .hang) := by
        intro e'
        rw [← hres]
        rfl
      have ec : calmE e = consE (e 0).calm (calmE (tl e)) := by
        funext i
        cases i <;> rfl
      rw [ec]
      cases res with
      | threw L1 => exact Sim.done (e0 _).symm
      | ub => exact Sim.done (e0 _).symm
      | hang => exact Sim.done (e0 _).symm
      | ok L1 =>
        refine Sim.bind (Layer.point_sim hon ((sp L1 rfl).symm ▸ an.1) n hd val true hint x) ?_ ?_
        · intro a ha
          obtain rfl := ha (e 0).calm rfl
          generalize hpt : L1.point n hd val (e 0).calm hint x = pt at e0
          cases pt with
          | threw => exact Sim.done (by rw [e0]; simp only [hpt])
          | hang => exact Sim.done (by rw [e0]; simp only [hpt])
          | reject y => exact Sim.done (by rw [e0]; simp only [hpt])
          | accept pt =>
            refine Sim.bind (insertC_sim hon hs sub (e := tl e) (xr := xr) an.2 ok.tail f2 env.2 cl.tail) ?_ ?_
            · rintro _ rfl
              rw [e0]
              simp only [hpt]
              cases insertC n hd val hint size m0 base x (calmE (tl e)) xr Ls with
              | threw r => exact Sim.done rfl
              | ub => exact Sim.done rfl
              | hang => exact Sim.done rfl
              | ok r =>
                dsimp only
                by_cases q : r.res = r.xr
                · simp only [if_pos q]
                  cases L1.link n hd r.xr pt <;> exact Sim.done rfl
                · simp only [if_neg q]
                  exact Sim.done rfl
            · rintro _ ⟨e', s, l1, l2, rfl⟩
              refine Sim.done ⟨consE (e 0).calm e', _, consE_like (b := e 0) (e 0).like_calm l1, ?_, rfl⟩
              rw [e0, ← l2]
              simp only [hpt]
        · rintro _ ⟨rfl, ha⟩
          refine Sim.done ⟨consE { (e 0).calm with point := true } (tl e), _, consE_like (b := e 0) ⟨rfl, rfl, rfl, rfl⟩ (fun i => ⟨rfl, rfl, rfl, rfl⟩), ?_, rfl⟩
          have r2 : L.reserve hd val size { (e 0).calm with point := true } = .ok L1 := 
            (Layer.reserve_other (e := (e 0).calm) ⟨rfl, rfl, rfl, rfl⟩ rfl hd val size L).trans hres
          simp only [insertC, consE, r2]
          rw [← ha { (e 0).calm with point := true } rfl]
    · rintro _ ⟨t, L', h1, h2⟩
      rw [h2]
      refine Sim.done ⟨consE { (e 0).calm with hashThrow := t } (tl e), _, consE_like (b := e 0) ⟨rfl, rfl, rfl, rfl⟩ (fun i => ⟨rfl, rfl, rfl, rfl⟩), ?_, rfl⟩
      simp only [insertC, consE]
      rw [← h1, h2]

end
end Cont
end MI
