import Verif.Cont.CallsLemmas
/-!
The same for changes of a value.
-/
set_option linter.unusedVariables false
namespace MI.Cont
open MI Runs
variable {V : Type} {fate : Nat → UserCall V → Option Bool} {ans : UserCall V → Bool}

theorem unlink_spec_eq {L L' : Layer V} {n : Nat} {hd x : Id} (h : L.unlink n hd x = some L') : L'.spec = L.spec := by
  cases L with
  | ord b lt t =>
    simp only [Layer.unlink, Option.map_eq_some_iff] at h
    obtain ⟨a, -, rfl⟩ := h
    rfl
  | hash => cases h; rfl
  | seq => cases h; rfl
  | rnd => cases h; rfl

theorem takeOut_spec_eq {L L' : Layer V} {sv : Saved} {n : Nat} {hd x : Id} (h : L.takeOut n hd x = some (L', sv)) : L'.spec = L.spec := by
  cases L with
  | ord b lt t =>
    simp only [Layer.takeOut] at h
    split at h
    · exact nomatch h
    · simp only [Option.map_eq_some_iff] at h
      obtain ⟨a, -, k⟩ := h
      cases k
      rfl
  | hash => cases h; rfl
  | seq => cases h
  | rnd => cases h

theorem calmE_cons (e : Nat → Env) : calmE e = consE (e 0).calm (calmE (tl e)) := by
  funext i
  cases i <;> rfl

section
variable {val : Id → V} {hd x : Id} {n : Nat}

/-- What is to be proved of a chain `f`: without exception the result is that of an environment in which nothing throws; otherwise that of one which supplies the same memory, and it
is not a return. -/
def Agrees {α : Type} (fate : Nat → UserCall V → Option Bool) (e : Nat → Env) (m : Runs (UserCall V) (Out α)) (f : (Nat → Env) → Out α) : Prop :=
  Sim fate m (· = f (calmE e)) (fun r => ∃ e', (∀ i, (e i).Like (e' i)) ∧ r = f e' ∧ NotOk r)

theorem like_tl (e : Nat → Env) : ∀ i, (tl e i).Like (tl e i) := fun _ => ⟨rfl, rfl, rfl, rfl⟩

theorem notOk_threw {α : Type} {a : α} : NotOk (Out.threw a) := fun _ h => nomatch h
theorem notOk_ub {α : Type} : NotOk (Out.ub : Out α) := fun _ h => nomatch h
theorem notOk_hang {α : Type} : NotOk (Out.hang : Out α) := fun _ h => nomatch h

/-- The rest of the chain, and what is made of its outcome. -/
theorem Agrees.rest {α β : Type} {e : Nat → Env} {m : Runs (UserCall V) (Out α)} {f : (Nat → Env) → Out α} {F : (Nat → Env) → Out β} {g : Out α → Out β}
    (h : Agrees fate (tl e) m f) (hF : ∀ e', F (consE (e 0).calm e') = g (f e')) (hg : ∀ r, NotOk r → NotOk (g r)) :
    Sim fate (m.bind (fun r => Runs.done (g r))) (· = F (consE (e 0).calm (calmE (tl e)))) (fun r => ∃ e', (∀ i, (e i).Like (e' i)) ∧ r = F e' ∧ NotOk r) := by
  refine Sim.bind h ?_ ?_
  · rintro _ rfl
    exact Sim.done (hF _).symm
  · rintro r ⟨e', l1, l2, l3⟩
    exact Sim.done ⟨consE (e 0).calm e', consE_like (b := e 0) (e 0).like_calm l1, by rw [hF, l2], hg r l3⟩

/-- An exception in this index. -/
theorem Agrees.here {β : Type} {e : Nat → Env} {F : (Nat → Env) → Out β} {r : Out β} (a : Env) (l : (e 0).Like a) (h : r = F (consE a (tl e))) (n : NotOk r) :
    ∃ e', (∀ i, (e i).Like (e' i)) ∧ r = F e' ∧ NotOk r := ⟨consE a (tl e), consE_like (b := e 0) l (like_tl e), h, n⟩

theorem modifyEnd_notOk (L : Layer V) {r : Out (List (Layer V) × Bool)} (h : NotOk r) : NotOk (modifyEnd n hd x L r) := by
  rcases r with a | ⟨Ls, b⟩ | _ | _
  · exact absurd rfl (h a)
  · simp only [modifyEnd]
    split
    · exact notOk_hang
    · exact notOk_threw
  · exact notOk_ub
  · exact notOk_hang

theorem modifyC_cons (e : Nat → Env) (L : Layer V) (Ls : List (Layer V)) : modifyC n hd val x e (L :: Ls) =
    match L.inPlace n hd val (e 0) x with
    | .ok true => modifyEnd n hd x L (modifyC n hd val x (tl e) Ls)
    | .ok false =>
      match L.unlink n hd x with
      | none => .hang
      | some L =>
        match L.point n hd val (e 0) none x with
        | .accept pt =>
          match L.link n hd x pt with
          | none => .hang
          | some L => modifyEnd n hd x L (modifyC n hd val x (tl e) Ls)
        | r => modifyStop n hd x L Ls r
    | r => modifyFail n hd x (L :: Ls) r := by
  rw [modifyC]
  rcases L.inPlace n hd val (e 0) x with (_ | _) | _ | _ | _
  · simp only [Bool.false_eq_true, if_false]
    cases L.unlink n hd x with
    | none => rfl
    | some L =>
      simp only [Option.map_some]
      cases L.point n hd val (e 0) none x with
      | accept pt =>
        dsimp only
        cases L.link n hd x pt with
        | none => rfl
        | some L => rcases modifyC n hd val x (tl e) Ls with ⟨_, _ | _⟩ | _ | _ | _ <;> rfl
      | reject y => rfl
      | threw => rfl
      | hang => rfl
  · simp only [if_true]
    rcases modifyC n hd val x (tl e) Ls with ⟨_, _ | _⟩ | _ | _ | _ <;> rfl
  · rfl
  · rfl
  · rfl

theorem modifyC_sim (hon : Honest ans fate) : ∀ {Ls : List (Layer V)} {e : Nat → Env} {k : Nat}, AnswersAll ans k (specs Ls) →
    Agrees fate e (modifyCR n hd val x k Ls) (fun e => modifyC n hd val x e Ls)
  | [], e, k, an => Sim.done rfl
  | L :: Ls, e, k, an => by
    unfold Agrees
    rw [calmE_cons]
    simp only [modifyCR, Runs.bind_def, Runs.pure_def]
    refine Sim.bind (Layer.inPlace_sim hon an.1 n hd val x) ?_ ?_
    · intro a ha
      have h0 : L.inPlace n hd val (e 0).calm x = a := (ha (e 0).calm rfl).symm
      have ht := ha { (e 0).calm with point := true } rfl
      have e0 := fun e' => modifyC_cons (n := n) (hd := hd) (val := val) (x := x) (consE (e 0).calm e') L Ls
      simp only [consE, h0] at e0
      rcases a with (_ | _) | _ | _ | _
      · dsimp only at e0 ⊢
        cases hu : L.unlink n hd x with
        | none => exact Sim.done (by rw [e0, hu])
        | some L1 =>
          dsimp only
          simp only [hu] at e0
          refine Sim.bind (Layer.point_sim hon ((unlink_spec_eq hu).symm ▸ an.1) n hd val false none x) ?_ ?_
          · intro pt hp
            have h1 : L1.point n hd val (e 0).calm none x = pt := (hp (e 0).calm rfl).symm
            simp only [h1] at e0
            cases pt with
            | accept pt =>
              dsimp only at e0 ⊢
              cases hl : L1.link n hd x pt with
              | none => exact Sim.done (by rw [e0, hl])
              | some L2 =>
                simp only [hl] at e0
                exact Agrees.rest (F := fun e => modifyC n hd val x e (L :: Ls)) (modifyC_sim hon an.2) e0 (fun r => modifyEnd_notOk L2)
            | reject y => exact Sim.done (by rw [e0])
            | threw => exact Sim.done (by rw [e0])
            | hang => exact Sim.done (by rw [e0])
          · rintro _ ⟨rfl, hp⟩
            have hp := hp { (e 0).calm with point := true } rfl
            refine Sim.done (Agrees.here (F := fun e => modifyC n hd val x e (L :: Ls)) { (e 0).calm with point := true } ⟨rfl, rfl, rfl, rfl⟩ ?_ ?_)
            · dsimp only
              rw [modifyC_cons]
              simp only [consE]
              rw [← ht]
              simp only [hu]
              rw [← hp]
            · simp only [modifyStop]
              split
              · exact notOk_hang
              · exact notOk_threw
      · exact Agrees.rest (F := fun e => modifyC n hd val x e (L :: Ls)) (modifyC_sim hon an.2) e0 (fun r => modifyEnd_notOk L)
      · exact Sim.done (by rw [e0])
      · exact Sim.done (by rw [e0])
      · exact Sim.done (by rw [e0])
    · rintro _ ⟨rfl, ha⟩
      have ha := ha { (e 0).calm with place := true } rfl
      refine Sim.done (Agrees.here (F := fun e => modifyC n hd val x e (L :: Ls)) { (e 0).calm with place := true } ⟨rfl, rfl, rfl, rfl⟩ ?_ ?_)
      · dsimp only
        rw [modifyC_cons]
        simp only [consE]
        rw [← ha]
      · simp only [modifyFail]
        split
        · exact notOk_hang
        · exact notOk_threw

theorem rollKeep_notOk (L : Layer V) {r : Out (List (Layer V) × Bool)} (h : NotOk r) : NotOk (rollKeep L r) := by
  rcases r with a | a | _ | _
  · exact absurd rfl (h a)
  · exact notOk_threw
  · exact notOk_ub
  · exact notOk_hang

theorem rollEnd_notOk (L : Layer V) (sv : Saved) (pt : Pt) {r : Out (List (Layer V) × Bool)} (h : NotOk r) : NotOk (rollEnd n hd x L sv pt r) := by
  rcases r with a | ⟨Ls, b⟩ | _ | _
  · exact absurd rfl (h a)
  · simp only [rollEnd]
    split
    · exact notOk_hang
    · exact notOk_threw
  · exact notOk_ub
  · exact notOk_hang

theorem rollbackC_cons (e : Nat → Env) (L : Layer V) (Ls : List (Layer V)) : rollbackC n hd val x e (L :: Ls) =
    match L.inPlace n hd val (e 0) x with
    | .ok true => rollKeep L (rollbackC n hd val x (tl e) Ls)
    | .ok false =>
      match L.takeOut n hd x with
      | none => .hang
      | some (L, sv) =>
        match L.point n hd val (e 0) none x with
        | .accept pt => rollEnd n hd x L sv pt (rollbackC n hd val x (tl e) Ls)
        | r => rollStop n hd x L sv Ls r
    | r => rollFail (L :: Ls) r := by
  rw [rollbackC]
  rcases L.inPlace n hd val (e 0) x with (_ | _) | _ | _ | _
  · dsimp only
    rcases L.takeOut n hd x with _ | ⟨L, sv⟩
    · rfl
    · dsimp only
      cases L.point n hd val (e 0) none x with
      | accept pt =>
        dsimp only
        rcases rollbackC n hd val x (tl e) Ls with ⟨_, _ | _⟩ | _ | _ | _ <;> rfl
      | reject y => rfl
      | threw => rfl
      | hang => rfl
  · dsimp only
    rcases rollbackC n hd val x (tl e) Ls with _ | _ | _ | _ <;> rfl
  · rfl
  · rfl
  · rfl

theorem rollbackC_sim (hon : Honest ans fate) : ∀ {Ls : List (Layer V)} {e : Nat → Env} {k : Nat}, AnswersAll ans k (specs Ls) →
    Agrees fate e (rollbackCR n hd val x k Ls) (fun e => rollbackC n hd val x e Ls)
  | [], e, k, an => Sim.done rfl
  | L :: Ls, e, k, an => by
    unfold Agrees
    rw [calmE_cons]
    simp only [rollbackCR, Runs.bind_def, Runs.pure_def]
    refine Sim.bind (Layer.inPlace_sim hon an.1 n hd val x) ?_ ?_
    · intro a ha
      have h0 : L.inPlace n hd val (e 0).calm x = a := (ha (e 0).calm rfl).symm
      have ht := ha { (e 0).calm with point := true } rfl
      have e0 := fun e' => rollbackC_cons (n := n) (hd := hd) (val := val) (x := x) (consE (e 0).calm e') L Ls
      simp only [consE, h0] at e0
      rcases a with (_ | _) | _ | _ | _
      · dsimp only at e0 ⊢
        rcases hu : L.takeOut n hd x with _ | ⟨L1, sv⟩
        · exact Sim.done (by rw [e0, hu])
        · dsimp only
          simp only [hu] at e0
          refine Sim.bind (Layer.point_sim hon ((takeOut_spec_eq hu).symm ▸ an.1) n hd val false none x) ?_ ?_
          · intro pt hp
            have h1 : L1.point n hd val (e 0).calm none x = pt := (hp (e 0).calm rfl).symm
            simp only [h1] at e0
            cases pt with
            | accept pt =>
              exact Agrees.rest (F := fun e => rollbackC n hd val x e (L :: Ls)) (rollbackC_sim hon an.2) e0 (fun r => rollEnd_notOk L1 sv pt)
            | reject y => exact Sim.done (by rw [e0])
            | threw => exact Sim.done (by rw [e0])
            | hang => exact Sim.done (by rw [e0])
          · rintro _ ⟨rfl, hp⟩
            have hp := hp { (e 0).calm with point := true } rfl
            refine Sim.done (Agrees.here (F := fun e => rollbackC n hd val x e (L :: Ls)) { (e 0).calm with point := true } ⟨rfl, rfl, rfl, rfl⟩ ?_ ?_)
            · dsimp only
              rw [rollbackC_cons]
              simp only [consE]
              rw [← ht]
              simp only [hu]
              rw [← hp]
            · simp only [rollStop]
              split
              · exact notOk_hang
              · exact notOk_threw
      · exact Agrees.rest (F := fun e => rollbackC n hd val x e (L :: Ls)) (rollbackC_sim hon an.2) e0 (fun r => rollKeep_notOk L)
      · exact Sim.done (by rw [e0])
      · exact Sim.done (by rw [e0])
      · exact Sim.done (by rw [e0])
    · rintro _ ⟨rfl, ha⟩
      have ha := ha { (e 0).calm with place := true } rfl
      refine Sim.done (Agrees.here (F := fun e => rollbackC n hd val x e (L :: Ls)) { (e 0).calm with place := true } ⟨rfl, rfl, rfl, rfl⟩ ?_ notOk_threw)
      dsimp only
      rw [rollbackC_cons]
      simp only [consE]
      rw [← ha]

theorem checkC_sim (hon : Honest ans fate) : ∀ {Ls : List (Layer V)} {e : Nat → Env} {k : Nat}, AnswersAll ans k (specs Ls) →
    Agrees fate e (checkCR n hd val x k Ls) (fun e => checkC n hd val x e Ls)
  | [], e, k, an => Sim.done rfl
  | L :: Ls, e, k, an => by
    unfold Agrees
    rw [calmE_cons]
    simp only [checkCR, Runs.bind_def, Runs.pure_def]
    refine Sim.bind (Layer.inPlace_sim hon an.1 n hd val x) ?_ ?_
    · intro a ha
      have h0 : L.inPlace n hd val (e 0).calm x = a := (ha (e 0).calm rfl).symm
      rcases a with (_ | _) | _ | _ | _
      · exact Sim.done (by simp only [checkC, consE, h0])
      · have e0 : ∀ e', checkC n hd val x (consE (e 0).calm e') (L :: Ls) = checkC n hd val x e' Ls := by
          intro e'
          have ht : tl (consE (e 0).calm e') = e' := rfl
          simp only [checkC, ht]
          simp only [consE, h0]
        refine (checkC_sim hon (e := tl e) an.2).mono ?_ ?_
        · rintro _ rfl
          exact (e0 _).symm
        · rintro r ⟨e', l1, l2, l3⟩
          exact ⟨consE (e 0).calm e', consE_like (b := e 0) (e 0).like_calm l1, by rw [e0, l2], l3⟩
      · exact Sim.done (by simp only [checkC, consE, h0])
      · exact Sim.done (by simp only [checkC, consE, h0])
      · exact Sim.done (by simp only [checkC, consE, h0])
    · rintro _ ⟨rfl, ha⟩
      have ha := ha { (e 0).calm with place := true } rfl
      refine Sim.done (Agrees.here (F := fun e => checkC n hd val x e (L :: Ls)) { (e 0).calm with place := true } ⟨rfl, rfl, rfl, rfl⟩ ?_ notOk_threw)
      simp only [checkC, consE]
      rw [← ha]

theorem replKeep_notOk (L : Layer V) {r : Out (List (Layer V) × (Id → V) × Bool)} (h : NotOk r) : NotOk (replKeep L r) := by
  rcases r with a | a | _ | _
  · exact absurd rfl (h a)
  · exact notOk_threw
  · exact notOk_ub
  · exact notOk_hang

theorem replEnd_notOk (L : Layer V) (sv : Saved) (pt : Pt) {r : Out (List (Layer V) × (Id → V) × Bool)} (h : NotOk r) : NotOk (replEnd n hd x L sv pt r) := by
  rcases r with a | ⟨Ls, v, b⟩ | _ | _
  · exact absurd rfl (h a)
  · simp only [replEnd]
    split
    · exact notOk_hang
    · exact notOk_threw
  · exact notOk_ub
  · exact notOk_hang

theorem replaceC_cons {v : V} {t : Bool} (e : Nat → Env) (L : Layer V) (Ls : List (Layer V)) (kd : L.keyed = true) :
    replaceC n hd val x v t e (L :: Ls) =
    match L.keeps n hd (upd val x v) (val x) (e 0) x with
    | .ok true => replKeep L (replaceC n hd val x v t (tl e) Ls)
    | .ok false =>
      match L.takeOut n hd x with
      | none => .hang
      | some (L, sv) =>
        match L.point n hd (upd val x v) (e 0) none x with
        | .accept pt => replEnd n hd x L sv pt (replaceC n hd val x v t (tl e) Ls)
        | r => replStop n hd val x L sv Ls r
    | r => replFail val (L :: Ls) r := by
  rw [replaceC, if_neg (by simp [kd])]
  rcases L.keeps n hd (upd val x v) (val x) (e 0) x with (_ | _) | _ | _ | _
  · dsimp only
    rcases L.takeOut n hd x with _ | ⟨L, sv⟩
    · rfl
    · dsimp only
      cases L.point n hd (upd val x v) (e 0) none x with
      | accept pt =>
        dsimp only
        rcases replaceC n hd val x v t (tl e) Ls with ⟨_, _, _ | _⟩ | _ | _ | _ <;> rfl
      | reject y => rfl
      | threw => rfl
      | hang => rfl
  · dsimp only
    rcases replaceC n hd val x v t (tl e) Ls with _ | _ | _ | _ <;> rfl
  · rfl
  · rfl
  · rfl

theorem replaceC_sim (hon : Honest ans fate) {v : V} {t : Bool} : ∀ {Ls : List (Layer V)} {e : Nat → Env} {k : Nat}, AnswersAll ans k (specs Ls) →
    Agrees fate e (replaceCR n hd val x v t k Ls) (fun e => replaceC n hd val x v t e Ls)
  | [], e, k, an => by
    unfold Agrees replaceCR replaceC
    cases t <;> exact Sim.done rfl
  | L :: Ls, e, k, an => by
    unfold Agrees
    rw [calmE_cons]
    simp only [replaceCR, Runs.bind_def, Runs.pure_def]
    cases kd : L.keyed with
    | false =>
      simp only [if_true]
      refine Agrees.rest (F := fun e => replaceC n hd val x v t e (L :: Ls)) (replaceC_sim hon an.2) ?_ (fun r => replKeep_notOk L)
      intro e'
      have ht : tl (consE (e 0).calm e') = e' := rfl
      simp only [replaceC, kd, if_true, ht]
      rcases replaceC n hd val x v t e' Ls with _ | _ | _ | _ <;> rfl
    | true =>
      simp only [Bool.true_eq_false, if_false]
      refine Sim.bind (Layer.keeps_sim hon an.1 n hd (upd val x v) (val x) x) ?_ ?_
      · intro a ha
        have h0 : L.keeps n hd (upd val x v) (val x) (e 0).calm x = a := (ha (e 0).calm rfl).symm
        have ht := ha { (e 0).calm with point := true } rfl
        have e0 := fun e' => replaceC_cons (n := n) (hd := hd) (val := val) (x := x) (v := v) (t := t) (consE (e 0).calm e') L Ls kd
        simp only [consE, h0] at e0
        rcases a with (_ | _) | _ | _ | _
        · dsimp only at e0 ⊢
          rcases hu : L.takeOut n hd x with _ | ⟨L1, sv⟩
          · exact Sim.done (by rw [e0, hu])
          · dsimp only
            simp only [hu] at e0
            refine Sim.bind (Layer.point_sim hon ((takeOut_spec_eq hu).symm ▸ an.1) n hd (upd val x v) true none x) ?_ ?_
            · intro pt hp
              have h1 : L1.point n hd (upd val x v) (e 0).calm none x = pt := (hp (e 0).calm rfl).symm
              simp only [h1] at e0
              cases pt with
              | accept pt =>
                exact Agrees.rest (F := fun e => replaceC n hd val x v t e (L :: Ls)) (replaceC_sim hon an.2) e0 (fun r => replEnd_notOk L1 sv pt)
              | reject y => exact Sim.done (by rw [e0])
              | threw => exact Sim.done (by rw [e0])
              | hang => exact Sim.done (by rw [e0])
            · rintro _ ⟨rfl, hp⟩
              have hp := hp { (e 0).calm with point := true } rfl
              refine Sim.done (Agrees.here (F := fun e => replaceC n hd val x v t e (L :: Ls)) { (e 0).calm with point := true } ⟨rfl, rfl, rfl, rfl⟩ ?_ ?_)
              · dsimp only
                rw [replaceC_cons _ _ _ kd]
                simp only [consE]
                rw [← ht]
                simp only [hu]
                rw [← hp]
              · simp only [replStop]
                split
                · exact notOk_hang
                · exact notOk_threw
        · exact Agrees.rest (F := fun e => replaceC n hd val x v t e (L :: Ls)) (replaceC_sim hon an.2) e0 (fun r => replKeep_notOk L)
        · exact Sim.done (by rw [e0])
        · exact Sim.done (by rw [e0])
        · exact Sim.done (by rw [e0])
      · rintro _ ⟨rfl, ha⟩
        have ha := ha { (e 0).calm with place := true } rfl
        refine Sim.done (Agrees.here (F := fun e => replaceC n hd val x v t e (L :: Ls)) { (e 0).calm with place := true } ⟨rfl, rfl, rfl, rfl⟩ ?_ notOk_threw)
        dsimp only
        rw [replaceC_cons _ _ _ kd]
        simp only [consE]
        rw [← ha]

end
end MI.Cont
