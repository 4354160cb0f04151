import Verif.Cont.CallsLemmas2
import Verif.Cont.StepInv
import Verif.Cont.EffectLemmas
import Verif.Cont.EffectLemmas2
/-!
The same for whole operations.
-/
set_option linter.unusedVariables false
namespace MI.Cont
open MI Runs Container
variable {V : Type} {fate : Nat → UserCall V → Option Bool} {ans : UserCall V → Bool} {w : World V} {i : Nat} {c : Container V} {m : Mem V} {pool : List Id}

theorem Agrees.map {α β : Type} {e : Nat → Env} {m : Runs (UserCall V) (Out α)} {f : (Nat → Env) → Out α} {F : (Nat → Env) → Out β} {g : Out α → Out β}
    (h : Agrees fate e m f) (hF : ∀ e', F e' = g (f e')) (hg : ∀ r, NotOk r → NotOk (g r)) : Agrees fate e (m.bind (fun r => Runs.done (g r))) F := by
  refine Sim.bind h ?_ ?_
  · rintro _ rfl
    exact Sim.done (hF _).symm
  · rintro r ⟨e', l1, l2, l3⟩
    exact Sim.done ⟨e', l1, by rw [hF, l2], hg r l3⟩

theorem Agrees.done {α : Type} {e : Nat → Env} {f : (Nat → Env) → Out α} {r : Out α} (h : r = f (calmE e)) : Agrees fate e (Runs.done r) f := Sim.done h

section
variable {M : Type} {m0 : M} {base : Out M}

theorem insertC_agrees (hon : Honest ans fate) {hint : Option Id} {x xr : Id} {e : Nat → Env} (an : AnswersAll ans 0 (specs c.ls)) (s : Sound m.val c)
    (sub : ∀ z ∈ c.elems, z ∈ pool) (env : EnvAll c.hd c.count pool e c.ls) (cl : Clear pool c.ls) :
    Agrees fate e (insertCR c.budget c.hd m.val hint c.count m0 base x 0 e xr c.ls) (fun e => insertC c.budget c.hd m.val hint c.count m0 base x e xr c.ls) := by
  refine (insertC_sim hon s.count sub an s.ok s.fit env cl).mono (fun _ h => h) ?_
  rintro r ⟨e', t, l1, l2, l3⟩
  exact ⟨e', l1, l2, by rw [l3]; exact notOk_threw⟩

theorem insertR_agrees (hon : Honest ans fate) {hint : Option Id} {x : Id} {v : V} {f : Fault} {e : Nat → Env} (an : AnswersAll ans 0 (specs c.ls)) (s : Sound m.val c)
    (hx : x ∉ c.elems) (sub : ∀ z ∈ c.elems, z ∈ pool) (env : EnvAll c.hd c.count pool e c.ls) (cl : Clear pool c.ls) :
    Agrees fate e (c.insertR m v x f hint e) (fun e => c.insert m v x f hint e) := by
  have s' : Sound ((m.allocate x).construct x v).val c := s.congr fun z hz => upd_other _ _ (by rintro rfl; exact hx hz)
  simp only [Container.insertR, Runs.bind_def, Runs.pure_def]
  refine (insertC_agrees (m := (m.allocate x).construct x v) hon an s' sub env cl).map ?_ ?_
  · intro e'
    unfold Container.insert
    simp only [Mem.construct, Mem.allocate]
    cases insertC c.budget c.hd (upd m.val x v) hint c.count m (baseInsert f m x v) x e' 0 c.ls <;> rfl
  · intro r hr
    cases r with
    | ok a => exact absurd rfl (hr a)
    | threw a => exact notOk_threw
    | ub => exact notOk_ub
    | hang => exact notOk_hang

theorem emplaceR_agrees (hon : Honest ans fate) {hint : Option Id} {x : Id} {v : V} {f : Fault} {e : Nat → Env} (an : AnswersAll ans 0 (specs c.ls)) (s : Sound m.val c)
    (hx : x ∉ c.elems) (sub : ∀ z ∈ c.elems, z ∈ pool) (env : EnvAll c.hd c.count pool e c.ls) (cl : Clear pool c.ls) :
    Agrees fate e (c.emplaceR m v x f hint e) (fun e => c.emplace m v x f hint e) := by
  have s' : Sound ((m.allocate x).construct x v).val c := s.congr fun z hz => upd_other _ _ (by rintro rfl; exact hx hz)
  simp only [Container.emplaceR, Container.emplace, Runs.bind_def, Runs.pure_def]
  cases f.alloc with
  | true => exact Agrees.done rfl
  | false =>
    cases f.construct with
    | true =>
      simp only [Bool.false_eq_true, if_false, if_true]
      cases (m.allocate x).deallocate x <;> exact Agrees.done rfl
    | false =>
      simp only [Bool.false_eq_true, if_false]
      refine (insertC_agrees (m := (m.allocate x).construct x v) hon an s' sub env cl).map ?_ ?_
      · intro e'
        cases insertC c.budget c.hd ((m.allocate x).construct x v).val hint c.count ((m.allocate x).construct x v) (.ok ((m.allocate x).construct x v)) x e' x c.ls <;> rfl
      · intro r hr
        cases r with
        | ok a => exact absurd rfl (hr a)
        | threw a =>
          simp only [Container.emplaceEnd]
          split
          · exact notOk_ub
          · split
            · exact notOk_ub
            · exact notOk_threw
        | ub => exact notOk_ub
        | hang => exact notOk_hang

theorem insertNhR_agrees (hon : Honest ans fate) {hint : Option Id} {nh : Option Id} {e : Nat → Env} (an : AnswersAll ans 0 (specs c.ls)) (s : Sound m.val c)
    (sub : ∀ z ∈ c.elems, z ∈ pool) (env : EnvAll c.hd c.count pool e c.ls) (cl : Clear pool c.ls) :
    Agrees fate e (c.insertNhR m nh hint e) (fun e => c.insertNh m nh hint e) := by
  cases nh with
  | none => exact Agrees.done rfl
  | some x =>
    simp only [Container.insertNhR, Container.insertNh, Runs.bind_def, Runs.pure_def]
    refine (insertC_agrees hon an s sub env cl).map ?_ ?_
    · intro e'
      cases insertC c.budget c.hd m.val hint c.count m (.ok m) x e' x c.ls <;> rfl
    · intro r hr
      cases r with
      | ok a => exact absurd rfl (hr a)
      | threw a => exact notOk_threw
      | ub => exact notOk_ub
      | hang => exact notOk_hang

theorem transferR_agrees (hon : Honest ans fate) {d : Container V} {x : Id} {e : Nat → Env} (an : AnswersAll ans 0 (specs c.ls)) (s : Sound m.val c)
    (sub : ∀ z ∈ c.elems, z ∈ pool) (env : EnvAll c.hd c.count pool e c.ls) (cl : Clear pool c.ls) :
    Agrees fate e (c.transferR m d x e) (fun e => c.transfer m d x e) := by
  simp only [Container.transferR, Container.transfer, Runs.bind_def, Runs.pure_def]
  refine (insertC_agrees hon an s sub env cl).map ?_ ?_
  · intro e'
    cases insertC c.budget c.hd m.val none c.count d (unlinkAll m d x) x e' x c.ls <;> rfl
  · intro r hr
    cases r with
    | ok a => exact absurd rfl (hr a)
    | threw a => exact notOk_threw
    | ub => exact notOk_ub
    | hang => exact notOk_hang

end

theorem replaceR_agrees (hon : Honest ans fate) {x : Id} {v : V} {t : Bool} {e : Nat → Env} (an : AnswersAll ans 0 (specs c.ls)) :
    Agrees fate e (c.replaceR m x v t) (fun e => c.replace m x v t e) := by
  simp only [Container.replaceR, Container.replace, Runs.bind_def, Runs.pure_def]
  refine (replaceC_sim hon an).map ?_ ?_
  · intro e'
    cases replaceC c.budget c.hd m.val x v t e' c.ls <;> rfl
  · intro r hr
    cases r with
    | ok a => exact absurd rfl (hr a)
    | threw a => exact notOk_threw
    | ub => exact notOk_ub
    | hang => exact notOk_hang

theorem modifyR_agrees (hon : Honest ans fate) {x : Id} {mod : V → V × Bool} {e : Nat → Env} (an : AnswersAll ans 0 (specs c.ls)) :
    Agrees fate e (c.modifyR m x mod) (fun e => c.modify m x mod e) := by
  simp only [Container.modifyR, Container.modify, Runs.bind_def, Runs.pure_def]
  cases (mod (m.val x)).2 with
  | true => exact Agrees.done rfl
  | false =>
    simp only [Bool.false_eq_true, if_false]
    refine (modifyC_sim hon an).map ?_ ?_
    · intro e'
      rcases modifyC c.budget c.hd (m.assign x (mod (m.val x)).1).val x e' c.ls with ⟨_, _ | _⟩ | _ | _ | _ <;> rfl
    · intro r hr
      cases r with
      | ok a => exact absurd rfl (hr a)
      | threw a =>
        simp only [Container.modifyEnd]
        split
        · exact notOk_ub
        · exact notOk_threw
      | ub => exact notOk_ub
      | hang => exact notOk_hang

theorem eraseThrow_notOk (m : Mem V) (c : Container V) (x : Id) : NotOk (eraseThrow m c x) := by
  unfold eraseThrow
  split
  · exact notOk_threw
  · rename_i h
    intro a ha
    exact h a ha

theorem checkEnd_notOk {m : Mem V} {c : Container V} {x : Id} {r : Out Bool} (h : NotOk r) : NotOk (c.checkEnd m x r) := by
  cases r with
  | ok a => exact absurd rfl (h a)
  | threw a => exact eraseThrow_notOk _ _ _
  | ub => exact notOk_ub
  | hang => exact notOk_hang

theorem checkEndThrew_notOk {m : Mem V} {c : Container V} {x : Id} {r : Out Bool} : NotOk (c.checkEndThrew m x r) := by
  rcases r with (_ | _) | _ | _ | _
  · simp only [Container.checkEndThrew]
    split
    · exact eraseThrow_notOk _ _ _
    · rename_i h
      intro a ha
      exact h a ha
  · exact eraseThrow_notOk _ _ _
  · exact eraseThrow_notOk _ _ _
  · exact notOk_ub
  · exact notOk_hang

/-- `Container.modifyRb`, with the end in functions of their own. -/
theorem modifyRb_eq (c : Container V) (m : Mem V) (x : Id) (mod back : V → V × Bool) (e e' : Nat → Env) : c.modifyRb m x mod back e e' =
    if (mod (m.val x)).2 then eraseThrow (m.assign x (mod (m.val x)).1) c x
    else
      match rollbackC c.budget c.hd (m.assign x (mod (m.val x)).1).val x e c.ls with
      | .ub => .ub
      | .hang => .hang
      | .ok (ls, true) => .ok ⟨m.assign x (mod (m.val x)).1, { c with ls := ls }, x, true⟩
      | .ok (ls, false) =>
        if (back ((m.assign x (mod (m.val x)).1).val x)).2 then
          eraseThrow ((m.assign x (mod (m.val x)).1).assign x (back ((m.assign x (mod (m.val x)).1).val x)).1) { c with ls := ls } x
        else Container.checkEnd ((m.assign x (mod (m.val x)).1).assign x (back ((m.assign x (mod (m.val x)).1).val x)).1) { c with ls := ls } x
          (checkC c.budget c.hd ((m.assign x (mod (m.val x)).1).assign x (back ((m.assign x (mod (m.val x)).1).val x)).1).val x e' ls)
      | .threw (ls, _) =>
        if (back ((m.assign x (mod (m.val x)).1).val x)).2 then
          eraseThrow ((m.assign x (mod (m.val x)).1).assign x (back ((m.assign x (mod (m.val x)).1).val x)).1) { c with ls := ls } x
        else Container.checkEndThrew ((m.assign x (mod (m.val x)).1).assign x (back ((m.assign x (mod (m.val x)).1).val x)).1) { c with ls := ls } x
          (checkC c.budget c.hd ((m.assign x (mod (m.val x)).1).assign x (back ((m.assign x (mod (m.val x)).1).val x)).1).val x e' ls) := by
  simp only [Container.modifyRb]
  cases (mod (m.val x)).2 with
  | true => rfl
  | false =>
    simp only [Bool.false_eq_true, if_false]
    rcases rollbackC c.budget c.hd (m.assign x (mod (m.val x)).1).val x e c.ls with ⟨ls, _ | _⟩ | ⟨ls, _⟩ | _ | _
    · dsimp only
      congr 1
    · rfl
    · dsimp only
      congr 1
    · rfl
    · rfl

/-- The same for `modify` with rollback, which has two environments. -/
def Agrees2 {α : Type} (fate : Nat → UserCall V → Option Bool) (e e2 : Nat → Env) (m : Runs (UserCall V) (Out α)) (f : (Nat → Env) → (Nat → Env) → Out α) : Prop :=
  Sim fate m (· = f (calmE e) (calmE e2)) (fun r => ∃ e' e2', (∀ i, (e i).Like (e' i)) ∧ (∀ i, (e2 i).Like (e2' i)) ∧ r = f e' e2' ∧ NotOk r)

theorem like_refl (e : Nat → Env) : ∀ i, (e i).Like (e i) := fun _ => ⟨rfl, rfl, rfl, rfl⟩

theorem modifyRbR_agrees (hon : Honest ans fate) {x : Id} {mod back : V → V × Bool} {e e2 : Nat → Env} (an : AnswersAll ans 0 (specs c.ls)) (s : Sound m.val c)
    (x0 : x ≠ 0) (hx : x ∈ c.elems) (cl : Clear [x] c.ls) :
    Agrees2 fate e e2 (c.modifyRbR m x mod back) (fun e e2 => c.modifyRb m x mod back e e2) := by
  unfold Agrees2
  simp only [modifyRb_eq, Container.modifyRbR, Runs.bind_def, Runs.pure_def]
  cases (mod (m.val x)).2 with
  | true => exact Sim.done rfl
  | false =>
    simp only [Bool.false_eq_true, if_false]
    have sp : ∀ e', ∃ ls b, specs ls = specs c.ls ∧ (rollbackC c.budget c.hd (m.assign x (mod (m.val x)).1).val x e' c.ls = .ok (ls, b) ∨
        rollbackC c.budget c.hd (m.assign x (mod (m.val x)).1).val x e' c.ls = .threw (ls, b)) := by
      intro e'
      obtain ⟨Ls', k1, -, k2⟩ := rollbackC_spec (val' := (m.assign x (mod (m.val x)).1).val) (e := e') x0 hx (fun y hy => upd_other _ _ hy) s.budget s.ok s.fit cl
      rcases k2 with ⟨xss, k2, -⟩ | ⟨k2, -⟩ | ⟨k2, -⟩
      · exact ⟨Ls', _, k1, Or.inl k2⟩
      · exact ⟨Ls', _, k1, Or.inl k2⟩
      · exact ⟨Ls', _, k1, Or.inr k2⟩
    refine Sim.bind (rollbackC_sim hon an (e := e)) ?_ ?_
    · rintro _ rfl
      obtain ⟨ls, b, k1, k2 | k2⟩ := sp (calmE e)
      · simp only [k2]
        cases b with
        | true => exact Sim.done rfl
        | false =>
          dsimp only
          by_cases q : (back ((m.assign x (mod (m.val x)).1).val x)).2 = true
          · simp only [if_pos q]
            exact Sim.done rfl
          · simp only [if_neg q]
            refine Sim.bind (checkC_sim hon (Ls := ls) (e := e2) (k1 ▸ an)) ?_ ?_
            · rintro _ rfl
              exact Sim.done rfl
            · rintro r ⟨e2', l1, rfl, l2⟩
              refine Sim.done ⟨calmE e, e2', like_calmE e, l1, ?_, checkEnd_notOk l2⟩
              rw [k2]
              rfl
      · simp only [k2]
        by_cases q : (back ((m.assign x (mod (m.val x)).1).val x)).2 = true
        · simp only [if_pos q]
          exact Sim.done rfl
        · simp only [if_neg q]
          refine Sim.bind (checkC_sim hon (Ls := ls) (e := e2) (k1 ▸ an)) ?_ ?_
          · rintro _ rfl
            exact Sim.done rfl
          · rintro r ⟨e2', l1, rfl, l2⟩
            refine Sim.done ⟨calmE e, e2', like_calmE e, l1, ?_, checkEndThrew_notOk⟩
            rw [k2]
            rfl
    · rintro r ⟨e', l1, rfl, l2⟩
      obtain ⟨ls, b, k1, k2 | k2⟩ := sp e'
      · exact absurd k2 (l2 _)
      · simp only [k2]
        by_cases q : (back ((m.assign x (mod (m.val x)).1).val x)).2 = true
        · simp only [if_pos q]
          refine Sim.done ⟨e', e2, l1, like_refl e2, ?_, eraseThrow_notOk _ _ _⟩
          rw [k2]
        · simp only [if_neg q]
          refine Sim.bind (checkC_sim hon (Ls := ls) (e := e2) (k1 ▸ an)) ?_ ?_
          · rintro _ rfl
            refine Sim.done ⟨e', calmE e2, l1, like_calmE e2, ?_, checkEndThrew_notOk⟩
            rw [k2]
            rfl
          · rintro r ⟨e2', l3, rfl, l4⟩
            refine Sim.done ⟨e', e2', l1, l3, ?_, checkEndThrew_notOk⟩
            rw [k2]
            rfl

end MI.Cont
