import Verif.Cont.Move
import Verif.Cont.StepInv
/-!
Lemmas about arguments given as rvalues.
-/
namespace MI.Cont
open MI
variable {V : Type}

section
variable {M M' : Type} {n : Nat} {hd : Id} {val : Id → V} {hint : Option Id} {size : Nat} {m0 : M} {base : Out M} {node : Id}

/-- Forget part of the state. -/
def Ins.to (g : M → M') (r : Ins V M) : Ins V M' := ⟨r.ls, g r.m, r.res, r.xr⟩

/-- Change the state of an outcome. -/
def outTo {α β : Type} (g : α → β) : Out α → Out β
  | .ok a => .ok (g a)
  | .threw a => .threw (g a)
  | .ub => .ub
  | .hang => .hang

theorem insertC_to (g : M → M') : ∀ {Ls : List (Layer V)} {e : Nat → Env} {xr : Id},
    insertC n hd val hint size (g m0) (outTo g base) node e xr Ls = outTo (Ins.to g) (insertC n hd val hint size m0 base node e xr Ls)
  | [], e, xr => by
    unfold insertC
    cases base <;> rfl
  | L :: Ls, e, xr => by
    unfold insertC
    rw [insertC_to (Ls := Ls) (e := tl e) (xr := xr) g]
    cases L.reserve hd val size (e 0) with
    | ok L =>
      simp only
      cases L.point n hd val (e 0) hint node with
      | accept pt =>
        simp only
        cases insertC n hd val hint size m0 base node (tl e) xr Ls with
        | ok r =>
          simp only [outTo, Ins.to]
          split
          · cases L.link n hd r.xr pt <;> rfl
          · rfl
        | threw r => rfl
        | ub => rfl
        | hang => rfl
      | _ => rfl
    | _ => rfl

theorem insertC_ok : ∀ {Ls : List (Layer V)} {e : Nat → Env} {xr : Id} {r : Ins V M}, insertC n hd val hint size m0 base node e xr Ls = .ok r → r.m = m0 ∨ base = .ok r.m
  | [], e, xr, r, h => by
    unfold insertC at h
    split at h <;> cases h
    exact Or.inr rfl
  | L :: Ls, e, xr, r, h => by
    unfold insertC at h
    split at h
    · cases h
    · cases h
    · cases h
    · split at h
      · cases h
      · cases h
      · cases h; exact Or.inl rfl
      · split at h
        · rename_i r' hr
          have := insertC_ok hr
          split at h
          · split at h
            · cases h
            · cases h; exact this
          · cases h; exact this
        · cases h
        · cases h
        · cases h

theorem insertC_threw : ∀ {Ls : List (Layer V)} {e : Nat → Env} {xr : Id} {r : Ins V M}, insertC n hd val hint size m0 base node e xr Ls = .threw r → r.m = m0 ∨ base = .threw r.m
  | [], e, xr, r, h => by
    unfold insertC at h
    split at h <;> cases h
    exact Or.inr rfl
  | L :: Ls, e, xr, r, h => by
    unfold insertC at h
    split at h
    · cases h; exact Or.inl rfl
    · cases h
    · cases h
    · split at h
      · cases h; exact Or.inl rfl
      · cases h
      · cases h
      · split at h
        · split at h
          · split at h <;> cases h
          · cases h
        · rename_i r' hr
          cases h
          exact insertC_threw (r := r') hr
        · cases h
        · cases h

end

section
variable {n : Nat} {hd : Id} {hint : Option Id} {size : Nat} {rv : Bool} {left : Option V} {f : Fault} {x : Id} {m : Mem V} {v : V}

theorem insertM_eq : ∀ {Ls : List (Layer V)} {e : Nat → Env} {xr : Id},
    insertM n hd hint size rv left f x e xr (m, some v) Ls = insertC n hd (upd m.val x v) hint size (m, some v) (baseMove rv left f x (m, some v)) x e xr Ls
  | [], e, xr => by
    unfold insertM insertC
    cases baseMove rv left f x (m, some v) <;> rfl
  | L :: Ls, e, xr => by
    unfold insertM insertC
    rw [insertM_eq]
    show (match L.reserve hd (upd m.val x v) size (e 0) with
      | .threw L => _
      | .ub => _
      | .hang => _
      | .ok L => _) = _
    cases L.reserve hd (upd m.val x v) size (e 0) with
    | ok L =>
      simp only [reduceCtorEq, and_false, if_false]
      show (match L.point n hd (upd m.val x v) (e 0) hint x with
        | .threw => _
        | .hang => _
        | .reject y => _
        | .accept pt => _) = _
      cases L.point n hd (upd m.val x v) (e 0) hint x with
      | accept pt =>
        simp only
        cases insertC n hd (upd m.val x v) hint size (m, some v) (baseMove rv left f x (m, some v)) x (tl e) xr Ls <;> rfl
      | _ => rfl
    | _ => rfl

theorem base_fst : outTo Prod.fst (baseMove rv left f x (m, some v)) = baseInsert f m x v := by
  unfold baseMove baseInsert
  simp only
  split
  · rfl
  · split
    · split <;> simp_all [outTo]
    · rfl

end

variable {m : Mem V} {c : Container V} {rv : Bool} {left : Option V} {f : Fault} {x : Id} {v : V} {hint : Option Id} {e : Nat → Env}

theorem insertM_fst : outTo Prod.fst (c.insertM m rv left (some v) x f hint e) = c.insert m v x f hint e := by
  unfold Container.insertM Container.insert
  have h := insertC_to (n := c.budget) (hd := c.hd) (val := upd m.val x v) (hint := hint) (size := c.count) (m0 := (m, some v)) (base := baseMove rv left f x (m, some v)) (node := x)
    (Prod.fst (α := Mem V) (β := Option V)) (Ls := c.ls) (e := e) (xr := 0)
  rw [base_fst] at h
  have h : insertC c.budget c.hd (upd m.val x v) hint c.count m (baseInsert f m x v) x e 0 c.ls = _ := h
  rw [h, insertM_eq]
  cases insertC c.budget c.hd (upd m.val x v) hint c.count (m, some v) (baseMove rv left f x (m, some v)) x e 0 c.ls with
  | ok r =>
    simp only [outTo, Ins.to]
    by_cases q : r.res = r.xr
    · simp only [if_pos q]
    · simp only [if_neg q]
  | threw r => rfl
  | ub => rfl
  | hang => rfl

theorem base_ok {s : Mem V × Option V} (h : baseMove rv left f x (m, some v) = .ok s) : s = ((m.allocate x).construct x v, if rv then none else some v) := by
  unfold baseMove at h
  simp only at h
  split at h
  · cases h
  · split at h
    · split at h <;> cases h
    · cases h; rfl

theorem base_threw {s : Mem V × Option V} (h : baseMove rv left f x (m, some v) = .threw s) : s.2 = some v ∨ (rv = true ∧ f.construct = true ∧ s.2 = left) := by
  unfold baseMove at h
  simp only at h
  split at h
  · cases h; exact Or.inl rfl
  · split at h
    · rename_i hc
      split at h
      · cases h
      · cases h
        cases rv with
        | false => exact Or.inl rfl
        | true => exact Or.inr ⟨rfl, hc, rfl⟩
    · cases h

theorem alloc_ne : (m.allocate x).construct x v ≠ m := by
  intro h
  have := congrArg (fun m => m.alloc.length) h
  simp [Mem.construct, Mem.allocate] at this

/-- The argument after an insertion that returns. -/
theorem insertM_ok {r : Res V} {a : Option V} (h : c.insertM m rv left (some v) x f hint e = .ok (r, a)) :
    (r.m = m ∧ a = some v) ∨ (r.m = (m.allocate x).construct x v ∧ a = if rv then none else some v) := by
  unfold Container.insertM at h
  rw [insertM_eq] at h
  split at h
  · rename_i q hq
    have k : (r.m = q.m.1 ∧ a = q.m.2) := by
      split at h <;> (cases h; exact ⟨rfl, rfl⟩)
    rcases insertC_ok hq with e1 | e1
    · left; rw [k.1, k.2, e1]; exact ⟨rfl, rfl⟩
    · right; rw [k.1, k.2, base_ok e1]; exact ⟨rfl, rfl⟩
  · cases h
  · cases h
  · cases h

/-- The argument after an insertion that throws. -/
theorem insertM_threw {r : Res V} {a : Option V} (h : c.insertM m rv left (some v) x f hint e = .threw (r, a)) :
    a = some v ∨ (rv = true ∧ f.construct = true ∧ a = left) := by
  unfold Container.insertM at h
  rw [insertM_eq] at h
  split at h
  · split at h <;> cases h
  · rename_i q hq
    cases h
    rcases insertC_threw hq with e1 | e1
    · left; rw [e1]
    · exact base_threw e1
  · cases h
  · cases h

section
variable {n : Nat} {hd : Id} {val : Id → V} {t : Bool}

/-- The argument after `replace`. -/
def ArgAfter (rv : Bool) (left : Option V) (v : V) (t : Bool) : Out (List (Layer V) × (Id → V) × Bool) → Out (List (Layer V) × (Id → V) × Bool × Option V) → Prop
  | .ok (Ls, val, b), o => o = .ok (Ls, val, b, if b && rv then none else some v)
  | .threw (Ls, val, b), o => ∃ a, o = .threw (Ls, val, b, a) ∧ (a = some v ∨ (rv = true ∧ t = true ∧ a = left))
  | .ub, o => o = .ub
  | .hang, o => o = .hang

theorem replaceM_argAfter : ∀ {Ls : List (Layer V)} {e : Nat → Env},
    ArgAfter rv left v t (replaceC n hd val x v t e Ls) (replaceM n hd val x rv left (some v) t e Ls)
  | [], e => by
    unfold replaceC replaceM
    cases t with
    | true =>
      refine ⟨_, rfl, ?_⟩
      cases rv with
      | true => exact Or.inr ⟨rfl, rfl, rfl⟩
      | false => exact Or.inl rfl
    | false => cases rv <;> rfl
  | L :: Ls, e => by
    have ih := replaceM_argAfter (Ls := Ls) (e := tl e)
    unfold replaceC replaceM
    revert ih
    generalize replaceC n hd val x v t (tl e) Ls = o
    generalize replaceM n hd val x rv left (some v) t (tl e) Ls = o'
    intro ih
    split
    · rcases o with ⟨Ls', val', b⟩ | ⟨Ls', val', b⟩ | _ | _
      · have ih : o' = _ := ih
        subst ih; rfl
      · obtain ⟨a, rfl, q⟩ := ih
        exact ⟨a, rfl, q⟩
      · have ih : o' = _ := ih
        subst ih; rfl
      · have ih : o' = _ := ih
        subst ih; rfl
    · simp only
      cases L.keeps n hd (upd val x v) (val x) (e 0) x with
      | ub => rfl
      | hang => rfl
      | threw _ => exact ⟨_, rfl, Or.inl rfl⟩
      | ok b =>
        cases b with
        | true =>
          simp only
          rcases o with ⟨Ls', val', b⟩ | ⟨Ls', val', b⟩ | _ | _
          · have ih : o' = _ := ih
            subst ih; rfl
          · obtain ⟨a, rfl, q⟩ := ih
            exact ⟨a, rfl, q⟩
          · have ih : o' = _ := ih
            subst ih; rfl
          · have ih : o' = _ := ih
            subst ih; rfl
        | false =>
          simp only
          cases L.takeOut n hd x with
          | none => rfl
          | some p =>
            obtain ⟨L1, sv⟩ := p
            simp only
            cases L1.point n hd (upd val x v) (e 0) none x with
            | hang => rfl
            | threw =>
              simp only
              cases L1.putBack n hd x sv with
              | none => rfl
              | some L2 => exact ⟨_, rfl, Or.inl rfl⟩
            | reject y =>
              simp only
              cases L1.putBack n hd x sv with
              | none => rfl
              | some L2 => rfl
            | accept pt =>
              simp only
              rcases o with ⟨Ls', val', b⟩ | ⟨Ls', val', b⟩ | _ | _
              · have ih : o' = _ := ih
                subst ih
                cases b with
                | true =>
                  simp only
                  cases L1.link n hd x pt <;> rfl
                | false =>
                  simp only
                  cases L1.putBack n hd x sv <;> rfl
              · obtain ⟨a, rfl, q⟩ := ih
                simp only
                cases L1.putBack n hd x sv with
                | none => rfl
                | some L2 => exact ⟨a, rfl, q⟩
              · have ih : o' = _ := ih
                subst ih; rfl
              · have ih : o' = _ := ih
                subst ih; rfl

end
end MI.Cont
