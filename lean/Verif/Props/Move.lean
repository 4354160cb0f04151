import Verif.Cont.MoveLemmas
import Verif.Cont.EffectLemmas
import Verif.Cont.Example
/-!
# C82: what becomes of an argument given as an rvalue

`w.insertM i rv left v x f hint e` and `w.replaceM i x rv left v t e` (Verif/Cont/Move.lean) are `insert` and `replace` with the argument as an object of the caller:
the last component of the result is that object afterwards, `none` if it has been moved from; an index that reads the key of an object that has been moved from gives
`.ub`. `rv` says whether the argument is an rvalue. `w.step` has the same operations with the argument as a value, which cannot change: what all other theorems are about.
-/
namespace MI.Cont
open MI
variable {V : Type} {w : World V} {i : Nat} {v : V} {x : Id} {f : Fault} {hint : Option Id} {e : Nat → Env} {rv : Bool} {left : Option V} {t : Bool}

/-- C82: `insert` of an rvalue does what `insert` of that value does, without ever reading the argument after it has been moved from; when it returns, the argument has been moved
from if, and only if, the element was inserted; when it throws, the argument is as before, unless its own move constructor threw, in which case it is
what that constructor left of it. An lvalue is never changed. -/
theorem C82_insert (r : Reach w) (l : w.Legal (.insert i v x f hint e)) :
    (∃ w' ret, w.step (.insert i v x f hint e) = .ok (w', ret) ∧ w.insertM i rv left v x f hint e = .ok (w', ret, if rv && ret.b then none else some v)) ∨
    (∃ w' ret a, w.step (.insert i v x f hint e) = .threw (w', ret) ∧ w.insertM i rv left v x f hint e = .threw (w', ret, a) ∧
      (a = some v ∨ (rv = true ∧ f.construct = true ∧ a = left))) := by
  obtain ⟨c, hi, hf, hh, env⟩ := l
  obtain ⟨hc, s, cl, sa, sc, z0, h0⟩ := r.inv.facts hi
  have hx := Fresh.not_mem r.inv hf hc
  have fs := insertM_fst (m := w.m) (c := c) (rv := rv) (left := left) (f := f) (x := x) (v := v) (hint := hint) (e := e)
  have hs : w.step (.insert i v x f hint e) = w.put i (c.insert w.m v x f hint e) := by simp only [World.step, hi]
  have hm : w.insertM i rv left v x f hint e = w.putM i (c.insertM w.m rv left (some v) x f hint e) := by simp only [World.insertM, hi]
  rw [hs, hm]
  rcases insert_spec (m := w.m) (v := v) (f := f) s hf.1 z0 hx hh (fun z hz => List.mem_cons_of_mem _ (sa z hz)) (List.mem_cons_self ..) env
    (Fresh.clear r.inv hf hc) with ⟨c', k1, -⟩ | ⟨c', y, k1, -⟩ | ⟨c', k1, -⟩
  · rw [k1] at fs ⊢
    cases hq : c.insertM w.m rv left (some v) x f hint e with
    | ok p =>
      obtain ⟨r', a⟩ := p
      rw [hq] at fs
      obtain rfl := Out.ok.inj fs
      rcases insertM_ok hq with ⟨q, -⟩ | ⟨-, q⟩
      · exact absurd q alloc_ne
      · left
        refine ⟨_, _, rfl, ?_⟩
        rw [q]
        cases rv <;> rfl
    | _ => rw [hq] at fs; cases fs
  · rw [k1] at fs ⊢
    cases hq : c.insertM w.m rv left (some v) x f hint e with
    | ok p =>
      obtain ⟨r', a⟩ := p
      rw [hq] at fs
      obtain rfl := Out.ok.inj fs
      rcases insertM_ok hq with ⟨-, q⟩ | ⟨q, -⟩
      · left
        refine ⟨_, _, rfl, ?_⟩
        rw [q]
        cases rv <;> rfl
      · exact absurd q.symm alloc_ne
    | _ => rw [hq] at fs; cases fs
  · rw [k1] at fs ⊢
    cases hq : c.insertM w.m rv left (some v) x f hint e with
    | threw p =>
      obtain ⟨r', a⟩ := p
      rw [hq] at fs
      obtain rfl := Out.threw.inj fs
      exact Or.inr ⟨_, _, a, rfl, rfl, insertM_threw hq⟩
    | _ => rw [hq] at fs; cases fs

/-- C82: `replace` with an rvalue: the argument has been moved from if, and only if, the element was replaced; when `replace` throws, the argument is as
before, unless its own move assignment threw. -/
theorem C82_replace (r : Reach w) (l : w.Legal (.replace i x v t e)) :
    (∃ w' ret, w.step (.replace i x v t e) = .ok (w', ret) ∧ w.replaceM i x rv left v t e = .ok (w', ret, if rv && ret.b then none else some v)) ∨
    (∃ w' ret a, w.step (.replace i x v t e) = .threw (w', ret) ∧ w.replaceM i x rv left v t e = .threw (w', ret, a) ∧
      (a = some v ∨ (rv = true ∧ t = true ∧ a = left))) := by
  have hok : (∃ p, w.step (.replace i x v t e) = .ok p) ∨ ∃ p, w.step (.replace i x v t e) = .threw p := by
    rcases eff_replace r.inv l with ⟨w', k, -⟩ | ⟨w', k, -⟩ | ⟨w', k, -⟩
    · exact Or.inl ⟨_, k⟩
    · exact Or.inl ⟨_, k⟩
    · exact Or.inr ⟨_, k⟩
  obtain ⟨c, hi, hx⟩ := l
  have hs : w.step (.replace i x v t e) = w.put i (c.replace w.m x v t e) := by simp only [World.step, hi]
  have hm : w.replaceM i x rv left v t e = w.putM i (c.replaceM w.m x rv left (some v) t e) := by simp only [World.replaceM, hi]
  rw [hs] at hok ⊢
  rw [hm]
  have af := replaceM_argAfter (n := c.budget) (hd := c.hd) (val := w.m.val) (x := x) (v := v) (rv := rv) (left := left) (t := t) (Ls := c.ls) (e := e)
  unfold Container.replace at hok ⊢
  unfold Container.replaceM
  revert hok af
  generalize replaceC c.budget c.hd w.m.val x v t e c.ls = o
  generalize replaceM c.budget c.hd w.m.val x rv left (some v) t e c.ls = o'
  intro hok af
  rcases o with ⟨Ls, val, b⟩ | ⟨Ls, val, b⟩ | _ | _
  · have af : o' = _ := af
    subst af
    left
    refine ⟨_, _, rfl, ?_⟩
    show World.putM w i (.ok (⟨_, _, x, b⟩, if b && rv then none else some v)) = _
    rw [Bool.and_comm]
    rfl
  · obtain ⟨a, rfl, q⟩ := af
    exact Or.inr ⟨_, _, a, rfl, rfl, q⟩
  · rcases hok with ⟨p, h⟩ | ⟨p, h⟩ <;> cases h
  · rcases hok with ⟨p, h⟩ | ⟨p, h⟩ <;> cases h

/-! ### Examples -/
section
open Ex
/-- What is left of the argument, and whether it was accepted. -/
private def rest (o : Out (World Val × Ret × Option Val)) : Option (Option Val × Bool) :=
  match o with
  | .ok (_, r, a) => some (a, r.b)
  | .threw (_, r, a) => some (a, r.b)
  | _ => none

/-- Accepted, rejected, and accepted as an lvalue. -/
example : w3.Legal (.insert 0 (4, 9) 18 {} none env) ∧ w3.Legal (.insert 0 (3, 9) 18 {} none env) := ⟨legalB_sound (by decide +kernel), legalB_sound (by decide +kernel)⟩
example : rest (w3.insertM 0 true none (4, 9) 18 {} none env) = some (none, true) := by decide +kernel
example : rest (w3.insertM 0 true none (3, 9) 18 {} none env) = some (some (3, 9), false) := by decide +kernel
example : rest (w3.insertM 0 false none (4, 9) 18 {} none env) = some (some (4, 9), true) := by decide +kernel
/-- Memory runs out: nothing has been moved. The move constructor throws: the argument is what it left. -/
example : rest (w3.insertM 0 true none (4, 9) 18 { alloc := true } none env) = some (some (4, 9), false) := by decide +kernel
example : rest (w3.insertM 0 true (some (0, 9)) (4, 9) 18 { construct := true } none env) = some (some (0, 9), false) := by decide +kernel
/-- `replace`: accepted, rejected, and a move assignment that throws. -/
example : w3.Legal (.replace 0 11 (8, 7) false env) := legalB_sound (by decide +kernel)
example : rest (w3.replaceM 0 11 true none (8, 7) false env) = some (none, true) := by decide +kernel
example : rest (w3.replaceM 0 11 true none (1, 7) false env) = some (some (1, 7), false) := by decide +kernel
example : rest (w3.replaceM 0 11 true (some (0, 7)) (8, 7) true env) = some (some (0, 7), false) := by decide +kernel
/-- The theorems apply. -/
example : ∃ w' ret, w3.insertM 0 true none (3, 9) 18 {} none env = .ok (w', ret, if true && ret.b then none else some (3, 9)) := by
  rcases C82_insert (rv := true) (left := none) w3_reach (legalB_sound (by decide +kernel) : w3.Legal (.insert 0 (3, 9) 18 {} none env)) with ⟨w', ret, -, h⟩ | ⟨w', ret, a, h, -⟩
  · exact ⟨w', ret, h⟩
  · exact absurd h (by
      rcases eff_insert w3_reach.inv (legalB_sound (by decide +kernel) : w3.Legal (.insert 0 (3, 9) 18 {} none env)) with ⟨_, k, -⟩ | ⟨_, _, k, -⟩ | ⟨_, -, -, k⟩
      · rw [k]; exact nofun
      · rw [k]; exact nofun
      · exact absurd k no_trouble)
end
end MI.Cont
