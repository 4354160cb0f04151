import Verif.Cont.EffectLemmas2
import Verif.Cont.Example
/-!
# C58: an insertion that is rejected does not touch memory or the value

The second argument of the `insert` operation of the model, `Fault`, says whether the allocation of the node and the construction of the
element from the value (copying or moving it) throw. If the result does not depend on it, neither takes place.
-/
set_option linter.unusedVariables false
namespace MI.Cont
open MI
variable {V : Type} {w w' : World V} {i : Nat} {c : Container V}

section
variable {M : Type} {n : Nat} {hd : Id} {val : Id → V} {hint : Option Id} {size : Nat} {m0 m : M} {node : Id}

/-- Unless all indices accept, `index_base::insert_` is not called. -/
theorem insertC_base (base : Out M) : ∀ {Ls : List (Layer V)} {e : Nat → Env} {xr : Id},
    (∀ r, insertC n hd val hint size m0 (.ok m) node e xr Ls = .ok r → r.res ≠ r.xr →
      insertC n hd val hint size m0 base node e xr Ls = .ok r) ∧
    (∀ r, insertC n hd val hint size m0 (.ok m) node e xr Ls = .threw r →
      insertC n hd val hint size m0 base node e xr Ls = .threw r)
  | [], e, xr => by
    constructor
    · intro r h hne
      simp only [insertC] at h
      cases h
      exact absurd rfl hne
    · intro r h
      simp only [insertC] at h
      cases h
  | L :: Ls, e, xr => by
    have ih := insertC_base base (Ls := Ls) (e := tl e) (xr := xr)
    constructor
    · intro r h hne
      simp only [insertC] at h ⊢
      cases h1 : L.reserve hd val size (e 0) with
      | ok L1 =>
        simp only [h1] at h ⊢
        cases h2 : L1.point n hd val (e 0) hint node with
        | accept pt =>
          simp only [h2] at h ⊢
          cases h3 : insertC n hd val hint size m0 (.ok m) node (tl e) xr Ls with
          | ok r1 =>
            simp only [h3] at h
            by_cases hr : r1.res = r1.xr
            · rw [if_pos hr] at h
              split at h
              · cases h
              · cases h
                exact absurd hr hne
            · rw [ih.1 r1 h3 hr]
              exact h
          | threw r1 => simp only [h3] at h; cases h
          | ub => simp only [h3] at h; cases h
          | hang => simp only [h3] at h; cases h
        | reject y => simpa only [h2] using h
        | threw => simp only [h2] at h; cases h
        | hang => simp only [h2] at h; cases h
      | threw L1 => simp only [h1] at h; cases h
      | ub => simp only [h1] at h; cases h
      | hang => simp only [h1] at h; cases h
    · intro r h
      simp only [insertC] at h ⊢
      cases h1 : L.reserve hd val size (e 0) with
      | ok L1 =>
        simp only [h1] at h ⊢
        cases h2 : L1.point n hd val (e 0) hint node with
        | accept pt =>
          simp only [h2] at h ⊢
          cases h3 : insertC n hd val hint size m0 (.ok m) node (tl e) xr Ls with
          | ok r1 =>
            simp only [h3] at h
            by_cases hr : r1.res = r1.xr
            · rw [if_pos hr] at h
              split at h <;> cases h
            · rw [if_neg hr] at h
              cases h
          | threw r1 =>
            rw [ih.2 r1 h3]
            simpa only [h3] using h
          | ub => simp only [h3] at h; cases h
          | hang => simp only [h3] at h; cases h
        | reject y => simp only [h2] at h; cases h
        | threw => simpa only [h2] using h
        | hang => simp only [h2] at h; cases h
      | threw L1 => simpa only [h1] using h
      | ub => simp only [h1] at h; cases h
      | hang => simp only [h1] at h; cases h

end

/-- C58: `insert` (with or without hint) of a value that has an equivalent key in a unique index: whether the allocation of
a node or the construction of an element would throw makes no difference, so neither is attempted. (This includes the case that a call of a
user function throws, or that memory for buckets or the pointer array cannot be had.) -/
theorem C58_insert {v : V} {x : Id} {f : Fault} {hint : Option Id} {e : Nat → Env} (r : Reach w) (l : w.Legal (.insert i v x f hint e))
    (hc : w.cs[i]? = some c) (b : c.Bans w.m.val [] v) (f' : Fault) :
    w.step (.insert i v x f' hint e) = w.step (.insert i v x f hint e) := by
  have l0 : w.Legal (.insert i v x {} hint e) := l
  have key : ∀ g : Fault, w.step (.insert i v x g hint e) = w.step (.insert i v x {} hint e) := by
    intro g
    have k := eff_insert r.inv l0
    simp only [World.step, hc, Container.insert] at k ⊢
    have ib := insertC_base (n := c.budget) (hd := c.hd) (val := upd w.m.val x v) (hint := hint) (size := c.count) (m0 := w.m)
      (m := (w.m.allocate x).construct x v) (node := x) (baseInsert g w.m x v) (Ls := c.ls) (e := e) (xr := 0)
    have e0 : baseInsert {} w.m x v = .ok ((w.m.allocate x).construct x v) := rfl
    rw [e0] at k ⊢
    cases h : insertC c.budget c.hd (upd w.m.val x v) hint c.count w.m (.ok ((w.m.allocate x).construct x v)) x e 0 c.ls with
    | ok q =>
      by_cases hq : q.res = q.xr
      · exfalso
        rw [h] at k
        simp only [if_pos hq, World.put] at k
        rcases k with ⟨w1, -, -, -, -, -, -, k2, -⟩ | ⟨w1, y, k1, -⟩ | ⟨w1, k1, -⟩
        · exact k2 c rfl b
        · cases k1
        · cases k1
      · rw [ib.1 q h hq]
    | threw q => rw [ib.2 q h]
    | ub =>
      rw [h] at k
      rcases k with ⟨w1, k1, -⟩ | ⟨w1, y, k1, -⟩ | ⟨w1, k1, -⟩ <;> cases k1
    | hang =>
      rw [h] at k
      rcases k with ⟨w1, k1, -⟩ | ⟨w1, y, k1, -⟩ | ⟨w1, k1, -⟩ <;> cases k1
  rw [key f', key f]

/-- C58: and in that case, if no user function throws and there is memory for buckets and the pointer array, the insertion is rejected even
though there would be no memory for a node and the value cannot be copied or moved; nothing is allocated or constructed. -/
theorem C58_no_memory {v : V} {x : Id} {f : Fault} {hint : Option Id} {e : Nat → Env} (r : Reach w) (l : w.Legal (.insert i v x f hint e))
    (hc : w.cs[i]? = some c) (b : c.Bans w.m.val [] v) (q : ∀ k, (e k).Quiet) :
    ∃ w' y, w.step (.insert i v x f hint e) = .ok (w', ⟨y, false⟩) ∧ y ∈ c.elems ∧ w'.m.alloc = w.m.alloc ∧ w'.m.cons = w.m.cons := by
  have l0 : w.Legal (.insert i v x {} hint e) := l
  rw [← C58_insert r l hc b {}]
  rcases eff_insert r.inv l0 with ⟨w1, -, -, -, -, -, -, k2, -⟩ | ⟨w1, y, k1, k2, k3⟩ | ⟨w1, -, -, k3⟩
  · exact absurd b (k2 c hc)
  · exact ⟨w1, y, k1, (k3 c hc).1, k2.1.alloc, k2.1.cons⟩
  · rcases k3 with k | k | ⟨k, hk⟩
    · cases k
    · cases k
    · exact absurd (q k) hk

section
open Ex
example : c0.Bans w3.m.val [] (3, 9) := (bans0 _).2 (Or.inr rfl)
example : w3.Legal (.insert 0 (3, 9) 18 { alloc := true, construct := true } none env) := legalB_sound (by decide +kernel)
example : ∃ w' y, w3.step (.insert 0 (3, 9) 18 { alloc := true, construct := true } none env) = .ok (w', ⟨y, false⟩) ∧ y ∈ c0.elems ∧
    w'.m.alloc = w3.m.alloc ∧ w'.m.cons = w3.m.cons :=
  C58_no_memory w3_reach (legalB_sound (by decide +kernel)) hc0 ((bans0 _).2 (Or.inr rfl)) env_quiet
/-- For a value that is not rejected, and for `emplace`, it makes a difference. -/
example : (match w3.step (.insert 0 (4, 9) 18 { alloc := true } none env) with | .threw _ => true | _ => false) = true := by decide +kernel
example : (match w3.step (.emplace 0 (3, 9) 18 { alloc := true } none env) with | .threw _ => true | _ => false) = true := by decide +kernel
end
end MI.Cont
