import Verif.Cont.State3
/-! Swapping containers, and empty containers with the functions of another one. -/
namespace MI.Cont
open MI
variable {V : Type}

theorem Layer.swap_spec {L M : Layer V} (h : L.kind = M.kind) : L.swap M = some (M, L) := by
  cases L <;> cases M <;> simp_all [Layer.kind, Layer.swap]

theorem Layer.swapElements_spec {L M : Layer V} (h : L.spec = M.spec) : L.swapElements M = some (M, L) := by
  cases L <;> cases M <;> simp_all [Layer.spec, Layer.swapElements]

theorem swapLs_spec {f : Layer V → Layer V → Option (Layer V × Layer V)} {α : Type} {g : Layer V → α} (hf : ∀ L M, g L = g M → f L M = some (M, L)) :
    ∀ {Ls Ms : List (Layer V)}, Ls.map g = Ms.map g → swapLs f Ls Ms = some (Ms, Ls)
  | [], [], _ => rfl
  | [], _ :: _, h => nomatch h
  | _ :: _, [], h => nomatch h
  | L :: Ls, M :: Ms, h => by
    simp only [List.map_cons, List.cons.injEq] at h
    simp only [swapLs, hf L M h.1, swapLs_spec hf h.2]

theorem swap_spec {c d : Container V} (h : c.kinds = d.kinds) : c.swap d = some (d, c) := by
  simp only [Container.swap, swapLs_spec (fun _ _ => Layer.swap_spec) h]

theorem swapElements_spec {c d : Container V} (h : c.ls.map Layer.spec = d.ls.map Layer.spec) : c.swapElements d = some (d, c) := by
  simp only [Container.swapElements, swapLs_spec (fun _ _ => Layer.swapElements_spec) h]

theorem blank_spec {pol : Pol} {e : Env} {hd z : Id} (L : Layer V) : ((L.blank pol e).layer hd z).spec = L.spec := by cases L <;> rfl

theorem blanks_specs {pol : Pol} {hd z : Id} : ∀ {e : Nat → Env} {Ls : List (Layer V)}, specs ((blanks pol e Ls).map (·.layer hd z)) = specs Ls
  | _, [] => rfl
  | e, L :: Ls => by
    simp only [blanks, List.map_cons, specs_cons, blank_spec]
    rw [blanks_specs]

theorem blanks_ok {pol : Pol} {w : World V} {hd : Id} : ∀ {e : Nat → Env} {Ls : List (Layer V)}, OkAll (specs Ls) → BlankAll (hd :: w.m.alloc) e Ls →
    ∀ a ∈ blanks pol e Ls, a.Ok w hd
  | _, [], _, _, _, h => nomatch h
  | e, L :: Ls, ok, b, a, h => by
    rcases List.mem_cons.1 h with rfl | h
    · have o := ok L.spec (by simp [specs])
      cases L with
      | ord => exact o
      | hash => exact ⟨o, b.1⟩
      | seq => trivial
      | rnd => trivial
    · exact blanks_ok (e := fun i => e (i + 1)) (fun S hS => ok S (by simp only [specs_cons, List.mem_cons]; exact Or.inr hS)) b.2 a h

/-- An empty container with the functions of another one. -/
theorem newLike_spec {w : World V} {c : Container V} {val : Id → V} {hd z : Id} {pol : Pol} {e : Nat → Env} (s : Sound val c) (h0 : hd ≠ 0)
    (b : BlankAll (hd :: w.m.alloc) e c.ls) :
    Sound val (c.blank hd z pol e) ∧ (c.blank hd z pol e).elems = [] ∧ specs (c.blank hd z pol e).ls = specs c.ls ∧ Clear (hd :: w.m.alloc) (c.blank hd z pol e).ls := by
  obtain ⟨k1, k2, k3⟩ := new_spec (w := w) (z := z) (val := val) (is := blanks pol e c.ls) h0
    (by intro h; apply s.ne; cases hc : c.ls with
        | nil => rfl
        | cons L Ls => rw [hc] at h; exact nomatch h) (blanks_ok s.ok b)
  exact ⟨k1, k2, blanks_specs, k3⟩

end MI.Cont
