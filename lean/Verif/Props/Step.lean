import Verif.Props.Project
import Verif.Cont.ApiLemmas
import Verif.Safe.ChecksLemmas
/-! C91: steps of an iterator in any index. -/
namespace MI.Cont
open MI
variable {V : Type} {w : World V} {c : Container V} {A : Layout} {i k p : Nat} {x : Id}

theorem split_at {xs : List Id} {hd : Id} (h : (xs ++ [hd])[p]? = some x) (ne : p ≠ xs.length) : ∃ u v, xs = u ++ x :: v ∧ u.length = p := by
  have hp : p < xs.length := by
    have := (List.getElem?_eq_some_iff.1 h).1
    simp at this; omega
  rw [List.getElem?_append_left hp] at h
  obtain ⟨_, rfl⟩ := List.getElem?_eq_some_iff.1 h
  exact ⟨xs.take p, xs.drop (p + 1), by rw [List.cons_getElem_drop_succ, List.take_append_drop], by simp; omega⟩

theorem after_at {u v : List Id} {hd : Id} : ((u ++ x :: v) ++ [hd])[u.length + 1]? = some (v.headD hd) := by
  cases v <;> simp

/-- C91: `++it`, for an iterator of any index that is not at the end, is at the next position of that index. -/
theorem C91_next (r : Reach w) (hi : w.cs[i]? = some c) (h : A.Ok c.ls.length) (s : A.Stands c k (A.iter k x) p) (ne : ¬ AtEnd c k p) :
    ∃ y, w.nextOf i k x = some y ∧ A.Stands c k (A.iter k y) (p + 1) := by
  obtain ⟨xs, hx, z, h1, e⟩ := s
  obtain rfl := iter_inj h e
  obtain ⟨u, v, rfl, rfl⟩ := split_at h1 fun e => ne ⟨xs, hx, e⟩
  exact ⟨_, nextOf_spec r.inv hi hx, _, hx, _, after_at, rfl⟩

/-- C91: `--it`, for an iterator of an index other than a hashed one that is not at the beginning, is at the position before. In particular `--end()` is the last element. -/
theorem C91_prev (r : Reach w) (hi : w.cs[i]? = some c) (h : A.Ok c.ls.length) {L : Layer V} (hL : c.ls[k]? = some L) (nh : ∀ g e hf, L.spec ≠ .hash g e hf)
    (s : A.Stands c k (A.iter k x) (p + 1)) : ∃ y, L.prev c.budget x = some y ∧ A.Stands c k (A.iter k y) p := by
  obtain ⟨xs, hx, z, h1, e⟩ := s
  obtain rfl := iter_inj h e
  have hp : p < xs.length := by
    have := (List.getElem?_eq_some_iff.1 h1).1
    simp at this; omega
  have h0 : (xs ++ [c.hd])[p]? = some xs[p] := by rw [List.getElem?_append_left hp]; exact List.getElem?_eq_getElem hp
  obtain ⟨u, v, e, rfl⟩ := split_at h0 (by omega)
  obtain ⟨L', hL', H, -, hb, -⟩ := r.inv.seq hi hx
  rw [hL] at hL'; cases hL'
  generalize xs[u.length] = y at h0 e
  subst e
  rw [after_at] at h1; cases h1
  exact ⟨_, Layer.prev_spec H hb nh, _, hx, _, h0, rfl⟩

/-- From the first element of the ordered index to the second, to the end, and back. -/
example : ∃ y, Ex.w3.nextOf 0 0 12 = some y ∧ exLayout.Stands Ex.c0 0 (exLayout.iter 0 y) 1 :=
  C91_next Ex.w3_reach Ex.hc0 exLayout_ok (x := 12) ⟨[12, 11], by decide +kernel, 12, rfl, rfl⟩
    (by rintro ⟨xs, h, e⟩; have : Ex.c0.seqs[0]? = some [12, 11] := by decide +kernel
        rw [this] at h; cases h; cases e)

/-- From the end of the ordered index to its last element. -/
example : ∃ y, (Ex.c0.ls[0]'(by decide +kernel)).prev Ex.c0.budget Ex.c0.hd = some y ∧ exLayout.Stands Ex.c0 0 (exLayout.iter 0 y) 1 :=
  C91_prev Ex.w3_reach Ex.hc0 exLayout_ok (List.getElem?_eq_getElem _) (fun _ _ _ h => by cases h) ⟨[12, 11], by decide +kernel, _, rfl, rfl⟩
end MI.Cont
