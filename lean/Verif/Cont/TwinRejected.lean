import Verif.Cont.IdealLemmas
import Verif.Cont.TwinStep3
/-!
The elements reported by two programs that look alike when an insertion is rejected.
-/
set_option linter.unusedVariables false
namespace MI.Cont
open MI
variable {V : Type} {g : Prop} {φ ψ : Id → Id} {w v w1 v1 : World V} {i j k : Nat} {c d : Container V} {x y y' : Id} {r r' : Ret}

/-- Specification vocabulary: the container into which an operation attempts to put one element. -/
def Op.into : Op V → Option Nat
  | .insert i .. | .emplace i .. | .insertNh i .. | .transfer i .. => some i
  | _ => none

/-- In a unique index, no two elements have keys equivalent to a given one. -/
theorem Inv.only_one (I : Inv w) (hi : w.cs[i]? = some c) {S : Spec V} (hS : S ∈ c.asked) (u : S.unique = true) {a : V} (hx : x ∈ c.elems) (hy : y ∈ c.elems)
    (ex : S.equiv a (w.m.val x) = true) (ey : S.equiv a (w.m.val y) = true) : x = y := by
  obtain ⟨k, hk⟩ := List.mem_iff_getElem?.1 hS
  obtain ⟨ys, hy'⟩ := seq_get hk
  obtain ⟨L, hL, h2, -, hs, ok⟩ := I.seq' hi hk hy'
  have pm := (I.seq hi hy').choose_spec.2.2.1
  subst hs
  exact MI.Ideal.only_one ok (h2.good ok) u (pm.mem_iff.2 hx) (pm.mem_iff.2 hy) ex ey

/-- Of two ways to cut a list, one has the shorter beginning, unless they are the same. -/
theorem cut_cases {α : Type} : ∀ {p q s t : List α} {a b : α}, p ++ a :: s = q ++ b :: t → a = b ∨ a ∈ q ∨ b ∈ p
  | [], [], _, _, _, _, h => Or.inl (List.cons.inj h).1
  | [], _ :: _, _, _, _, _, h => Or.inr (Or.inl (by rw [(List.cons.inj h).1]; simp))
  | _ :: _, [], _, _, _, _, h => Or.inr (Or.inr (by rw [← (List.cons.inj h).1]; simp))
  | _ :: _, _ :: _, _, _, _, _, h => by
    rcases cut_cases (List.cons.inj h).2 with k | k | k
    · exact Or.inl k
    · exact Or.inr (Or.inl (List.mem_cons_of_mem _ k))
    · exact Or.inr (Or.inr (List.mem_cons_of_mem _ k))

theorem first_alike (p : Pair g φ w v i c d) (I : Inv w) {a : V} (hy : y ∈ c.elems) (hy' : y' ∈ d.elems) (f : First c.asked w.m.val c.elems a y)
    (f' : First d.asked v.m.val d.elems a y') : y' = φ y := by
  obtain ⟨z, hz, rfl⟩ := List.mem_map.1 (p.elems.mem_iff.1 hy')
  obtain ⟨pre, S, post, e, u, q, no⟩ := f
  obtain ⟨pre', S', post', e', u', q', no'⟩ := f'
  rw [p.val z hz] at q'
  rw [p.like.asked] at e'
  have hS : S ∈ c.asked := by rw [e]; simp
  rcases cut_cases (e.symm.trans e') with k | k | k
  · subst k
    rw [I.only_one p.hi hS u hy hz q q']
  · exact absurd ⟨u, φ y, p.mem hy, by rw [p.val y hy]; exact q⟩ (no' S k)
  · exact absurd ⟨u', z, hz, q'⟩ (no S' k)

theorem rejected_alike {o o' : Op V} (M : Match g φ w v ψ o o') (A : w.Alike g φ v) (I : Inv w) (J : Inv v) (l : w.Legal o) (l' : v.Legal o')
    (s : w.step o = .ok (w1, r)) (s' : v.step o' = .ok (v1, r')) (ho : o.into = some i) (hi : w.cs[i]? = some c) (hj : v.cs[i]? = some d) (hb : r.b = false)
    (hb' : r'.b = false) : PosAlike φ c d r.pos r'.pos := by
  have p := A.pair' I J hi hj
  cases M with
  | insert i a x x' f f' hint hint' e e' h =>
    cases ho
    rcases eff_insert I l with ⟨w2, q, -⟩ | ⟨w2, y, q, -, q2⟩ | ⟨w2, q, -⟩ <;> rw [q] at s <;> cases s
    · exact nomatch hb
    rcases eff_insert J l' with ⟨w2, q', -⟩ | ⟨w2, y', q', -, q2'⟩ | ⟨w2, q', -⟩ <;> rw [q'] at s' <;> cases s'
    · exact nomatch hb'
    have m := (q2 c hi).1
    have m' := (q2' d hj).1
    exact Or.inr ⟨m, first_alike p I m m' (insert_first I l hi q m) (insert_first J l' hj q' m')⟩
  | emplace i a x x' f f' hint hint' e e' h =>
    cases ho
    rcases eff_emplace I l with ⟨w2, q, -⟩ | ⟨w2, y, q, -, q2⟩ | ⟨w2, q, -⟩ <;> rw [q] at s <;> cases s
    · exact nomatch hb
    rcases eff_emplace J l' with ⟨w2, q', -⟩ | ⟨w2, y', q', -, q2'⟩ | ⟨w2, q', -⟩ <;> rw [q'] at s' <;> cases s'
    · exact nomatch hb'
    have m := (q2 c hi).1
    have m' := (q2' d hj).1
    exact Or.inr ⟨m, first_alike p I m m' (emplace_first I l hi q m) (emplace_first J l' hj q' m')⟩
  | insertNh i h hint hint' e e' hh =>
    cases ho
    obtain ⟨-, -, hl, -⟩ := id l
    have hw : w.hs[h]? = some w.hs[h] := List.getElem?_eq_getElem hl
    generalize w.hs[h] = nh at hw
    have hv : v.hs[h]? = some (nh.map φ) := by rw [A.hs, List.getElem?_map, hw]; rfl
    cases nh with
    | none =>
      simp only [World.step, hi, hw, Container.insertNh] at s
      simp only [World.step, hj, hv, Container.insertNh, Option.map_none] at s'
      cases s; cases s'
      exact Or.inl ⟨rfl, rfl⟩
    | some x =>
      rcases eff_insertNh I l hw with ⟨w2, q, -⟩ | ⟨w2, y, q, -, -, q2⟩ | ⟨w2, q, -⟩ <;> rw [q] at s <;> cases s
      · exact nomatch hb
      rcases eff_insertNh J l' hv with ⟨w2, q', -⟩ | ⟨w2, y', q', -, -, q2'⟩ | ⟨w2, q', -⟩ <;> rw [q'] at s' <;> cases s'
      · exact nomatch hb'
      have m := (q2 c hi).1
      have m' := (q2' d hj).1
      have k := insertNh_first J l' hv hj q' m'
      rw [A.val x (I.handle_cons (mem_handled hw))] at k
      exact Or.inr ⟨m, first_alike p I m m' (insertNh_first I l hw hi q m) k⟩
  | transfer i j x e e' =>
    cases ho
    obtain ⟨-, -, cj, -, hcj, hx, -⟩ := id l
    obtain ⟨dj, pj⟩ := A.pair I J hcj
    rcases eff_transfer I l with ⟨w2, q, -⟩ | ⟨w2, y, q, -, -, q2⟩ | ⟨w2, q, -⟩ <;> rw [q] at s <;> cases s
    · exact nomatch hb
    rcases eff_transfer J l' with ⟨w2, q', -⟩ | ⟨w2, y', q', -, -, q2'⟩ | ⟨w2, q', -⟩ <;> rw [q'] at s' <;> cases s'
    · exact nomatch hb'
    have m := (q2 c hi).1
    have m' := (q2' d hj).1
    have k := transfer_first J l' hj q' m'
    rw [pj.val x hx] at k
    exact Or.inr ⟨m, first_alike p I m m' (transfer_first I l hi q m) k⟩
  | _ => exact nomatch ho

end MI.Cont
