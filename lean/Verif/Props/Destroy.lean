import Verif.Cont.DeleteSteps
import Verif.Props.Cont
/-!
# C83: how long destruction takes, and how much of the stack

The elements are destroyed by the first index. An ordered index does so by a recursive function (ord_index_impl.hpp:1301-1308), so that the stack a program needs for destroying a container
depends on its contents. The documentation says that the destructor takes time `O(n)` (doc/reference/multi_index_container.html:827).

`Cost.rounds`: rounds of all loops and calls of the recursive function. `Cost.depth`: calls of the recursive function that are active at the same time (`Verif/Cont/DeleteSteps.lean`).
-/
namespace MI.Cont
open MI
variable {V : Type} {w : World V} {c : Container V} {i : Nat}

/-- C83: the destructor of a container of `n` elements takes at most `2*n+1` rounds and calls, of which at most `2*log2(n+1)+1` are active at a time. This computes the step that C50 is
about. -/
theorem C83_destroy (r : Reach w) (hc : w.cs[i]? = some c) :
    (∃ m m', (c.deleteAllS w.m).1 = .ok m ∧ m.deallocate c.hd = some m' ∧ w.step (.destroy i) = .ok ({ w with m := m', cs := w.cs.eraseIdx i }, ⟨0, true⟩)) ∧
      (c.deleteAllS w.m).2.rounds ≤ 2 * c.count + 1 ∧ (c.deleteAllS w.m).2.depth ≤ 2 * Nat.log2 (c.count + 1) + 1 := by
  refine ⟨?_, Container.deleteAllS_le (r.sound (List.mem_of_getElem? hc))⟩
  obtain ⟨w', ret, e, -, -⟩ := C50_destroy r hc
  rw [Container.deleteAllS_fst]
  simp only [World.step, hc] at e ⊢
  cases e1 : c.deleteAll w.m with
  | ok m =>
    rw [e1] at e
    simp only at e ⊢
    cases e2 : m.deallocate c.hd with
    | none => rw [e2] at e; nomatch e
    | some m' => exact ⟨m, m', rfl, e2, by simp only [e2]⟩
  | threw _ => rw [e1] at e; nomatch e
  | ub => rw [e1] at e; nomatch e
  | hang => rw [e1] at e; nomatch e

/-- C83: `clear()` takes at most `2*n+1` rounds and calls, and a round for each bucket of the hashed indices; no more calls are active at a time than for the destructor. -/
theorem C83_clear (r : Reach w) (hc : w.cs[i]? = some c) :
    w.step (.clear i) = w.put i (c.clearS w.m).1 ∧
      (c.clearS w.m).2.rounds ≤ 2 * c.count + 1 + (c.ls.map Layer.buckets).sum ∧ (c.clearS w.m).2.depth ≤ 2 * Nat.log2 (c.count + 1) + 1 := by
  refine ⟨?_, Container.clearS_le (r.sound (List.mem_of_getElem? hc))⟩
  rw [Container.clearS_fst]
  simp only [World.step, hc]

section
open Ex
/-- A container with two elements and four indices, the first of which is ordered: five calls, of which at most three are active at a time. -/
example : (c0.deleteAllS w3.m).2 = ⟨5, 3⟩ ∧ c0.count = 2 := by decide +kernel
example : (c0.deleteAllS w3.m).2.depth ≤ 3 := (C83_destroy w3_reach hc0).2.2
example : w3.step (.clear 0) = w3.put 0 (c0.clearS w3.m).1 ∧ (c0.clearS w3.m).2.rounds ≤ 58 := ⟨(C83_clear w3_reach hc0).1, (C83_clear w3_reach hc0).2.1⟩
end

end MI.Cont
