import Verif.Cont.CheckLemmas
import Verif.Cont.EffectLemmas2
import Verif.Cont.Example
/-!
# C55: invariant checking

With `BOOST_MULTI_INDEX_ENABLE_INVARIANT_CHECKING`, every operation of a container ends with an assertion that `invariant_()` holds.
`c.check val` is the result of `invariant_()` for the container `c`: `some true`, `some false`, or `none` if it does not come to
an end.
-/
set_option linter.unusedVariables false
namespace MI.Cont
open MI
variable {V : Type} {w w' : World V} {c : Container V}

/-- C55: in every reachable state, the invariant check of every container ends and succeeds. -/
theorem C55_check (r : Reach w) (hc : c ∈ w.cs) : c.check w.m.val = some true := (r.sound hc).check

/-- C55: so the assertion at the end of an operation holds, whether the operation returned or threw, for every container. -/
theorem C55_assert (r : Reach w) {o : Op V} (l : w.Legal o) {ret : Ret} (h : w.step o = .ok (w', ret) ∨ w.step o = .threw (w', ret))
    (hc : c ∈ w'.cs) : c.check w'.m.val = some true := C55_check (.step r l h) hc

/-- C55: what the check of a container in an arbitrary, possibly damaged, state tells: if it succeeds then the traversal of
every index ends after `size()` elements. -/
theorem C55_meaning {val : Id → V} (h : c.check val = some true) {L : Layer V} (hL : L ∈ c.ls) :
    ∃ xs, L.walk c.budget c.hd = some xs ∧ xs.length = c.count := Layer.check_walk (checkAll_mem h L hL)

section
open Ex
example : c0.check w3.m.val = some true := C55_check w3_reach mem0
example : c0.count = 2 ∧ c0.ls.length = 4 := by decide +kernel
example : w3.Legal (.insert 0 (4, 4) 15 { construct := true } none env) := legalB_sound (by decide +kernel)
example : ∃ w' ret, w3.step (.insert 0 (4, 4) 15 { construct := true } none env) = .threw (w', ret) ∧ ∀ c ∈ w'.cs, c.check w'.m.val = some true := by
  have l : w3.Legal (.insert 0 (4, 4) 15 { construct := true } none env) := legalB_sound (by decide +kernel)
  obtain ⟨w', ret, h, -⟩ := step_safe w3_reach.inv l
  refine ⟨w', ret, ?_, fun c hc => C55_assert w3_reach l h hc⟩
  rcases h with h | h
  · have : (match w3.step (.insert 0 (4, 4) 15 { construct := true } none env) with | .ok _ => false | _ => true) = true := by decide +kernel
    rw [h] at this
    cases this
  · exact h
/-- The check finds damage: a wrong count; the key of an element changed behind the back of the container, so that an ordered index
is not sorted, or a hashed index has it in the wrong bucket; wrong links in each kind of index; a wrong colour, a wrong size. -/
example : ({ c0 with count := 3 } : Container Val).check w3.m.val = some false := by decide +kernel
example : c0.check (upd w3.m.val 11 (0, 7)) = some false ∧ c0.check (upd w3.m.val 11 (3, 8)) = some false := by decide +kernel
/-- Damage done to the indices. -/
def harm (f : Layer Val → Layer Val) : Container Val := { c0 with ls := c0.ls.map f }
example : (harm fun L => L).check w3.m.val = some true := by decide +kernel
example : (harm fun | .ord u lt h => .ord u lt (h.setLeft 1 11) | L => L).check w3.m.val = some false := by decide +kernel
example : (harm fun | .ord u lt h => .ord u lt (h.setRight 1 12) | L => L).check w3.m.val = some false := by decide +kernel
example : (harm fun | .ord u lt h => .ord u lt ((h.setColor 11 .red).setColor 12 .red) | L => L).check w3.m.val = some false := by decide +kernel
example : (harm fun | .ord u lt h => .ord u lt (h.setSize 11 5) | L => L).check w3.m.val = some false := by decide +kernel
example : (harm fun | .hash c eq hf p ml h a => .hash c eq hf p ml (h.setPrior (a.at 0) 11) a | L => L).check w3.m.val = some false := by decide +kernel
example : (harm fun | .seq h => .seq (h.setPrior 12 1) | L => L).check w3.m.val = some false := by decide +kernel
example : (harm fun | .rnd s => .rnd { s with up := upd s.up 12 0 } | L => L).check w3.m.val = some false := by decide +kernel
example : (harm fun | .rnd s => .rnd { s with cap := 1 } | L => L).check w3.m.val = some false := by decide +kernel
end

end MI.Cont
