import Verif.Cont.World
import Verif.Seq.Steps
/-!
# What rearrangements of sequenced indices of containers take
-/
namespace MI.Cont
open MI
variable {V : Type}

/-- The rearrangements of a sequenced index, as `Layer.rearrange`, with the rounds of their loops counted: sequenced_index.hpp:598-668, 1056-1071. The loops
of `rearrange` and of `splice` of a range of another index have a round for each element of the range; `relocate` has no loop. -/
def rearrangeSeqS (n : Nat) (hd : Id) (val : Id → V) (a : Rearr V) (h : Seq.Heap) : Out (Layer V) × Nat :=
  match a with
  | .relocateRange pos first last => (.ok (.seq (Seq.relocateRange h pos first last)), 0)
  | .reverse =>
    match Seq.reverseS n h hd with
    | (none, t) => (.hang, t)
    | (some h, t) => (.ok (.seq h), t)
  | .rearrange vs => (.ok (.seq (Seq.rearrange h hd vs)), vs.length)
  | .splice pos vs => (.ok (.seq (Seq.internalSplice h pos vs)), vs.length)
  | .sort cmp carry cid _ =>
    match Seq.sortS (fun t x y => cmp t (val x) (val y)) n n h hd carry cid with
    | (.ok (h, _), t) => (.ok (.seq h), t)
    | (.threw (h, _), t) => (.threw (.seq h), t)
    | (.ub, t) => (.ub, t)
    | (.hang, t) => (.hang, t)
  | .reserve _ _ _ | .shrink _ _ | .remove _ | .unique _ | .merge _ _ _ => (.ub, 0)

/-- They do what the rearrangements do. -/
theorem rearrangeSeqS_fst (n : Nat) (hd : Id) (val : Id → V) (a : Rearr V) (h : Seq.Heap) :
    (rearrangeSeqS n hd val a h).1 = Layer.rearrange n hd val a (.seq h) := by
  cases a with
  | reverse =>
    simp only [rearrangeSeqS, Layer.rearrange]
    rw [show Seq.Heap.reverse n h hd = (Seq.reverseS n h hd).1 from (Seq.reverseGoS_fst ..).symm]
    rcases Seq.reverseS n h hd with ⟨_ | _, t⟩ <;> rfl
  | sort cmp carry cid ssort =>
    simp only [rearrangeSeqS, Layer.rearrange]
    rw [← Seq.sortS_fst]
    rcases Seq.sortS (fun t x y => cmp t (val x) (val y)) n n h hd carry cid with ⟨_ | _ | _ | _, t⟩ <;> rfl
  | _ => rfl

end MI.Cont
