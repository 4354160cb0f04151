import Verif.Ser.LoadCallsHonest
import Verif.Ser.LoadCallsLemmas
import Verif.Props.SerLoad
import Verif.Props.Throws
import Verif.Props.Wild
/-!
# Loading with functions that throw or break their requirements: C51, C77

`loadR H f w i A` (`Verif/Ser/LoadCalls.lean`): archive `A` is loaded in container `i` of program state `w`, with every call of a comparison object, equality predicate, hash
function or key extractor explicit. `fate t q` says how call number `t` ended (`none`: it threw). `f` says where an allocation fails or reading the archive throws.
-/
namespace MI.Ser
open MI MI.Cont MI.Runs
variable {V : Type} {w : World V} {i : Nat} {c : Container V} {H : Host V}

/-- C51: if no call of a user function throws, loading does what the other properties say it does when none throws. -/
theorem C51_calls_no_exception {fate : Nat → UserCall V → Option Bool} (r : Reach w) (hi : w.cs[i]? = some c) (ok : H.Ok) (f : Mishap) (A : Archive V)
    (hon : Honest (w.answers i) fate) (h : ¬ (loadR H f w i A).throws fate) : (loadR H f w i A).result fate = load (calmHost H) f w i A := by
  rcases loadR_sim ok f r hi A hon 0 with ⟨-, k⟩ | ⟨k, -⟩
  · exact k
  · exact absurd k h

/-- C51: if a call of a user function throws, whichever it is, the exception leaves `load`; the container loaded is valid, with the same kinds of indices, and the other containers, the
node handles and the elements of both are as they were. -/
theorem C51_calls_exception {fate : Nat → UserCall V → Option Bool} (r : Reach w) (hi : w.cs[i]? = some c) (ok : H.Ok) (f : Mishap) (A : Archive V)
    (hon : Honest (w.answers i) fate) (h : (loadR H f w i A).throws fate) :
    ∃ w' c', (loadR H f w i A).result fate = .threw w' ∧ Reach w' ∧ OnlyAt w w' i c c' ∧ w'.hs = w.hs ∧
      ∀ z ∈ w.m.cons, z ∉ c.elems → z ∈ w'.m.cons ∧ w'.m.val z = w.m.val z := by
  rcases loadR_sim ok f r hi A hon 0 with ⟨k, -⟩ | ⟨-, k⟩
  · exact absurd h k
  · exact k

/-- C51: while an ordered index of non-unique keys moves its elements, as the archive says, a comparison throws: the elements moved before it are where the archive wants them, and the
program state is that of a shorter archive. -/
theorem C51_index_calls_exception {k : Nat} {fail : Bool} {ins : List (Option Id × Id)} {fate : Nat → UserCall V → Option Bool}
    (l : w.Legal (.place i k fail ins)) (hon : Honest (w.answers i) fate) (h : (w.placeR i k fail ins).throws fate) :
    ∃ m w' ret, m < ins.length ∧ w.step (.place i k fail (ins.take m)) = .ok (w', ret) ∧ (w.placeR i k fail ins).result fate = .threw (w', ret) := by
  rcases placeR_sim l hon 0 with ⟨k, -⟩ | ⟨-, k⟩
  · exact absurd h k
  · exact k

/-- C77: whatever the archive has and whatever user functions answer, and whichever of their calls throw, loading comes to an end without undefined behaviour; the program can go on
(so `C77_intact` and `C77_memory` hold for the state it leaves), the container keeps its indices, and the other containers, the node handles and the values of their elements are as
they were. -/
theorem C77_load (r : WildReach w) (hi : w.cs[i]? = some c) (ok : WildHost H) (f : Mishap) (A : Archive V) (fate : Nat → UserCall V → Option Bool) :
    ∃ w' c', ((loadR H f w i A).result fate = .ok w' ∨ (loadR H f w i A).result fate = .threw w') ∧ WildReach w' ∧ w'.cs = w.cs.set i c' ∧ SameKind c c' ∧ w'.hs = w.hs ∧
      ∀ z, (∃ j d, j ≠ i ∧ w.cs[j]? = some d ∧ z ∈ d.elems) ∨ some z ∈ w.hs → w'.m.val z = w.m.val z := by
  obtain ⟨w', c', o, r', h⟩ := (loadR_any ok f r hi A).result fate
  exact ⟨w', c', h, r', o.cs, o.kind, o.hs, o.rest⟩

/-- C77: the step of loading in which an index moves its elements: no element is lost, and the order of the other indices stays. -/
theorem C77_load_index {k : Nat} {fail : Bool} {ins : List (Option Id × Id)} (r : WildReach w) (l : w.Legal (.place i k fail ins)) (fate : Nat → UserCall V → Option Bool) :
    ∃ threw w' ret, (w.placeR i k fail ins).result fate = (if threw then .threw (w', ret) else .ok (w', ret)) ∧ WildReach w' ∧ w.Effect threw ret w' (.place i k fail ins) ∧
      w.Untouched w' (.place i k fail ins) := by
  obtain ⟨threw, w', ret, h, e, r', u⟩ := (goes_place r l).result fate
  exact ⟨threw, w', ret, h, r', e, u⟩

/-! ## Examples -/

namespace Ex
open MI.Cont.Ex

/-- What has been saved from a container with five elements. -/
def A0 : Archive Val := (save v3 0 junk).getD ⟨0, [], []⟩

/-- Call number `t` throws. -/
def loadFail (t : Nat) : Out (World Val) × List (UserCall Val × Bool) := (loadR (Host.top fun _ => {}) {} v3 1 A0).exec (failAt v3 1 t) 0

end Ex
open Ex MI.Cont.Ex

/-- Loading makes 38 calls. If the last but two throws, all elements are there and the ordered index is in the order of insertion still; if call number 20 throws, three elements are there. -/
example : (loadFail 99).2.length = 38 := by decide +kernel

example : leaves (loadFail 99).1 = some (true, [e0.seqs, [[2054, 2055, 2056, 2057, 2058], [2056, 2058, 2055, 2057, 2054], [2054, 2055, 2056, 2057, 2058], [2058, 2055, 2056, 2057, 2054],
      [2054, 2056, 2057, 2055, 2058]]], []) := by decide +kernel

example : leaves (loadFail 35).1 = some (false, [e0.seqs, [[2054, 2055, 2056, 2057, 2058], [2056, 2058, 2054, 2055, 2057], [2054, 2055, 2056, 2057, 2058], [2054, 2055, 2056, 2057, 2058],
      [2054, 2056, 2057, 2055, 2058]]], []) := by decide +kernel

example : leaves (loadFail 20).1 = some (false, [e0.seqs, [[2054, 2055, 2056], [2056, 2054, 2055], [2054, 2055, 2056], [2054, 2055, 2056], [2054, 2056, 2055]]], []) := by decide +kernel

example : ∃ w' c', (loadR (Host.top fun _ => {}) {} v3 1 A0).result (failAt v3 1 35) = .threw w' ∧ Reach w' ∧ OnlyAt v3 w' 1 e1 c' := by
  obtain ⟨w', c', h1, h2, h3, -⟩ := C51_calls_exception v3_reach he1 (Host.top_ok fun _ => {}) {} A0 (failAt_honest v3 1 35) (by
    have : (loadFail 35).2.any (·.2) = true := by decide +kernel
    simpa [Runs.throws, loadFail] using this)
  exact ⟨w', c', h1, h2, h3⟩

example : (loadR (Host.top fun _ => {}) {} v3 1 A0).result (failAt v3 1 99) = load (calmHost (Host.top fun _ => {})) {} v3 1 A0 :=
  C51_calls_no_exception v3_reach he1 (Host.top_ok fun _ => {}) {} A0 (failAt_honest v3 1 99) (by
    rintro ⟨p, h1, h2⟩
    have : (loadFail 99).2.any (·.2) = false := by decide +kernel
    rw [List.any_eq_false] at this
    exact this p h1 h2)

theorem top_wild {V : Type} (f : Nat → Fault) : WildHost (Host.top f : Host V) := by
  intro w r t
  refine ⟨⟨Nat.succ_ne_zero _, fun h => Nat.lt_irrefl _ (alloc_lt h), fun c hc L hL => ?_⟩, fun c hc => Host.top_env hc fun L h => h⟩
  have e := endOf_lt hc hL
  cases L with
  | hash g eq hf pol ml hp a => exact Or.inr e
  | _ => trivial

namespace Ex
open MI.Cont.Ex

/-- Sequenced, ordered non-unique, random access. -/
def isL : List (Init Val) := [.seq, .ord false (fun a b => a.1 < b.1), .rnd (fun _ => 0)]

def l1 : World Val := ⟨⟨fun _ => (0, 0), [1], []⟩, [Container.new 1 7 isL], []⟩

theorem l1_reach : WildReach l1 := by
  refine .step (w := w0) (o := .new 1 7 isL) (r := ⟨0, true⟩) (fun _ _ => none) (.init _) ⟨⟨by decide, by decide, by decide⟩, by simp [isL], ?_⟩ (Or.inl rfl)
  intro a ha
  simp only [isL, List.mem_cons, List.not_mem_nil, or_false] at ha
  rcases ha with rfl | rfl | rfl <;> trivial

def loadWild (fate : Nat → UserCall Val → Option Bool) (ptrs : List (Option Nat)) : Out (World Val) :=
  (loadR (Host.top fun _ => {}) {} l1 0 ⟨4, [(3, 0), (1, 1), (2, 2), (1, 3)], ptrs⟩).result fate

end Ex
open Ex

/-- The same archive, with a comparison object that answers everything with `true`, everything with `false`, or throws at call number 11, which is made while the index
moves its elements. -/
example : leaves (loadWild allLess [none, some 2, some 3, some 0, none, none, some 3, some 1, none, none]) = some (true, [[[2, 3, 4, 5], [4, 3, 5, 2], [2, 4, 5, 3]]], []) := by decide +kernel

example : leaves (loadWild noneLess [none, some 2, some 3, some 0, none, none, some 3, some 1, none, none]) = some (true, [[[2, 3, 4, 5], [3, 4, 5, 2], [2, 4, 5, 3]]], []) := by decide +kernel

example : leaves (loadWild (fun t _ => if t = 11 then none else some (t % 3 == 0)) [none, some 2, some 3, some 0, none, none, some 3, some 1, none, none]) =
    some (false, [[[2, 3, 4, 5], [2, 3, 4, 5], [2, 3, 4, 5]]], []) := by
  decide +kernel

example (fate : Nat → UserCall Val → Option Bool) (A : Archive Val) :
    ∃ w' c', ((loadR (Host.top fun _ => {}) {} l1 0 A).result fate = .ok w' ∨ (loadR (Host.top fun _ => {}) {} l1 0 A).result fate = .threw w') ∧ WildReach w' ∧
      w'.cs = l1.cs.set 0 c' ∧ SameKind (Container.new 1 7 isL) c' ∧ w'.hs = l1.hs := by
  obtain ⟨w', c', h1, h2, h3, h4, h5, -⟩ := C77_load (i := 0) (c := Container.new 1 7 isL) l1_reach rfl (top_wild _) {} A fate
  exact ⟨w', c', h1, h2, h3, h4, h5⟩

end MI.Ser
