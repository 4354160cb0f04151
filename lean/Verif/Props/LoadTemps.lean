import Verif.Ser.TempLemmas
import Verif.Props.SerLoad
/-!
C88: the temporaries into which `load` reads the elements. `loadX` (`Verif/Ser/Temp.lean`) is undefined behaviour if a temporary is constructed twice, or used or destroyed outside its
lifetime. `F` says which calls of `load_construct_data`, and which readings of an element or of a pointer to its node, throw; `f` and `H` what else throws.
-/
namespace MI.Ser
open MI MI.Cont
variable {V : Type} {i : Nat} {w : World V} {c : Container V} {H : Host V}

/-- Whatever the archive holds and whatever throws: each temporary is used within its lifetime only, and has been destroyed when `load` ends. The container then holds the elements of nodes
`es`, and the archive knows exactly the elements in `es`, in this order, at the addresses of the elements in the container; if there was an exception, it may also have begun to read one more
object. -/
theorem C88_load (r : Reach w) (hi : w.cs[i]? = some c) (ok : H.Ok) (F : Trouble) (f : Mishap) (A : Archive V) :
    ∃ w' c' es s, ((loadX H F f w i A = .ok (w', es, s) ∧ s.Follows es) ∨ (loadX H F f w i A = .threw (w', es, s) ∧ s.FollowsUpTo es)) ∧ s.NoneLeft ∧
      Reach w' ∧ OnlyAt w w' i c c' ∧ c'.elems.Perm es :=
  let ⟨w', c', es, s, h1, h2, h3, h4, h5⟩ := loadX_spec ok F f r hi A
  ⟨w', c', es, s, h5.imp (fun h => ⟨h.1, h.2.1⟩) (fun h => ⟨h.1, h.2.1⟩), h4, h2, h1, h3⟩

/-- If `load` returns, the temporaries and addresses play no role for the contents: these are as C51 says. -/
theorem C88_returns (r : Reach w) (hi : w.cs[i]? = some c) (ok : H.Ok) (F : Trouble) (f : Mishap) (A : Archive V) {w' : World V} {es : List Id} {s : Temps}
    (h : loadX H F f w i A = .ok (w', es, s)) : load H f w i A = .ok w' := by
  obtain ⟨w1, c1, es1, s1, -, -, -, -, h5 | h5⟩ := loadX_spec ok F f r hi A
  · rw [h5.1] at h
    cases h
    exact h5.2.2
  · rw [h5.1] at h
    cases h

/-- So too for exceptions, as long as reading and `load_construct_data` do not throw. -/
theorem C88_throws (r : Reach w) (hi : w.cs[i]? = some c) (ok : H.Ok) (f : Mishap) (A : Archive V) {w' : World V} {es : List Id} {s : Temps}
    (h : loadX H {} f w i A = .threw (w', es, s)) : load H f w i A = .threw w' := by
  obtain ⟨w1, c1, es1, s1, -, -, -, -, h5 | h5⟩ := loadX_spec ok {} f r hi A
  · rw [h5.1] at h
    cases h
  · rw [h5.1] at h
    cases h
    exact h5.2.2 rfl

namespace Ex
open MI.Cont.Ex

/-- Loading three elements in container 1 of `v3`: did it return, the nodes of the elements, the temporaries left of the first four, and the addresses the archive has for the first four objects. -/
def trial (F : Trouble) (vs : List Val) : Option (Bool × List Id × List Bool × List (Option Addr)) :=
  match loadX (Host.top fun _ => {}) F { cut := fun _ => some 0 } v3 1 ⟨3, vs, []⟩ with
  | .ok (_, es, s) => some (true, es, (List.range 4).map s.live, (List.range 4).map s.addr)
  | .threw (_, es, s) => some (false, es, (List.range 4).map s.live, (List.range 4).map s.addr)
  | _ => none

end Ex
open Ex MI.Cont.Ex

/-- Reading a pointer for the indices throws. -/
example : trial {} [(1, 1), (2, 2), (3, 3)] =
    some (false, [2054, 2055, 2056], [false, false, false, false], [some (.elem 2054), some (.elem 2055), some (.elem 2056), none]) := by decide +kernel

/-- The second element clashes with the first. -/
example : trial {} [(1, 1), (2, 1), (3, 3)] = some (false, [2054], [false, false, false, false], [some (.elem 2054), some (.temp 1), none, none]) := by decide +kernel

/-- The archive is too short. -/
example : trial {} [(1, 1)] = some (false, [2054], [false, false, false, false], [some (.elem 2054), some (.temp 1), none, none]) := by decide +kernel

/-- Constructing the third temporary throws. -/
example : trial { construct := fun n => n == 2 } [(1, 1), (2, 2), (3, 3)] =
    some (false, [2054, 2055], [false, false, false, false], [some (.elem 2054), some (.elem 2055), none, none]) := by decide +kernel

/-- Reading the pointer to the second element throws. -/
example : trial { add := fun n => n == 1 } [(1, 1), (2, 2), (3, 3)] =
    some (false, [2054, 2055], [false, false, false, false], [some (.elem 2054), some (.elem 2055), none, none]) := by decide +kernel

/-- An archive that was saved is loaded. -/
example : ∃ A w' es s, save v3 0 junk = some A ∧ loadX (Host.top fun _ => {}) {} {} v3 1 A = .ok (w', es, s) ∧ s.Follows es ∧ s.NoneLeft ∧ es.length = 5 := by
  obtain ⟨A, hA, -⟩ := C38_save v3_reach he0 junk
  obtain ⟨w'', d', h1, -, h2, -, -, h3, -⟩ := C38_round_trip v3_reach he0 hA v3_reach he1 rfl (Host.top_ok _) Host.top_calm
  obtain ⟨w', c', es, s, h | h, n, r', o, p⟩ := C88_load v3_reach he1 (Host.top_ok fun _ => {}) {} {} A
  · have e := C88_returns v3_reach he1 (Host.top_ok _) _ _ A h.1
    rw [h1] at e
    cases e
    obtain rfl := Option.some.inj (o.post.symm.trans h2.post)
    refine ⟨A, _, es, s, hA, h.1, h.2, n, ?_⟩
    rw [← p.length_eq, ← (r'.inv.facts o.post).2.1.count, h3]
    decide +kernel
  · have e := C88_throws v3_reach he1 (Host.top_ok _) _ A h.1
    rw [h1] at e
    cases e

end MI.Ser
