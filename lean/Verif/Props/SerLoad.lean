import Verif.Ser.RoundTrip2
import Verif.Cont.HostExample

/-!
# Properties of saving and loading: C38, C51

`save w i junk`: saves container `i` of program state `w`; `load H f w j A`: loads archive `A` in container `j`. Both follow the code: the saver
runs the matcher on each index and writes the displaced elements, the loader inserts the elements at the end and moves the displaced ones.
`c.asked`: the kinds of the indices of `c`, with their comparison, hash and equality functions; `c.seqs`: the elements in the order of each index.
-/
set_option linter.unusedVariables false
namespace MI.Ser
open MI MI.Cont
variable {V : Type} {w w' : World V} {i j : Nat} {c d : Container V} {H : Host V}

/-- What an index has to restore: the values `vs`, in the same order, unless the index is hashed. -/
def SameOrder (vs vs' : List V) : Spec V → Prop
  | .hash _ _ _ => vs'.Perm vs
  | _ => vs' = vs

/-- C38: saving never fails by itself (no loop is endless, no array access is out of bounds), and the archive has the elements in the order of
the first index. -/
theorem C38_save (r : Reach w) (hi : w.cs[i]? = some c) (junk : Alg) :
    ∃ A, save w i junk = some A ∧ A.count = c.count ∧ A.items = c.elems.map w.m.val :=
  let ⟨_, h, _⟩ := save_spec r hi junk
  ⟨_, h, rfl, rfl⟩

/-- C38: loading what has been saved from a container (`c`, of any program state `w`) in a container (`d`, of any program state `w'`) with the same
indices succeeds when nothing throws. Then the values of every index are those saved, in the same order (hashed indices: in some order).
The rest of the program is as it was. -/
theorem C38_round_trip (r : Reach w) (hi : w.cs[i]? = some c) {junk : Alg} {A : Archive V} (hA : save w i junk = some A)
    (r' : Reach w') (hj : w'.cs[j]? = some d) (ha : d.asked = c.asked) (ok : H.Ok) (calm : H.Calm) :
    ∃ w'' d', load H {} w' j A = .ok w'' ∧ Reach w'' ∧ OnlyAt w' w'' j d d' ∧ w''.hs = w'.hs ∧
      (∀ z ∈ w'.m.cons, z ∉ d.elems → z ∈ w''.m.cons ∧ w''.m.val z = w'.m.val z) ∧ d'.count = c.count ∧
      ∀ (k : Nat) S xs, c.asked[k]? = some S → c.seqs[k]? = some xs →
        ∃ ys, d'.seqs[k]? = some ys ∧ SameOrder (xs.map w.m.val) (ys.map w''.m.val) S := by
  obtain ⟨w'', d', f, h1, h2, h3, h4, h5, t, h6, -, h7⟩ := load_back r hi hA r' hj ha ok calm
  refine ⟨w'', d', h1, h2, h3, h4, h5, ?_, ?_⟩
  · rw [(h2.inv.facts h3.post).2.1.count, (r.inv.facts hi).2.1.count, h6.length_eq, List.length_map]
  · intro k S xs hS hxs
    have hk : k < d'.seqs.length := by
      have h := congrArg List.length (h3.asked.trans ha)
      have := (List.getElem?_eq_some_iff.1 hS).1
      simp only [Container.asked, Container.seqs, List.length_map] at h this ⊢
      omega
    refine ⟨d'.seqs[k], List.getElem?_eq_getElem hk, ?_⟩
    have b := h7 k S xs _ hS hxs (List.getElem?_eq_getElem hk)
    obtain ⟨-, -, -, p, -⟩ := r.inv.seq hi hxs
    obtain ⟨-, -, -, p', -⟩ := h2.inv.seq h3.post (List.getElem?_eq_getElem hk)
    have hv : (xs.map f).map w''.m.val = xs.map w.m.val := by
      rw [List.map_map]
      exact List.map_congr_left fun x hx => t.val x (p.mem_iff.1 hx)
    cases S with
    | hash g eq hf =>
      have q : d'.seqs[k].Perm (xs.map f) := p'.trans (h6.trans (p.map f).symm)
      show (d'.seqs[k].map w''.m.val).Perm (xs.map w.m.val)
      rw [← hv]
      exact q.map _
    | ord u lt => exact (congrArg (List.map w''.m.val) b).trans hv
    | seq => exact (congrArg (List.map w''.m.val) b).trans hv
    | rnd => exact (congrArg (List.map w''.m.val) b).trans hv

/-- C51: whatever the archive has (too few elements, elements with equivalent keys, pointers that are not to elements in it, any number of
them), and whichever call or allocation throws, loading comes to an end without undefined behaviour: it returns or throws, and the container
loaded is valid; the other containers, the node handles and the elements of both are as they were. -/
theorem C51_load_any (r : Reach w) (hi : w.cs[i]? = some c) (ok : H.Ok) (f : Mishap) (A : Archive V) :
    ∃ w' c', (load H f w i A = .ok w' ∨ load H f w i A = .threw w') ∧ Reach w' ∧ OnlyAt w w' i c c' ∧ w'.hs = w.hs ∧
      ∀ z ∈ w.m.cons, z ∉ c.elems → z ∈ w'.m.cons ∧ w'.m.val z = w.m.val z :=
  let ⟨w', c', h1, h2, h3, h4, _, h5⟩ := load_safe ok f r hi A
  ⟨w', c', h5, h2, h1, h3, h4⟩

namespace Ex
open MI.Cont.Ex

/-- Indices: sequenced, ordered non-unique by the first component, hashed non-unique, random access, ordered unique by the second component. -/
def is2 (base : Id) : List (Init Val) :=
  [.seq, .ord false (fun a b => a.1 < b.1), .hash .multi (fun a b => a.2 == b.2) (fun a => a.2) ⟨fun n => n + 1, fun n => n⟩ 0 base, .rnd (fun _ => 0),
    .ord true (fun a b => a.2 < b.2)]

theorem sw_snd : StrictWeak (fun a b : Val => decide (a.2 < b.2)) :=
  ⟨by intro x; simp, by intro x y z; simp; omega, by intro x y z; simp; omega⟩

theorem init2_ok (w : World Val) {hd base : Id} (b0 : 0 < base) (h : ∀ z ∈ hd :: w.m.alloc, z < base) : ∀ a ∈ is2 base, a.Ok w hd := by
  intro a ha
  simp only [is2, List.mem_cons, List.not_mem_nil, or_false] at ha
  rcases ha with rfl | rfl | rfl | rfl | rfl
  · trivial
  · exact sw_fst
  · exact ⟨eh_snd, b0, fun z hz => Or.inl (h z hz)⟩
  · trivial
  · exact sw_snd

def v2 : World Val := ⟨⟨fun _ => (0, 0), [2, 1], []⟩, [Container.new 1 7 (is2 1000), Container.new 2 7 (is2 2000)], []⟩

theorem v2_reach : Reach v2 := by
  have r0 : Reach w0 := .init _
  have r1 : Reach (⟨⟨fun _ => (0, 0), [1], []⟩, [Container.new 1 7 (is2 1000)], []⟩ : World Val) :=
    .step (o := .new 1 7 (is2 1000)) (r := ⟨0, true⟩) r0 ⟨⟨by decide, by decide, by decide⟩, by simp [is2], init2_ok _ (by decide) (by decide)⟩ (Or.inl rfl)
  exact .step (o := .new 2 7 (is2 2000)) (r := ⟨0, true⟩) r1
    ⟨⟨by decide, by decide, by decide +kernel⟩, by simp [is2], init2_ok _ (by decide) (by decide)⟩ (Or.inl rfl)

/-- Elements of container 0, with rearrangements of the sequenced and random access indices; one element in container 1. -/
def ops2 : List (Op Val) :=
  [.insert 0 (3, 7) 11 {} none env, .insert 0 (1, 5) 12 {} none env, .insert 0 (3, 6) 13 {} none env, .insert 0 (1, 9) 14 {} none env,
   .insert 0 (3, 2) 15 {} none env, .relocate 0 0 11 15, .relocate 0 3 13 12, .relocate 0 3 11 14, .insert 1 (8, 8) 16 {} none env]

def v3 : World Val := (runs v2 ops2).getD w0

theorem v3_some : (runs v2 ops2).isSome = true := by decide +kernel

theorem v3_reach : Reach v3 := by
  obtain ⟨w', h⟩ := Option.isSome_iff_exists.1 v3_some
  have : v3 = w' := by unfold v3; rw [h]; rfl
  rw [this]
  exact runs_reach v2_reach h

def e0 : Container Val := v3.cs[0]?.getD ⟨0, [], 0⟩
def e1 : Container Val := v3.cs[1]?.getD ⟨0, [], 0⟩

theorem he0 : v3.cs[0]? = some e0 := by
  obtain ⟨c, e⟩ := Option.isSome_iff_exists.1 (by decide +kernel : (v3.cs[0]?).isSome = true)
  unfold e0
  rw [e]; rfl

theorem he1 : v3.cs[1]? = some e1 := by
  obtain ⟨c, e⟩ := Option.isSome_iff_exists.1 (by decide +kernel : (v3.cs[1]?).isSome = true)
  unfold e1
  rw [e]; rfl

def junk : Alg := ⟨0, 0, true, 7, fun _ => 3, fun _ => 1, fun _ => 2, fun _ => true, fun _ => 8, fun _ => 6⟩

end Ex
open Ex MI.Cont.Ex

/-- The sequences of the container saved are different from each other, and a group of equivalent elements is not in base order. -/
example : e0.seqs.map (·.map v3.m.val) =
    [[(3, 2), (3, 7), (1, 5), (3, 6), (1, 9)], [(1, 5), (1, 9), (3, 7), (3, 6), (3, 2)], [(3, 7), (1, 5), (3, 6), (1, 9), (3, 2)],
      [(1, 9), (3, 7), (1, 5), (3, 6), (3, 2)], [(3, 2), (1, 5), (3, 6), (3, 7), (1, 9)]] := by decide +kernel

/-- The hypotheses of `C38_round_trip` can be met. -/
example : ∃ A w'' d', save v3 0 junk = some A ∧ load (Host.top fun _ => {}) {} v3 1 A = .ok w'' ∧ OnlyAt v3 w'' 1 e1 d' ∧ d'.count = 5 := by
  obtain ⟨A, hA, -⟩ := C38_save v3_reach he0 junk
  obtain ⟨w'', d', h1, -, h2, -, -, h3, -⟩ := C38_round_trip v3_reach he0 hA v3_reach he1 rfl (Host.top_ok _) Host.top_calm
  exact ⟨A, w'', d', hA, h1, h2, h3.trans (by decide +kernel)⟩

/-- Loading a broken archive (two elements with the same unique key, a pointer to nowhere) in a container that has elements, with an allocation
that fails. -/
example : ∃ w' c', (load (Host.top fun _ => {}) { fail := fun k => k == 3 } v3 1 ⟨3, [(1, 1), (2, 1), (3, 3)], [some 0, some 99, none]⟩ = .ok w' ∨
    load (Host.top fun _ => {}) { fail := fun k => k == 3 } v3 1 ⟨3, [(1, 1), (2, 1), (3, 3)], [some 0, some 99, none]⟩ = .threw w') ∧
    Reach w' ∧ OnlyAt v3 w' 1 e1 c' :=
  let ⟨w', c', h1, h2, h3, _⟩ := C51_load_any v3_reach he1 (Host.top_ok fun _ => {}) { fail := fun k => k == 3 } ⟨3, [(1, 1), (2, 1), (3, 3)], [some 0, some 99, none]⟩
  ⟨w', c', h1, h2, h3⟩

end MI.Ser
