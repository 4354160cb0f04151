import Verif.Cont.AssignLemmas
import Verif.Cont.Example
/-!
# Copies, moves and swaps of containers: C36, C37

A new container is appended to those of the program. `c.seqs`: the elements of `c` in the order of each index, `c.asked`: its index specifiers,
`Layer.load`: maximum load factor, maximum load and bucket count of a hashed index. `F`: what throws; `F.Some n`: something does while `n`
elements are copied. What `Copied`, `Assigned`, `Drained` and `MovedOut` say is in Verif/Cont/Effect.lean.
-/
set_option linter.unusedVariables false
namespace MI.Cont
open MI
variable {V : Type} {w w' : World V} {i j k : Nat} {c d : Container V}

/-! ## C36: copies -/

/-- C36: copy construction, if nothing throws: a new container, whose elements are clones (the new nodes `ns`) with the same values in the same order in every
index, with the same functions, load factors and bucket counts. Everything else stays as it was. -/
theorem C36_copy {hd z : Id} {ns : List Id} {e : Nat → Env} {F : CopyFault} (r : Reach w) (l : w.Legal (.copy i hd z ns e F)) (hc : w.cs[i]? = some c)
    (q : ¬ F.Some c.count) :
    ∃ w' c', w.step (.copy i hd z ns e F) = .ok (w', ⟨0, true⟩) ∧ Reach w' ∧ Copied w w' c c' hd ns := by
  rcases eff_copy r.inv l with ⟨w', c0, c', k1, h0, k2, k3⟩ | ⟨w', c0, k1, h0, k2, -⟩
  · obtain rfl := Option.some.inj (hc.symm.trans h0)
    exact ⟨w', c', k1, r.ok l k1, k3⟩
  · obtain rfl := Option.some.inj (hc.symm.trans h0)
    exact absurd k2 q

/-- C36: if anything throws, there is no new container, and everything is as it was: no memory and no clone is left. -/
theorem C36_copy_throws {hd z : Id} {ns : List Id} {e : Nat → Env} {F : CopyFault} (r : Reach w) (l : w.Legal (.copy i hd z ns e F)) (hc : w.cs[i]? = some c)
    (q : F.Some c.count) :
    ∃ w', w.step (.copy i hd z ns e F) = .threw (w', ⟨0, false⟩) ∧ Reach w' ∧ w'.cs = w.cs ∧ w'.hs = w.hs ∧ w'.m.alloc = w.m.alloc ∧ w'.m.cons = w.m.cons ∧
      ∀ x ∈ w.m.alloc, w'.m.val x = w.m.val x := by
  rcases eff_copy r.inv l with ⟨w', c0, c', k1, h0, k2, -⟩ | ⟨w', c0, k1, h0, k2, k3⟩
  · obtain rfl := Option.some.inj (hc.symm.trans h0)
    exact absurd q k2
  · exact ⟨w', k1, r.threw l k1, k3⟩

/-- C36: the copy shares no node with any container or node handle. -/
theorem C36_copy_disjoint {hd : Id} {ns : List Id} {c' : Container V} (r : Reach w) (r' : Reach w') (q : Copied w w' c c' hd ns) :
    (∀ a ∈ w.cs, ∀ x ∈ c'.hd :: c'.elems, x ∉ a.hd :: a.elems) ∧ ∀ x ∈ c'.elems, some x ∉ w.hs := by
  have nd := r'.inv.nodup
  rw [q.alloc, ← List.reverse_reverse (as := _ :: w.m.alloc)] at nd
  have nd' : (ns.reverse ++ hd :: w.m.alloc).Nodup := by simpa using nd
  have fr : ∀ x ∈ c'.hd :: c'.elems, x ∉ w.m.alloc := by
    rw [q.head, q.elems]
    intro x hx h
    rcases List.mem_cons.1 hx with rfl | hx
    · exact (List.nodup_cons.1 (List.nodup_append.1 nd').2.1).1 h
    · exact (List.nodup_append.1 nd').2.2 x (by simp [hx]) x (by simp [h]) rfl
  refine ⟨fun a ha x hx h => fr x hx (r.inv.mem_alloc ha h), fun x hx h => fr x (by simp [hx]) ?_⟩
  refine r.inv.alloc.mem_iff.2 (List.mem_append_right _ ?_)
  exact List.mem_filterMap.2 ⟨some x, h, rfl⟩

/-- C36: copy assignment `i=j` (`i` and `j` may be the same), if nothing throws: the container `i` becomes such a copy of `j`; the elements it had
are destroyed. The types of the containers are the same; their functions need not be. -/
theorem C36_assign {hd z : Id} {ns : List Id} {e : Nat → Env} {F : CopyFault} (r : Reach w) (l : w.Legal (.copy j hd z ns e F)) (hc : w.cs[i]? = some c)
    (hd' : w.cs[j]? = some d) (ty : c.kinds = d.kinds) (q : ¬ F.Some d.count) :
    ∃ w' d', w.copyAssign i j hd z ns e F = .ok w' ∧ Reach w' ∧ Assigned w w' i c d d' hd ns := by
  rcases copyAssign_spec r l hc hd' ty with ⟨w', d', k1, k2, -, k3⟩ | ⟨w', k1, k2, k3, -⟩
  · exact ⟨w', d', k1, k2, k3⟩
  · exact absurd k3 q

/-- C36: if anything throws, copy assignment has no effect. -/
theorem C36_assign_throws {hd z : Id} {ns : List Id} {e : Nat → Env} {F : CopyFault} (r : Reach w) (l : w.Legal (.copy j hd z ns e F)) (hc : w.cs[i]? = some c)
    (hd' : w.cs[j]? = some d) (ty : c.kinds = d.kinds) (q : F.Some d.count) :
    ∃ w', w.copyAssign i j hd z ns e F = .threw w' ∧ Reach w' ∧ w'.cs = w.cs ∧ w'.hs = w.hs ∧ w'.m.alloc = w.m.alloc ∧ w'.m.cons = w.m.cons ∧
      ∀ x ∈ w.m.alloc, w'.m.val x = w.m.val x := by
  rcases copyAssign_spec r l hc hd' ty with ⟨w', d', -, -, k1, -⟩ | ⟨w', k1, k2, -, k3⟩
  · exact absurd q k1
  · exact ⟨w', k1, k2, k3⟩

/-- C36: assignment of a list: the values are put in an empty container with the same functions, as by the constructor from a range (`Fed`), which
replaces the container; the elements this had are destroyed. If something throws, nothing has changed. -/
theorem C36_assign_list {H : Host V} {hd z : Id} {pol : Pol} {e : Nat → Env} {F : CopyFault} {vs : List V} (ok : H.Ok) (r : Reach w)
    (l : w.Legal (.newLike i hd z pol e F)) (hc : w.cs[i]? = some c) :
    (∃ w' c' took, w.assignList H i hd z pol e F vs = .ok w' ∧ Reach w' ∧ w'.cs = w.cs.set i c' ∧ w'.hs = w.hs ∧ c'.hd = hd ∧ c'.asked = c.asked ∧
      c'.count = took.length ∧ Fed true w'.m.val c.asked hd (some hd) vs (c.seqs.map fun _ => []) took c'.seqs ∧
      (∀ x, x ∈ w'.m.alloc ↔ x ∈ hd :: took ∨ x ∈ w.m.alloc ∧ x ∉ c.hd :: c.elems) ∧ (∀ x, x ∈ w'.m.cons ↔ x ∈ took ∨ x ∈ w.m.cons ∧ x ∉ c.elems) ∧
      ∀ x ∈ w.m.cons, w'.m.val x = w.m.val x) ∨
    (∃ w', w.assignList H i hd z pol e F vs = .threw w' ∧ Reach w' ∧ (F.header = true ∨ F.index = true ∨ ¬ H.Calm) ∧ w'.cs = w.cs ∧ w'.hs = w.hs ∧
      (∀ x, x ∈ w'.m.alloc ↔ x ∈ w.m.alloc) ∧ (∀ x, x ∈ w'.m.cons ↔ x ∈ w.m.cons) ∧ ∀ x ∈ w.m.cons, w'.m.val x = w.m.val x) :=
  assignList_spec ok r l hc

/-! ## C37: swaps and moves -/

/-- C37: `swap` exchanges two containers of the same type: each gets the elements, the orders, the functions, the load factors and bucket counts, and the header
(thus the iterators to the end) of the other one. No element is touched, and no memory allocated. -/
theorem C37_swap (r : Reach w) (hc : w.cs[i]? = some c) (hd : w.cs[j]? = some d) (ty : c.kinds = d.kinds) :
    ∃ w', w.step (.swap i j) = .ok (w', ⟨0, true⟩) ∧ Reach w' ∧ w'.m = w.m ∧ w'.hs = w.hs ∧ w'.cs[i]? = some d ∧ w'.cs[j]? = some c ∧
      ∀ k, k ≠ i → k ≠ j → w'.cs[k]? = w.cs[k]? := by
  refine ⟨_, eff_swap hc hd ty, r.ok (o := .swap i j) ⟨c, d, hc, hd, ty⟩ (eff_swap hc hd ty), rfl, rfl, ?_, ?_, fun k h1 h2 => ?_⟩
  · by_cases h : i = j
    · subst h
      obtain rfl := Option.some.inj (hc.symm.trans hd)
      exact get_set_self (get_set_self hc)
    · show ((w.cs.set i d).set j c)[i]? = _
      rw [List.getElem?_set_ne (Ne.symm h)]; exact get_set_self hc
  · have : (w.cs.set i d)[j]?.isSome := by
      rw [Option.isSome_iff_exists]
      exact ⟨_, List.getElem?_eq_getElem (by rw [List.length_set]; exact (List.getElem?_eq_some_iff.1 hd).1)⟩
    obtain ⟨a, ha⟩ := Option.isSome_iff_exists.1 this
    exact get_set_self ha
  · show ((w.cs.set i d).set j c)[k]? = _
    rw [List.getElem?_set_ne (Ne.symm h2), List.getElem?_set_ne (Ne.symm h1)]

/-- C37: move construction: the new container (the last one) is what the source was, with the same elements, orders, functions, bucket counts and header; the source is a
valid empty container with the same functions. Only the header of this has been allocated; no element is touched. If something throws, nothing has
happened. -/
theorem C37_move {hd z : Id} {pol : Pol} {e : Nat → Env} {F : CopyFault} (r : Reach w) (l : w.Legal (.newLike i hd z pol e F)) (hc : w.cs[i]? = some c) :
    (∃ w' b, w.moveConstruct i hd z pol e F = .ok w' ∧ Reach w' ∧ ¬ (F.header = true ∨ F.index = true) ∧ w'.cs = w.cs.set i b ++ [c] ∧ w'.hs = w.hs ∧
      w'.m = w.m.allocate hd ∧ b.hd = hd ∧ b.asked = c.asked ∧ b.count = 0 ∧ b.seqs = c.seqs.map fun _ => []) ∨
    (w.moveConstruct i hd z pol e F = .threw w ∧ (F.header = true ∨ F.index = true)) := moveConstruct_spec r l hc

/-- C37: move assignment, allocators being equal or propagated, exchanges the containers, so that nothing throws and the target gets exactly what the source was. -/
theorem C37_move_assign (r : Reach w) (hc : w.cs[i]? = some c) (hd : w.cs[j]? = some d) (ty : c.kinds = d.kinds) :
    ∃ w', w.moveAssign i j = .ok w' ∧ Reach w' ∧ w'.m = w.m ∧ w'.hs = w.hs ∧ w'.cs[i]? = some d ∧ w'.cs[j]? = some c ∧
      ∀ k, k ≠ i → k ≠ j → w'.cs[k]? = w.cs[k]? := by
  obtain ⟨w', k1, k2⟩ := C37_swap r hc hd ty
  exact ⟨w', by simp only [World.moveAssign, k1, andThen], k2⟩

/-- C37: move construction with an allocator not equal to that of the source: the new container has moved-to elements with the same values in the same order in
every index, and the source is left empty and valid. If something throws, either nothing has happened or the source has lost its elements, and is valid; no other
container is affected and nothing is leaked. -/
theorem C37_move_other {a : MoveArgs} (r : Reach w) (l : a.Ok w i) (hc : w.cs[i]? = some c) :
    (∃ w' b c', w.moveOther i a = .ok w' ∧ Reach w' ∧ ¬ (a.F.header = true ∨ a.F.index = true) ∧ ¬ a.F'.Some c.count ∧ MovedOut w w' i c b c' a.hd' a.ns) ∨
    (∃ w', w.moveOther i a = .threw w' ∧ Reach w' ∧ (a.F.header = true ∨ a.F.index = true ∨ a.F'.header = true ∨ a.F'.index = true) ∧ w'.cs = w.cs ∧ w'.hs = w.hs ∧
      (∀ x, x ∈ w'.m.alloc ↔ x ∈ w.m.alloc) ∧ w'.m.cons = w.m.cons ∧ ∀ x ∈ w.m.alloc, w'.m.val x = w.m.val x) ∨
    (∃ w' b, w.moveOther i a = .threw w' ∧ Reach w' ∧ a.F'.Some c.count ∧ w'.cs = w.cs.set i b ∧ Drained c b ∧ w'.hs = w.hs ∧
      (∀ x, x ∈ w'.m.alloc ↔ x ∈ w.m.alloc ∧ x ∉ c.elems) ∧ (∀ x, x ∈ w'.m.cons ↔ x ∈ w.m.cons ∧ x ∉ c.elems) ∧ ∀ x ∈ w.m.alloc, w'.m.val x = w.m.val x) :=
  moveOther_spec r l hc

/-- C37: move assignment `i=std::move(j)` with allocators that are neither equal nor propagated: the target gets moved-to elements with the values and orders of the
source, the elements it had are destroyed, and the source is left empty and valid. If something throws, the target is as it was; the source is as it was or empty. -/
theorem C37_move_assign_other {a : MoveArgs} (r : Reach w) (l : a.Ok w j) (hc : w.cs[i]? = some c) (hd : w.cs[j]? = some d) (ne : i ≠ j) (ty : c.kinds = d.kinds) :
    (∃ w' b d', w.moveAssignOther i j a = .ok w' ∧ Reach w' ∧ w'.cs = (w.cs.set j b).set i d' ∧ Drained d b ∧ w'.hs = w.hs ∧ d'.hd = a.hd' ∧ d'.elems = a.ns ∧
      d'.count = d.count ∧ d'.asked = d.asked ∧ d'.seqs.map (·.map w'.m.val) = d.seqs.map (·.map w.m.val) ∧
      (∀ x, x ∈ w'.m.alloc ↔ x ∈ a.hd' :: a.ns ∨ x ∈ w.m.alloc ∧ x ∉ d.elems ∧ x ∉ c.hd :: c.elems) ∧
      (∀ x, x ∈ w'.m.cons ↔ x ∈ a.ns ∨ x ∈ w.m.cons ∧ x ∉ d.elems ∧ x ∉ c.elems) ∧ ∀ x ∈ w.m.alloc, w'.m.val x = w.m.val x) ∨
    (∃ w', w.moveAssignOther i j a = .threw w' ∧ Reach w' ∧ w'.hs = w.hs ∧ (w'.cs = w.cs ∨ ∃ b, Drained d b ∧ w'.cs = w.cs.set j b) ∧
      (∀ x, x ∈ w'.m.cons → x ∈ w.m.cons) ∧ (∀ x ∈ w.m.cons, x ∉ d.elems → x ∈ w'.m.cons) ∧ ∀ x ∈ w.m.alloc, w'.m.val x = w.m.val x) :=
  moveAssignOther_spec r l hc hd ne ty

/-! ## Examples -/

section
open Ex
def cenv : Nat → Env := fun _ => { base := 9000, junk := fun _ => 0, cpy := 4000 }

theorem no_fault (n : Nat) : ¬ ({} : CopyFault).Some n := by rintro (h | h | h | ⟨k, -, h | h⟩) <;> exact nomatch h

theorem legal_copy : w3.Legal (.copy 0 30 7 [31, 32] cenv {}) := legalB_sound (by decide +kernel)

/-- A copy of a container with two elements and four indices. -/
example : ∃ w' c', w3.step (.copy 0 30 7 [31, 32] cenv {}) = .ok (w', ⟨0, true⟩) ∧ Reach w' ∧ Copied w3 w' c0 c' 30 [31, 32] :=
  C36_copy w3_reach legal_copy hc0 (no_fault _)

/-- The second construction of an element throws. -/
example : ∃ w', w3.step (.copy 0 30 7 [31, 32] cenv { clone := fun k => { construct := k == 1 } }) = .threw (w', ⟨0, false⟩) ∧ w'.m.alloc = w3.m.alloc :=
  let ⟨w', h1, _, _, _, h2, _⟩ := C36_copy_throws w3_reach (legalB_sound (by decide +kernel)) hc0
    (Or.inr (Or.inr (Or.inr ⟨1, by decide +kernel, Or.inr rfl⟩)))
  ⟨w', h1, h2⟩

/-- Container 1, which has elements 16 and 17, is assigned a copy of container 0. -/
example : ∃ w' d', w3.copyAssign 1 0 30 7 [31, 32] cenv {} = .ok w' ∧ w'.cs = w3.cs.set 1 d' ∧ d'.elems = [31, 32] ∧ 16 ∉ w'.m.cons := by
  obtain ⟨c1, h1⟩ : ∃ c, w3.cs[1]? = some c := Option.isSome_iff_exists.1 (by decide +kernel)
  have hk : (w3.cs[1]?).map (·.kinds) = (w3.cs[0]?).map (·.kinds) := by decide +kernel
  have he : (w3.cs[1]?).map (·.elems) = some [16, 17] := by decide +kernel
  rw [h1, hc0] at hk
  rw [h1] at he
  obtain ⟨w', d', k1, k2, q⟩ := C36_assign w3_reach legal_copy h1 hc0 (Option.some.inj hk) (no_fault _)
  refine ⟨w', d', k1, q.cs, q.elems, fun h => ?_⟩
  have he' : c1.elems = [16, 17] := Option.some.inj he
  rw [q.cons, he'] at h
  exact absurd h (by simp)

/-- What copy construction, move construction and swap do to the traversals. -/
example : ((match w3.step (.copy 0 30 7 [31, 32] cenv {}) with | .ok (w, _) => w.cs.map (·.seqs) | _ => [])) =
    [[[12, 11], [11, 12], [11, 12], [11, 12]], [[16, 17], [16, 17], [16, 17], [16, 17]], [[31, 32], [32, 31], [32, 31], [32, 31]]] := by decide +kernel

example : ∃ w' b, w3.moveConstruct 0 30 7 ⟨id, id⟩ cenv {} = .ok w' ∧ w'.cs = w3.cs.set 0 b ++ [c0] ∧ b.count = 0 := by
  rcases C37_move (F := {}) (pol := ⟨id, id⟩) (z := 7) (hd := 30) (e := cenv) w3_reach (legalB_sound (by decide +kernel)) hc0 with
    ⟨w', b, k1, -, -, k2, -, -, -, -, k3, -⟩ | ⟨-, h | h⟩
  · exact ⟨w', b, k1, k2, k3⟩
  · exact nomatch h
  · exact nomatch h

example : ((match w3.step (.swap 0 1) with | .ok (w, _) => w.cs.map (·.seqs) | _ => [])) =
    [[[16, 17], [16, 17], [16, 17], [16, 17]], [[12, 11], [11, 12], [11, 12], [11, 12]]] := by decide +kernel

/-- The arguments of a move to another allocator. -/
def margs : MoveArgs := ⟨40, 7, ⟨id, id⟩, cenv, {}, 30, [31, 32], cenv, {}⟩

theorem margs_ok : margs.Ok w3 0 := by
  refine ⟨legalB_sound (by decide +kernel), fun w1 r h => legalB_sound ?_⟩
  have : (match w3.step (.newLike 0 40 7 ⟨id, id⟩ cenv {}) with | .ok (w, _) => legalB w (.copy 0 30 7 [31, 32] cenv {}) | _ => false) = true := by decide +kernel
  rw [show w3.step (.newLike 0 40 7 ⟨id, id⟩ cenv {}) = .ok (w1, r) from h] at this
  exact this

example : ∃ w' b c', w3.moveOther 0 margs = .ok w' ∧ MovedOut w3 w' 0 c0 b c' 30 [31, 32] := by
  rcases C37_move_other w3_reach margs_ok hc0 with ⟨w', b, c', k1, -, -, -, k2⟩ | ⟨w', -, -, k, -⟩ | ⟨w', b, -, -, k, -⟩
  · exact ⟨w', b, c', k1, k2⟩
  · rcases k with k | k | k | k <;> exact nomatch k
  · exact absurd k (no_fault _)
end

end MI.Cont
