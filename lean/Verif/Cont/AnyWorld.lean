import Verif.Cont.AnyCont
import Verif.Cont.Wild
/-! Every operation, whatever user functions do, leaves containers whose links are in order, and returns or throws. -/
set_option linter.unusedVariables false
set_option linter.unusedSimpArgs false
set_option linter.unnecessarySeqFocus false
namespace MI.Cont
open MI
variable {V : Type}

/-- The invariant of programs, without anything about values. -/
structure AnyInv (w : World V) : Prop where
  intact : ∀ c ∈ w.cs, Intact c
  clear : ∀ c ∈ w.cs, Clear w.m.alloc c.ls
  alloc : w.m.alloc.Perm (w.cs.flatMap (fun c => c.hd :: c.elems) ++ handled w.hs)
  cons : w.m.cons.Perm (w.cs.flatMap (·.elems) ++ handled w.hs)
  nodup : w.m.alloc.Nodup
  nz : 0 ∉ w.m.alloc

namespace AnyInv
variable {w : World V}

theorem count_alloc (I : AnyInv w) (z : Id) :
    w.m.alloc.count z = (w.cs.flatMap (fun c => c.hd :: c.elems)).count z + (handled w.hs).count z := by
  rw [I.alloc.count_eq, List.count_append]

theorem count_cons (I : AnyInv w) (z : Id) : w.m.cons.count z = (w.cs.flatMap (·.elems)).count z + (handled w.hs).count z := by
  rw [I.cons.count_eq, List.count_append]

theorem le_one (I : AnyInv w) (z : Id) : w.m.alloc.count z ≤ 1 := List.nodup_iff_count_le_one.1 I.nodup z

theorem mem_alloc (I : AnyInv w) {c : Container V} (h : c ∈ w.cs) {z : Id} (hz : z ∈ c.hd :: c.elems) : z ∈ w.m.alloc :=
  I.alloc.mem_iff.2 (List.mem_append_left _ (List.mem_flatMap.2 ⟨c, h, hz⟩))

theorem elem_alloc (I : AnyInv w) {c : Container V} (h : c ∈ w.cs) {z : Id} (hz : z ∈ c.elems) : z ∈ w.m.alloc :=
  I.mem_alloc h (by simp [hz])

theorem elem_cons (I : AnyInv w) {c : Container V} (h : c ∈ w.cs) {z : Id} (hz : z ∈ c.elems) : z ∈ w.m.cons :=
  I.cons.mem_iff.2 (List.mem_append_left _ (List.mem_flatMap.2 ⟨c, h, hz⟩))

theorem handle_alloc (I : AnyInv w) {z : Id} (hz : z ∈ handled w.hs) : z ∈ w.m.alloc := I.alloc.mem_iff.2 (List.mem_append_right _ hz)

theorem handle_cons (I : AnyInv w) {z : Id} (hz : z ∈ handled w.hs) : z ∈ w.m.cons := I.cons.mem_iff.2 (List.mem_append_right _ hz)

theorem nz' (I : AnyInv w) {z : Id} (hz : z ∈ w.m.alloc) : z ≠ 0 := by rintro rfl; exact I.nz hz

theorem cons_le (I : AnyInv w) (z : Id) : w.m.cons.count z ≤ w.m.alloc.count z := by
  rw [I.count_alloc, I.count_cons]
  have : (w.cs.flatMap (·.elems)).count z ≤ (w.cs.flatMap (fun c => c.hd :: c.elems)).count z := by
    have go : ∀ l : List (Container V), (l.flatMap (·.elems)).count z ≤ (l.flatMap (fun c => c.hd :: c.elems)).count z := by
      intro l
      induction l with
      | nil => simp
      | cons a l ih => simp only [List.flatMap_cons, List.count_append, List.count_cons]; omega
    exact go _
  omega

/-- Another container has no node in common. -/
theorem disj (I : AnyInv w) {i : Nat} {c d : Container V} (h : w.cs[i]? = some c) (hd : d ∈ w.cs.eraseIdx i) {z : Id} (h1 : z ∈ c.hd :: c.elems)
    (h2 : z ∈ d.hd :: d.elems) : False := by
  have := I.count_alloc z
  rw [flatMap_at (fun c : Container V => c.hd :: c.elems) z h] at this
  have a := List.count_pos_iff.2 h1
  have b := List.count_pos_iff.2 h2
  have k := count_flatMap_le (f := fun c : Container V => c.hd :: c.elems) (z := z) hd
  have l := I.le_one z
  omega

theorem handle_disj (I : AnyInv w) {c : Container V} (h : c ∈ w.cs) {z : Id} (h1 : z ∈ c.hd :: c.elems) (h2 : z ∈ handled w.hs) : False := by
  have := I.count_alloc z
  have k := count_flatMap_le (f := fun c : Container V => c.hd :: c.elems) (z := z) h
  have a := List.count_pos_iff.2 h1
  have b := List.count_pos_iff.2 h2
  have l := I.le_one z
  omega

end AnyInv


theorem any_init (m : Mem V) (h1 : m.alloc = []) (h2 : m.cons = []) : AnyInv ⟨m, [], []⟩ :=
  ⟨fun _ h => (nomatch h), fun _ h => (nomatch h), by simp [h1, handled], by simp [h2, handled], by simp [h1], by simp [h1]⟩

theorem any_poke {w : World V} (I : AnyInv w) (val : Id → V) : AnyInv { w with m := { w.m with val := val } } :=
  ⟨I.intact, I.clear, I.alloc, I.cons, I.nodup, I.nz⟩

theorem any_put {w : World V} {i : Nat} {c c' : Container V} {m' : Mem V} {hs' : List (Option Id)} {els' : List Id} (I : AnyInv w) (hi : w.cs[i]? = some c)
    (b : Turned c c' els' m'.alloc)
    (hf : ∀ z ∈ m'.alloc, z ∈ w.m.alloc ∨ w.Fresh z)
    (ha : ∀ z, m'.alloc.count z + c.elems.count z + (handled w.hs).count z = w.m.alloc.count z + els'.count z + (handled hs').count z)
    (hc : ∀ z, m'.cons.count z + c.elems.count z + (handled w.hs).count z = w.m.cons.count z + els'.count z + (handled hs').count z)
    (nd : m'.alloc.Nodup) : AnyInv ⟨m', w.cs.set i c', hs'⟩ := by
  have rest : ∀ d ∈ w.cs.eraseIdx i, d ∈ w.cs := fun d hd => (List.eraseIdx_sublist _ _).subset hd
  refine ⟨?_, ?_, ?_, ?_, nd, ?_⟩
  · intro d hd
    rcases mem_set_rest hi hd with rfl | hd
    · exact b.intact
    · exact I.intact d (rest d hd)
  · intro d hd
    rcases mem_set_rest hi hd with rfl | hd
    · exact b.clear
    · intro z hz L hL
      rcases hf z hz with h | h
      · exact I.clear d (rest d hd) z h L hL
      · exact h.2.2 d (rest d hd) L hL
  · refine List.perm_iff_count.2 fun z => ?_
    have h1 := I.count_alloc z
    rw [flatMap_at (fun c : Container V => c.hd :: c.elems) z hi] at h1
    have h2 := flatMap_set (fun c : Container V => c.hd :: c.elems) z c' hi
    have h3 := ha z
    have h4 := b.perm.count_eq z
    rw [List.count_append, h2]
    simp only [List.count_cons, b.hd] at h1 h2 ⊢
    omega
  · refine List.perm_iff_count.2 fun z => ?_
    have h1 := I.count_cons z
    rw [flatMap_at (fun c : Container V => c.elems) z hi] at h1
    have h2 := flatMap_set (fun c : Container V => c.elems) z c' hi
    have h3 := hc z
    have h4 := b.perm.count_eq z
    rw [List.count_append, h2]
    simp only at h1 ⊢
    omega
  · intro h
    rcases hf 0 h with h | h
    · exact I.nz h
    · exact h.1 rfl

theorem any_handles {w : World V} {hs' : List (Option Id)} (I : AnyInv w) (h : (handled hs').Perm (handled w.hs)) : AnyInv { w with hs := hs' } :=
  ⟨I.intact, I.clear, I.alloc.trans (List.Perm.append_left _ h.symm), I.cons.trans (List.Perm.append_left _ h.symm), I.nodup, I.nz⟩

theorem any_free {w : World V} {hs' : List (Option Id)} {m' : Mem V} (I : AnyInv w) (hs : ∀ z ∈ m'.alloc, z ∈ w.m.alloc)
    (ha : ∀ z, m'.alloc.count z + (handled w.hs).count z = w.m.alloc.count z + (handled hs').count z)
    (hc : ∀ z, m'.cons.count z + (handled w.hs).count z = w.m.cons.count z + (handled hs').count z)
    (nd : m'.alloc.Nodup) : AnyInv ⟨m', w.cs, hs'⟩ := by
  refine ⟨I.intact, fun c h z hz => I.clear c h z (hs z hz), ?_, ?_, nd, fun h => I.nz (hs 0 h)⟩
  · refine List.perm_iff_count.2 fun z => ?_
    have h1 := I.count_alloc z
    have h2 := ha z
    simp only [List.count_append]
    omega
  · refine List.perm_iff_count.2 fun z => ?_
    have h1 := I.count_cons z
    have h2 := hc z
    simp only [List.count_append]
    omega

section
variable {w : World V} {i : Nat} {c : Container V}

/-- Facts about a container of a program that operations on it need. -/
theorem AnyInv.facts (I : AnyInv w) (hi : w.cs[i]? = some c) :
    c ∈ w.cs ∧ Intact c ∧ Clear w.m.alloc c.ls ∧ (∀ z ∈ c.elems, z ∈ w.m.alloc) ∧ (∀ z ∈ c.elems, z ∈ w.m.cons) ∧ 0 ∉ c.elems ∧ c.hd ≠ 0 := by
  have h := List.mem_of_getElem? hi
  exact ⟨h, I.intact c h, I.clear c h, fun z => I.elem_alloc h, fun z => I.elem_cons h, fun k => I.nz (I.elem_alloc h k),
    I.nz' (I.mem_alloc h (by simp))⟩

theorem Fresh.clear_any (I : AnyInv w) {x : Id} (hf : w.Fresh x) (h : c ∈ w.cs) : Clear (x :: w.m.alloc) c.ls := by
  intro z hz L hL
  rcases List.mem_cons.1 hz with rfl | hz
  · exact hf.2.2 c h L hL
  · exact I.clear c h z hz L hL

theorem Fresh.not_mem_any (I : AnyInv w) {x : Id} (hf : w.Fresh x) (h : c ∈ w.cs) : x ∉ c.hd :: c.elems := fun k => hf.2.1 (I.mem_alloc h k)

theorem any_insert_post {v : V} {x : Id} {c' : Container V} (I : AnyInv w) (hi : w.cs[i]? = some c) (hf : w.Fresh x)
    (b : Turned c c' (x :: c.elems) (x :: w.m.alloc)) :
    AnyInv { w with m := (w.m.allocate x).construct x v, cs := w.cs.set i c' } := by
  refine any_put (m' := (w.m.allocate x).construct x v) I hi b ?_ ?_ ?_ ?_
  · intro z hz
    rcases List.mem_cons.1 hz with rfl | hz
    · exact Or.inr hf
    · exact Or.inl hz
  · intro z
    simp only [Mem.construct, Mem.allocate, List.count_cons]
    omega
  · intro z
    simp only [Mem.construct, Mem.allocate, List.count_cons]
    omega
  · exact List.nodup_cons.2 ⟨hf.2.1, I.nodup⟩

/-- The container has the same elements, memory differs at most in the contents of addresses that hold nothing. -/
theorem any_same_post {m' : Mem V} {c' : Container V} {hs' : List (Option Id)} (I : AnyInv w) (hi : w.cs[i]? = some c)
    (b : Turned c c' c.elems w.m.alloc) (ha : m'.alloc = w.m.alloc) (hc : m'.cons = w.m.cons)
    (hh : (handled hs').Perm (handled w.hs)) : AnyInv ⟨m', w.cs.set i c', hs'⟩ := by
  refine any_put (m' := m') I hi (by rw [ha]; exact b) ?_ ?_ ?_ ?_
  · intro z hz; rw [ha] at hz; exact Or.inl hz
  · intro z; rw [ha, hh.count_eq]
  · intro z; rw [hc, hh.count_eq]
  · rw [ha]; exact I.nodup

/-- An element has been deleted. -/
theorem any_gone_post {x : Id} {v : V} {c' : Container V} (I : AnyInv w) (hi : w.cs[i]? = some c) (hx : x ∈ c.elems)
    (b : Turned c c' (c.elems.erase x) w.m.alloc) : AnyInv { w with m := w.m.gone x v, cs := w.cs.set i c' } := by
  obtain ⟨hc, s, cl, sa, sc, z0, h0⟩ := I.facts hi
  refine any_put (m' := w.m.gone x v) I hi (b.mono fun z hz => List.mem_of_mem_erase hz) ?_ ?_ ?_ ?_
  · intro z hz; exact Or.inl (List.mem_of_mem_erase hz)
  · intro z
    have h1 := count_erase_add (sa x hx) z
    have h2 := count_erase_add hx z
    show (w.m.alloc.erase x).count z + _ + _ = _
    omega
  · intro z
    have h1 := count_erase_add (sc x hx) z
    have h2 := count_erase_add hx z
    show (w.m.cons.erase x).count z + _ + _ = _
    omega
  · exact I.nodup.erase x

/-- The handle numbered `h` is destroyed, and then holds `nh'`. -/
theorem delete_handle_any {h : Nat} {nh nh' : Option Id} (I : AnyInv w) (hn : w.hs[h]? = some nh) :
    ∃ m', w.m.deleteOpt nh = some m' ∧ (∀ z ∈ m'.alloc, z ∈ w.m.alloc) ∧
      (∀ z, m'.alloc.count z + nh.toList.count z = w.m.alloc.count z) ∧ (∀ z, m'.cons.count z + nh.toList.count z = w.m.cons.count z) ∧ m'.alloc.Nodup ∧ m'.val = w.m.val := by
  cases nh with
  | none => exact ⟨w.m, rfl, fun _ h => h, fun z => by simp, fun z => by simp, I.nodup, rfl⟩
  | some x =>
    have ha := I.handle_alloc (mem_handled hn)
    have hc := I.handle_cons (mem_handled hn)
    exact ⟨_, Mem.deleteNode_mem ha hc, fun z hz => List.mem_of_mem_erase hz, count_erase_add ha, count_erase_add hc, I.nodup.erase x, rfl⟩

theorem elems_le_any (I : AnyInv w) (hi : w.cs[i]? = some c) : (∀ z, c.elems.count z ≤ w.m.alloc.count z) ∧ (∀ z, c.elems.count z ≤ w.m.cons.count z) := by
  have h : ∀ z, c.elems.count z ≤ w.m.cons.count z := by
    intro z
    have := I.count_cons z
    have k := count_flatMap_le (f := fun c : Container V => c.elems) (z := z) (List.mem_of_getElem? hi)
    omega
  exact ⟨fun z => Nat.le_trans (h z) (I.cons_le z), h⟩

/-- Two containers have been exchanged. -/
theorem any_exchange {j : Nat} {c d : Container V} (I : AnyInv w) (hi : w.cs[i]? = some c) (hj : w.cs[j]? = some d) :
    AnyInv { w with cs := (w.cs.set i d).set j c } := by
  have mem : ∀ a ∈ (w.cs.set i d).set j c, a ∈ w.cs := by
    intro a ha
    rcases List.mem_or_eq_of_mem_set ha with ha | rfl
    · rcases List.mem_or_eq_of_mem_set ha with ha | rfl
      · exact ha
      · exact List.mem_of_getElem? hj
    · exact List.mem_of_getElem? hi
  have cnt : ∀ (f : Container V → List Id) z, (((w.cs.set i d).set j c).flatMap f).count z = (w.cs.flatMap f).count z := by
    intro f z
    by_cases e : i = j
    · subst e
      obtain rfl : c = d := by rw [hi] at hj; exact Option.some.inj hj
      rw [set_same hi, set_same hi]
    · have hj' : (w.cs.set i d)[j]? = some d := by rw [List.getElem?_set_ne e]; exact hj
      have h1 := flatMap_set f z c hj'
      have h2 := flatMap_at f z hj'
      have h3 := flatMap_set f z d hi
      have h4 := flatMap_at f z hi
      omega
  refine ⟨fun a ha => I.intact a (mem a ha), fun a ha => I.clear a (mem a ha), ?_, ?_, I.nodup, I.nz⟩
  · refine I.alloc.trans (List.perm_iff_count.2 fun z => ?_)
    simp only [List.count_append, cnt]
  · refine I.cons.trans (List.perm_iff_count.2 fun z => ?_)
    simp only [List.count_append, cnt]

/-- A container has been added, whose nodes are new. -/
theorem any_add {m' : Mem V} {c' : Container V} (I : AnyInv w) (s : Intact c') (nd : (c'.hd :: c'.elems).Nodup) (fr : ∀ n ∈ c'.hd :: c'.elems, w.Fresh n)
    (ha : m'.alloc = c'.elems.reverse ++ c'.hd :: w.m.alloc) (hc : m'.cons = c'.elems.reverse ++ w.m.cons)
    (cl : Clear (c'.hd :: c'.elems ++ w.m.alloc) c'.ls) : AnyInv { w with m := m', cs := w.cs ++ [c'] } := by
  have mem : ∀ z, z ∈ m'.alloc ↔ z ∈ c'.hd :: c'.elems ++ w.m.alloc := by
    intro z
    rw [ha]
    simp only [List.mem_append, List.mem_reverse, List.mem_cons]
    tauto
  refine ⟨?_, ?_, ?_, ?_, ?_, ?_⟩
  · intro a h
    rcases List.mem_append.1 h with h | h
    · exact I.intact a h
    · rw [List.mem_singleton.1 h]; exact s
  · intro a h z hz
    rcases List.mem_append.1 h with h | h
    · rcases List.mem_append.1 ((mem z).1 hz) with k | k
      · exact (fr z k).2.2 a h
      · exact I.clear a h z k
    · rw [List.mem_singleton.1 h]; exact cl z ((mem z).1 hz)
  · refine List.perm_iff_count.2 fun y => ?_
    have := I.count_alloc y
    simp only [ha, List.count_append, List.count_reverse, List.count_cons, List.flatMap_append, List.flatMap_cons, List.flatMap_nil, List.append_nil]
    omega
  · refine List.perm_iff_count.2 fun y => ?_
    have := I.count_cons y
    simp only [hc, List.count_append, List.count_reverse, List.flatMap_append, List.flatMap_cons, List.flatMap_nil, List.append_nil]
    omega
  · have p : m'.alloc.Perm ((c'.hd :: c'.elems) ++ w.m.alloc) := by
      refine List.perm_iff_count.2 fun y => ?_
      simp only [ha, List.count_append, List.count_reverse, List.count_cons]
      omega
    refine p.nodup_iff.2 (List.nodup_append.2 ⟨nd, I.nodup, fun a h1 b h2 => ?_⟩)
    rintro rfl
    exact (fr a h1).2.1 h2
  · intro h
    rcases List.mem_append.1 ((mem 0).1 h) with k | k
    · exact (fr 0 k).1 rfl
    · exact I.nz k

/-- Nothing has happened but that memory that holds nothing has been written to. -/
theorem any_none {m' : Mem V} (I : AnyInv w) (ha : m'.alloc = w.m.alloc) (hc : m'.cons = w.m.cons) :
    AnyInv { w with m := m' } := by
  refine ⟨I.intact, fun a h => by show Clear m'.alloc _; rw [ha]; exact I.clear a h, ?_, ?_, ?_, ?_⟩
  · show m'.alloc.Perm _; rw [ha]; exact I.alloc
  · show m'.cons.Perm _; rw [hc]; exact I.cons
  · show m'.alloc.Nodup; rw [ha]; exact I.nodup
  · show 0 ∉ m'.alloc; rw [ha]; exact I.nz

end
end MI.Cont
