import Verif.Cont.State3
/-!
The invariant of programs: containers are well formed, and every allocated node belongs to exactly one owner.
-/
set_option linter.unusedVariables false
namespace MI.Cont
open MI
variable {V : Type}

/-- Nodes owned by node handles. -/
def handled (hs : List (Option Id)) : List Id := hs.filterMap id

structure Inv (w : World V) : Prop where
  sound : ∀ c ∈ w.cs, Sound w.m.val c
  clear : ∀ c ∈ w.cs, Clear w.m.alloc c.ls
  alloc : w.m.alloc.Perm (w.cs.flatMap (fun c => c.hd :: c.elems) ++ handled w.hs)
  cons : w.m.cons.Perm (w.cs.flatMap (·.elems) ++ handled w.hs)
  nodup : w.m.alloc.Nodup
  nz : 0 ∉ w.m.alloc

section lists
variable {α : Type}

theorem flatMap_at (f : α → List Id) (z : Id) : ∀ {l : List α} {i : Nat} {a : α}, l[i]? = some a →
    (l.flatMap f).count z = (f a).count z + ((l.eraseIdx i).flatMap f).count z
  | [], _, _, h => nomatch h
  | b :: l, 0, a, h => by
    obtain rfl : b = a := by simpa using h
    simp
  | b :: l, i + 1, a, h => by
    have := flatMap_at f z (l := l) (i := i) (a := a) (by simpa using h)
    simp only [List.flatMap_cons, List.eraseIdx_cons_succ, List.count_append]
    omega

theorem flatMap_set (f : α → List Id) (z : Id) {l : List α} {i : Nat} {a : α} (a' : α) (h : l[i]? = some a) :
    ((l.set i a').flatMap f).count z = (f a').count z + ((l.eraseIdx i).flatMap f).count z := by
  have hi : i < l.length := by
    by_contra k
    rw [List.getElem?_eq_none (by omega)] at h
    exact nomatch h
  have e : (l.set i a').eraseIdx i = l.eraseIdx i := by
    rw [List.eraseIdx_set_eq]
  rw [flatMap_at f z (l := l.set i a') (i := i) (a := a') (by simp [hi]), e]

theorem mem_set_rest {l : List α} {i : Nat} {a a' d : α} (h : l[i]? = some a) (hd : d ∈ l.set i a') : d = a' ∨ d ∈ l.eraseIdx i := by
  induction l generalizing i with
  | nil => exact nomatch h
  | cons b l ih =>
    cases i with
    | zero =>
      simp only [List.set_cons_zero, List.mem_cons, List.eraseIdx_cons_zero] at hd ⊢
      exact hd
    | succ i =>
      simp only [List.set_cons_succ, List.mem_cons, List.eraseIdx_cons_succ] at hd ⊢
      rcases hd with h1 | h1
      · exact Or.inr (Or.inl h1)
      · rcases ih (by simpa using h) h1 with h2 | h2
        · exact Or.inl h2
        · exact Or.inr (Or.inr h2)

theorem count_flatMap_le {f : α → List Id} {z : Id} {l : List α} {a : α} (h : a ∈ l) : (f a).count z ≤ (l.flatMap f).count z := by
  induction l with
  | nil => exact nomatch h
  | cons b l ih =>
    rw [List.flatMap_cons, List.count_append]
    rcases List.mem_cons.1 h with rfl | h
    · omega
    · have := ih h; omega

end lists

namespace Inv
variable {w : World V}

theorem count_alloc (I : Inv w) (z : Id) :
    w.m.alloc.count z = (w.cs.flatMap (fun c => c.hd :: c.elems)).count z + (handled w.hs).count z := by
  rw [I.alloc.count_eq, List.count_append]

theorem count_cons (I : Inv w) (z : Id) : w.m.cons.count z = (w.cs.flatMap (·.elems)).count z + (handled w.hs).count z := by
  rw [I.cons.count_eq, List.count_append]

theorem le_one (I : Inv w) (z : Id) : w.m.alloc.count z ≤ 1 := List.nodup_iff_count_le_one.1 I.nodup z

theorem mem_alloc (I : Inv w) {c : Container V} (h : c ∈ w.cs) {z : Id} (hz : z ∈ c.hd :: c.elems) : z ∈ w.m.alloc :=
  I.alloc.mem_iff.2 (List.mem_append_left _ (List.mem_flatMap.2 ⟨c, h, hz⟩))

theorem elem_alloc (I : Inv w) {c : Container V} (h : c ∈ w.cs) {z : Id} (hz : z ∈ c.elems) : z ∈ w.m.alloc :=
  I.mem_alloc h (by simp [hz])

theorem elem_cons (I : Inv w) {c : Container V} (h : c ∈ w.cs) {z : Id} (hz : z ∈ c.elems) : z ∈ w.m.cons :=
  I.cons.mem_iff.2 (List.mem_append_left _ (List.mem_flatMap.2 ⟨c, h, hz⟩))

theorem handle_alloc (I : Inv w) {z : Id} (hz : z ∈ handled w.hs) : z ∈ w.m.alloc := I.alloc.mem_iff.2 (List.mem_append_right _ hz)

theorem handle_cons (I : Inv w) {z : Id} (hz : z ∈ handled w.hs) : z ∈ w.m.cons := I.cons.mem_iff.2 (List.mem_append_right _ hz)

theorem nz' (I : Inv w) {z : Id} (hz : z ∈ w.m.alloc) : z ≠ 0 := by rintro rfl; exact I.nz hz

theorem cons_le (I : Inv w) (z : Id) : w.m.cons.count z ≤ w.m.alloc.count z := by
  rw [I.count_alloc, I.count_cons]
  have : (w.cs.flatMap (·.elems)).count z ≤ (w.cs.flatMap (fun c => c.hd :: c.elems)).count z := by
    have go : ∀ l : List (Container V), (l.flatMap (·.elems)).count z ≤ (l.flatMap (fun c => c.hd :: c.elems)).count z := by
      intro l
      induction l with
      | nil => simp
      | cons a l ih => simp only [List.flatMap_cons, List.count_append, List.count_cons]; omega
    exact go _
  omega

/-- Another container has no node in common. -/
theorem disj (I : Inv w) {i : Nat} {c d : Container V} (h : w.cs[i]? = some c) (hd : d ∈ w.cs.eraseIdx i) {z : Id} (h1 : z ∈ c.hd :: c.elems)
    (h2 : z ∈ d.hd :: d.elems) : False := by
  have := I.count_alloc z
  rw [flatMap_at (fun c : Container V => c.hd :: c.elems) z h] at this
  have a := List.count_pos_iff.2 h1
  have b := List.count_pos_iff.2 h2
  have k := count_flatMap_le (f := fun c : Container V => c.hd :: c.elems) (z := z) hd
  have l := I.le_one z
  omega

theorem handle_disj (I : Inv w) {c : Container V} (h : c ∈ w.cs) {z : Id} (h1 : z ∈ c.hd :: c.elems) (h2 : z ∈ handled w.hs) : False := by
  have := I.count_alloc z
  have k := count_flatMap_le (f := fun c : Container V => c.hd :: c.elems) (z := z) h
  have a := List.count_pos_iff.2 h1
  have b := List.count_pos_iff.2 h2
  have l := I.le_one z
  omega

end Inv

/-- The parts of the invariant that concern lists of containers, after a change of one container. -/
theorem inv_put {w : World V} {i : Nat} {c c' : Container V} {m' : Mem V} {hs' : List (Option Id)} {els' : List Id} (I : Inv w) (hi : w.cs[i]? = some c)
    (b : Became c c' m'.val els' m'.alloc) (hv : ∀ z ∈ w.m.alloc, z ∉ c.elems → m'.val z = w.m.val z)
    (hf : ∀ z ∈ m'.alloc, z ∈ w.m.alloc ∨ w.Fresh z)
    (ha : ∀ z, m'.alloc.count z + c.elems.count z + (handled w.hs).count z = w.m.alloc.count z + els'.count z + (handled hs').count z)
    (hc : ∀ z, m'.cons.count z + c.elems.count z + (handled w.hs).count z = w.m.cons.count z + els'.count z + (handled hs').count z)
    (nd : m'.alloc.Nodup) : Inv ⟨m', w.cs.set i c', hs'⟩ := by
  have rest : ∀ d ∈ w.cs.eraseIdx i, d ∈ w.cs := fun d hd => (List.eraseIdx_sublist _ _).subset hd
  refine ⟨?_, ?_, ?_, ?_, nd, ?_⟩
  · intro d hd
    rcases mem_set_rest hi hd with rfl | hd
    · exact b.sound
    · refine (I.sound d (rest d hd)).congr fun z hz => hv z (I.elem_alloc (rest d hd) hz) fun k => ?_
      exact I.disj hi hd (z := z) (by simp [k]) (by simp [hz])
  · intro d hd
    rcases mem_set_rest hi hd with rfl | hd
    · exact b.clear
    · intro z hz L hL
      rcases hf z hz with h | h
      · exact I.clear d (rest d hd) z h L hL
      · exact h.2.2 d (rest d hd) L hL
  · refine List.perm_iff_count.2 fun z => ?_
    have h1 := I.count_alloc z
    rw [flatMap_at (fun c : Container V => c.hd :: c.elems) z hi] at h1
    have h2 := flatMap_set (fun c : Container V => c.hd :: c.elems) z c' hi
    have h3 := ha z
    have h4 := b.perm.count_eq z
    rw [List.count_append, h2]
    simp only [List.count_cons, b.hd] at h1 h2 ⊢
    omega
  · refine List.perm_iff_count.2 fun z => ?_
    have h1 := I.count_cons z
    rw [flatMap_at (fun c : Container V => c.elems) z hi] at h1
    have h2 := flatMap_set (fun c : Container V => c.elems) z c' hi
    have h3 := hc z
    have h4 := b.perm.count_eq z
    rw [List.count_append, h2]
    simp only at h1 ⊢
    omega
  · intro h
    rcases hf 0 h with h | h
    · exact I.nz h
    · exact h.1 rfl

/-- Only handles change. -/
theorem inv_handles {w : World V} {hs' : List (Option Id)} (I : Inv w) (h : (handled hs').Perm (handled w.hs)) : Inv { w with hs := hs' } :=
  ⟨I.sound, I.clear, I.alloc.trans (List.Perm.append_left _ h.symm), I.cons.trans (List.Perm.append_left _ h.symm), I.nodup, I.nz⟩

theorem handled_at {hs : List (Option Id)} {j : Nat} {nh : Option Id} (z : Id) (h : hs[j]? = some nh) (nh' : Option Id) :
    (handled (hs.set j nh')).count z + nh.toList.count z = (handled hs).count z + nh'.toList.count z := by
  induction hs generalizing j with
  | nil => exact nomatch h
  | cons a hs ih =>
    cases j with
    | zero =>
      obtain rfl : a = nh := by simpa using h
      cases a <;> cases nh' <;> simp [handled, List.count_cons] <;> omega
    | succ j =>
      have := ih (by simpa using h)
      cases a <;> simp [handled, List.count_cons] at this ⊢ <;> omega

theorem handled_append (hs : List (Option Id)) (nh : Option Id) (z : Id) : (handled (hs ++ [nh])).count z = (handled hs).count z + nh.toList.count z := by
  cases nh <;> simp [handled]

/-- Memory lost some nodes that handles owned. -/
theorem inv_free {w : World V} {hs' : List (Option Id)} {m' : Mem V} (I : Inv w) (hv : m'.val = w.m.val) (hs : ∀ z ∈ m'.alloc, z ∈ w.m.alloc)
    (ha : ∀ z, m'.alloc.count z + (handled w.hs).count z = w.m.alloc.count z + (handled hs').count z)
    (hc : ∀ z, m'.cons.count z + (handled w.hs).count z = w.m.cons.count z + (handled hs').count z)
    (nd : m'.alloc.Nodup) : Inv ⟨m', w.cs, hs'⟩ := by
  refine ⟨fun c h => by rw [hv]; exact I.sound c h, fun c h z hz => I.clear c h z (hs z hz), ?_, ?_, nd, fun h => I.nz (hs 0 h)⟩
  · refine List.perm_iff_count.2 fun z => ?_
    have h1 := I.count_alloc z
    have h2 := ha z
    simp only [List.count_append]
    omega
  · refine List.perm_iff_count.2 fun z => ?_
    have h1 := I.count_cons z
    have h2 := hc z
    simp only [List.count_append]
    omega

theorem count_erase_add {l : List Id} {x : Id} (h : x ∈ l) (z : Id) : (l.erase x).count z + [x].count z = l.count z := by
  have := (List.perm_cons_erase h).count_eq z
  rw [List.count_cons] at this
  rw [List.count_singleton]
  omega

theorem count_diff_add {l xs : List Id} {z : Id} (h : xs.count z ≤ l.count z) : (l.diff xs).count z + xs.count z = l.count z := by
  rw [List.count_diff]; omega

theorem inv_init (m : Mem V) (h1 : m.alloc = []) (h2 : m.cons = []) : Inv ⟨m, [], []⟩ :=
  ⟨fun _ h => (nomatch h), fun _ h => (nomatch h), by simp [h1, handled], by simp [h2, handled], by simp [h1], by simp [h1]⟩

end MI.Cont
