import Verif.Cont.ProjectSpec
import Verif.Cont.Reach
import Verif.Cont.Example
/-! C91: projection of iterators, and iterators from references. -/
namespace MI.Cont
open MI
variable {V : Type} {w : World V} {c : Container V} {A : Layout} {i j p : Nat} {it : Int}

theorem foldl_add (l : List Int) (p : Int) : l.foldl (· + ·) p = p + l.sum := by
  induction l generalizing p with
  | nil => simp
  | cons a l ih => simp [ih]; omega

theorem foldl_sub (l : List Int) (p : Int) : l.reverse.foldl (· - ·) p = p - l.sum := by
  induction l generalizing p with
  | nil => simp
  | cons a l ih => simp [List.foldl_append, ih]; omega

theorem project_iter (A : Layout) (i j : Nat) (x : Id) : A.project i j (A.iter i x) = A.iter j x := by
  simp only [Layout.project, Layout.iter, Layout.toFinal, Layout.toIndex, foldl_add, foldl_sub]; omega

theorem take_drop_sum {l : List Int} {k : Nat} : l.sum = (l.take k).sum + (l.drop k).sum := by
  conv_lhs => rw [← List.take_append_drop k l]
  rw [List.sum_append]

theorem deref_iter (h : A.Ok n) (k : Nat) (x : Id) : A.deref n k (A.iter k x) = A.at' x + A.base.sum := by
  have := take_drop_sum (l := A.base) (k := k)
  simp only [Layout.deref, Layout.iter, Layout.toIndex, foldl_add, ← h.len, List.take_length]; omega

theorem iteratorTo_at (h : A.Ok n) (k : Nat) (x : Id) : A.iteratorTo n k (A.at' x + A.base.sum) = A.iter k x := by
  have := take_drop_sum (l := A.base) (k := k)
  simp only [Layout.iteratorTo, Layout.iter, Layout.toIndex, foldl_add, foldl_sub, ← h.len, List.take_length]; omega

theorem iter_inj {n : Nat} (h : A.Ok n) {k : Nat} {x y : Id} (e : A.iter k x = A.iter k y) : x = y := by
  simp only [Layout.iter, Layout.toIndex, foldl_add] at e
  exact h.inj _ _ (by omega)

theorem seqs_get (r : Reach w) (hc : c ∈ w.cs) {k : Nat} (hk : k < c.ls.length) : ∃ xs, c.seqs[k]? = some xs ∧ xs.Perm c.elems ∧ (xs ++ [c.hd]).Nodup := by
  have s := r.sound hc
  have hl : k < c.seqs.length := by simpa [Container.seqs] using hk
  have p := s.fit.perm _ (List.getElem_mem hl)
  refine ⟨_, List.getElem?_eq_getElem hl, p, ?_⟩
  exact ((List.perm_append_comm (l₂ := [c.hd])).trans (p.cons c.hd)).nodup_iff.2 s.nodup

/-- C91: an iterator is at one position only. -/
theorem C91_position (r : Reach w) (hc : c ∈ w.cs) (h : A.Ok c.ls.length) {q : Nat} (s1 : A.Stands c i it p) (s2 : A.Stands c i it q) : p = q := by
  obtain ⟨xs, hx, x, h1, e1⟩ := s1
  obtain ⟨ys, hy, y, h2, e2⟩ := s2
  have hi : i < c.ls.length := by have := (List.getElem?_eq_some_iff.1 hx).1; simpa [Container.seqs] using this
  obtain ⟨zs, hz, -, nd⟩ := seqs_get r hc hi
  rw [hx] at hy hz; cases hy; cases hz
  have : x = y := iter_inj h (e1.symm.trans e2)
  subst this
  exact (List.getElem?_inj (List.getElem?_eq_some_iff.1 h1).1 nd).1 (h1.trans h2.symm)

/-- C91: an iterator projected to another index is an iterator of that index: at the end exactly if it was at the end, and otherwise at the same element. Projecting back gives the iterator again. -/
theorem C91_project (r : Reach w) (hc : c ∈ w.cs) (h : A.Ok c.ls.length) (hj : j < c.ls.length) (s : A.Stands c i it p) :
    (∃ q, A.Stands c j (A.project i j it) q ∧ (AtEnd c j q ↔ AtEnd c i p)) ∧
    A.deref c.ls.length j (A.project i j it) = A.deref c.ls.length i it ∧ A.project j i (A.project i j it) = it := by
  obtain ⟨xs, hx, x, h1, rfl⟩ := s
  have hi : i < c.ls.length := by have := (List.getElem?_eq_some_iff.1 hx).1; simpa [Container.seqs] using this
  obtain ⟨zs, hz, px, ndx⟩ := seqs_get r hc hi
  rw [hx] at hz; cases hz
  obtain ⟨ys, hy, py, ndy⟩ := seqs_get r hc hj
  have hm : x ∈ ys ++ [c.hd] := by
    have := List.mem_of_getElem? h1
    rw [List.mem_append] at this ⊢
    exact this.imp_left fun m => py.mem_iff.2 (px.mem_iff.1 m)
  obtain ⟨q, hq⟩ := List.getElem?_of_mem hm
  have atx : ∀ {zs : List Id} {n : Nat}, (zs ++ [c.hd]).Nodup → (zs ++ [c.hd])[n]? = some x → (n = zs.length ↔ x = c.hd) := by
    intro zs n nd e
    constructor
    · rintro rfl; simp at e; exact e.symm
    · rintro rfl
      exact (List.getElem?_inj (List.getElem?_eq_some_iff.1 e).1 nd).1 (e.trans (by simp))
  refine ⟨⟨q, ⟨ys, hy, x, hq, project_iter ..⟩, ?_⟩, ?_, ?_⟩
  · simp only [AtEnd, hx, hy, Option.some.injEq, exists_eq_left']
    rw [atx ndy hq, atx ndx h1]
  · rw [project_iter, deref_iter h, deref_iter h]
  · rw [project_iter, project_iter]

/-- C91: `iterator_to(*it)` in any index is `it` projected to that index: in the same index, `it` itself. -/
theorem C91_iterator_to (h : A.Ok c.ls.length) (j : Nat) (s : A.Stands c i it p) :
    A.iteratorTo c.ls.length j (A.deref c.ls.length i it) = A.project i j it ∧ A.iteratorTo c.ls.length i (A.deref c.ls.length i it) = it := by
  obtain ⟨xs, hx, x, h1, rfl⟩ := s
  rw [deref_iter h, iteratorTo_at h, iteratorTo_at h, project_iter]
  exact ⟨rfl, rfl⟩

/-- C91: iterators of the same index to different positions refer to different objects. -/
theorem C91_different (r : Reach w) (hc : c ∈ w.cs) (h : A.Ok c.ls.length) {it' : Int} {q : Nat} (s1 : A.Stands c i it p) (s2 : A.Stands c i it' q) (ne : p ≠ q) :
    it ≠ it' ∧ A.deref c.ls.length i it ≠ A.deref c.ls.length i it' := by
  have e : it ≠ it' := by rintro rfl; exact ne (C91_position r hc h s1 s2)
  refine ⟨e, fun d => e ?_⟩
  rw [← (C91_iterator_to h 0 s1).2, d, (C91_iterator_to h 0 s2).2]

/-- Nodes of 100 bytes, in which the classes for the four indices and the element are at various places. -/
def exLayout : Layout := ⟨fun x => 100 * x, [8, 0, -4, 16]⟩

theorem exLayout_ok : exLayout.Ok Ex.c0.ls.length := ⟨by decide +kernel, fun (x y : Nat) h => by simp only [exLayout] at h; exact Int.ofNat.inj (Int.eq_of_mul_eq_mul_left (by decide) h)⟩

theorem exLayout_stands : exLayout.Stands Ex.c0 0 1200 0 := ⟨[12, 11], by decide +kernel, 12, rfl, by decide +kernel⟩

/-- The first element of the ordered index is projected to the random access index, and back. -/
example : exLayout.project 0 3 1200 = 1204 ∧ exLayout.deref 4 0 1200 = 1220 ∧ exLayout.iteratorTo 4 3 1220 = 1204 := by decide +kernel

example : ∃ q, exLayout.Stands Ex.c0 3 (exLayout.project 0 3 1200) q :=
  let ⟨⟨q, h, _⟩, _⟩ := C91_project (j := 3) Ex.w3_reach Ex.mem0 exLayout_ok (by decide +kernel) exLayout_stands
  ⟨q, h⟩
end MI.Cont
