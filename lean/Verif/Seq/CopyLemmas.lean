import Verif.Cont.CopyModel
import Verif.Seq.Spec
/-! The copy of a sequenced index. -/
namespace MI.Seq
open MI

/-- The links of the copy of a chain. -/
theorem copyLoop_spec {f : Id → Option Id} {φ : Id → Id} {h : Heap} {hd : Id} : ∀ {n : Nat} {xs : List Id} {a : Id} {c : Heap}, Seg h a xs hd → hd ∉ xs →
    (xs.map φ).Nodup → (∀ x ∈ hd :: xs, f x = some (φ x)) → φ a ∉ xs.map φ → φ hd ∉ xs.map φ → xs.length < n →
    ∃ c', copyLoop f h hd n a (φ a) c = some c' ∧ Seg c' (φ a) (xs.map φ) (φ hd) ∧ (∀ z, z ∉ φ a :: xs.map φ → c'.next z = c.next z) ∧
      ∀ z, z ∉ φ hd :: xs.map φ → c'.prior z = c.prior z
  | 0, _, _, _, _, _, _, _, _, _, l => absurd l (by omega)
  | n + 1, [], a, c, s, _, _, hf, _, _, _ => by
    have e := hf hd (by simp)
    refine ⟨_, by simp only [copyLoop, s.1, e, if_true]; rfl, ⟨by simp [Heap.setNext, Heap.setPrior], by simp [Heap.setNext, Heap.setPrior]⟩, ?_, ?_⟩
    · intro z hz
      exact upd_other _ _ (by simpa using hz)
    · intro z hz
      exact upd_other _ _ (by simpa using hz)
  | n + 1, x :: xs, a, c, s, hx, nd, hf, ha, hh, l => by
    obtain ⟨s1, s2, s3⟩ := s
    simp only [List.mem_cons, not_or, List.map_cons, List.nodup_cons] at hx nd ha hh
    have xh : x ≠ hd := fun k => hx.1 k.symm
    have e := hf x (by simp)
    obtain ⟨c', k1, k2, k3, k4⟩ := copyLoop_spec (n := n) (xs := xs) (a := x) (c := (c.setNext (φ a) (φ x)).setPrior (φ x) (φ a)) s3 hx.2 nd.2
      (fun y hy => hf y (by simp only [List.mem_cons] at hy ⊢; tauto)) nd.1 hh.2 (by simp at l; omega)
    refine ⟨c', by simp only [copyLoop, s1, e, if_neg xh]; exact k1, ⟨?_, ?_, k2⟩, ?_, ?_⟩
    · rw [k3 (φ a) (by simp only [List.mem_cons, not_or]; exact ha)]
      exact upd_same _ _ _
    · rw [k4 (φ x) (by simp only [List.mem_cons, not_or]; exact ⟨fun q => hh.1 q.symm, nd.1⟩)]
      exact upd_same _ _ _
    · intro z hz
      simp only [List.mem_cons, not_or, List.map_cons] at hz
      rw [k3 z (by simp only [List.mem_cons, not_or]; exact hz.2)]
      exact upd_other _ _ hz.1
    · intro z hz
      simp only [List.mem_cons, not_or, List.map_cons] at hz
      rw [k4 z (by simp only [List.mem_cons, not_or]; exact ⟨hz.1, hz.2.2⟩)]
      exact upd_other _ _ hz.2.1

theorem copy_spec {f : Id → Option Id} {φ : Id → Id} {h c : Heap} {hd : Id} {n : Nat} {xs : List Id} (w : Fam h [(hd, xs)])
    (hf : ∀ x ∈ hd :: xs, f x = some (φ x)) (nd : ((hd :: xs).map φ).Nodup) (hn : xs.length < n) :
    ∃ c', copy f n h hd c (φ hd) = some c' ∧ Fam c' [(φ hd, xs.map φ)] := by
  have w1 : (hd :: xs).Nodup := by simpa [famIds] using w.1
  have nd' := List.nodup_cons.1 nd
  obtain ⟨c', k1, k2, -⟩ := copyLoop_spec (c := c) (w.2 (hd, xs) (by simp)) (List.nodup_cons.1 w1).1 nd'.2 hf nd'.1 nd'.1 hn
  refine ⟨c', k1, by simpa [famIds] using nd, ?_⟩
  intro p hp
  rw [List.mem_singleton.1 hp]
  exact k2

end MI.Seq
