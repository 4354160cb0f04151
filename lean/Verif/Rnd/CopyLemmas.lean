import Verif.Cont.CopyModel
import Verif.Rnd.Spec
/-! The copy of a random access index. -/
namespace MI.Rnd
open MI

theorem copyLoop_spec {f : Id → Option Id} {φ : Id → Id} {s : Arr} : ∀ {k p : Nat} {c : Arr}, (∀ i, p ≤ i → i < p + k → f (s.arr i) = some (φ (s.arr i))) →
    (∀ i j, p ≤ i → i < p + k → p ≤ j → j < p + k → φ (s.arr i) = φ (s.arr j) → i = j) →
    ∃ c', copyLoop f s k p c = some c' ∧ c'.size = c.size ∧ c'.cap = c.cap ∧
      (∀ i, p ≤ i → i < p + k → c'.arr i = φ (s.arr i) ∧ c'.up (φ (s.arr i)) = i) ∧ (∀ i, ¬ (p ≤ i ∧ i < p + k) → c'.arr i = c.arr i) ∧
      ∀ z, (∀ i, p ≤ i → i < p + k → φ (s.arr i) ≠ z) → c'.up z = c.up z
  | 0, p, c, _, _ => ⟨c, rfl, rfl, rfl, fun i h1 h2 => absurd h2 (by omega), fun _ _ => rfl, fun _ _ => rfl⟩
  | k + 1, p, c, hf, hj => by
    have e := hf p (by omega) (by omega)
    obtain ⟨c', k1, k2, k3, k4, k5, k6⟩ := copyLoop_spec (k := k) (p := p + 1) (c := c.put p (φ (s.arr p))) (fun i h1 h2 => hf i (by omega) (by omega))
      (fun i j h1 h2 h3 h4 => hj i j (by omega) (by omega) (by omega) (by omega))
    refine ⟨c', by simp only [copyLoop, e]; exact k1, k2, k3, ?_, ?_, ?_⟩
    · intro i h1 h2
      by_cases hi : i = p
      · subst hi
        refine ⟨?_, ?_⟩
        · rw [k5 i (by omega)]
          exact upd_same _ _ _
        · rw [k6 _ (fun j h3 h4 q => by
            have := hj j i (by omega) (by omega) (by omega) (by omega) q
            omega)]
          exact upd_same _ _ _
      · exact k4 i (by omega) (by omega)
    · intro i hi
      rw [k5 i (by omega)]
      exact upd_other _ _ (by omega)
    · intro z hz
      rw [k6 z (fun i h1 h2 => hz i (by omega) (by omega))]
      exact upd_other _ _ (fun q => hz p (by omega) (by omega) q.symm)

theorem copy_spec {f : Id → Option Id} {φ : Id → Id} {s : Arr} {hd : Id} {xs : List Id} {junk : Nat → Id} {up : Id → Nat} {k : Nat} (w : Rep s hd xs)
    (hf : ∀ x ∈ hd :: xs, f x = some (φ x)) (nd : ((hd :: xs).map φ).Nodup) (hk : k = xs.length) :
    ∃ c', copy f s k junk up (φ hd) = some c' ∧ Rep c' (φ hd) (xs.map φ) := by
  obtain ⟨w1, w2, w3⟩ := w
  have nd' := List.nodup_cons.1 nd
  have at' : ∀ i (hi : i < xs.length), s.arr i = xs[i] := fun i hi => (w3 i _ (by rw [List.getElem?_append_left hi]; exact List.getElem?_eq_getElem hi)).1
  obtain ⟨c', k1, k2, k3, k4, k5, k6⟩ := copyLoop_spec (f := f) (φ := φ) (s := s) (k := s.size) (p := 0) (c := newArr junk up (φ hd) k)
    (fun i _ hi => by
      have hi : i < xs.length := by omega
      rw [at' i hi]
      exact hf _ (by simp))
    (fun i j _ hi _ hj q => by
      have hi : i < xs.length := by omega
      have hj : j < xs.length := by omega
      rw [at' i hi, at' j hj] at q
      exact (List.Nodup.getElem_inj_iff nd'.2 (hi := by simpa using hi) (hj := by simpa using hj)).1 (by simpa using q))
  refine ⟨c', k1, ?_, ?_, ?_⟩
  · rw [k2]; simp [newArr, hk]
  · rw [k2, k3]; simp [newArr]
  · intro i v hv
    by_cases hi : i < xs.length
    · rw [List.getElem?_append_left (by simpa using hi)] at hv
      have hv : φ xs[i] = v := by simpa [List.getElem?_map, List.getElem?_eq_getElem hi] using hv
      have := k4 i (by omega) (by omega)
      rw [at' i hi, hv] at this
      exact this
    · rw [List.getElem?_append_right (by simpa using Nat.le_of_not_lt hi)] at hv
      simp only [List.length_map] at hv
      have hi2 : i = xs.length := by
        by_contra q
        have : i - xs.length = (i - xs.length - 1) + 1 := by omega
        rw [this] at hv
        exact nomatch hv
      subst hi2
      obtain rfl : φ hd = v := by simpa using hv
      refine ⟨?_, ?_⟩
      · rw [k5 _ (by omega)]
        simp [newArr, hk]
      · rw [k6 _ (fun i _ hi q => ?_)]
        · simp [newArr, hk]
        · have hi : i < xs.length := by omega
          rw [at' i hi] at q
          exact nd'.1 (List.mem_map.2 ⟨_, List.getElem_mem hi, q⟩)

end MI.Rnd
