import Verif.Hash.Index
/-! The table of bucket array sizes. -/
namespace MI.Hash
open MI

/-- `std::lower_bound` on a sorted range: elements before the result are less than `n`, those from it on are not. -/
theorem lowerBound_spec {l : List Nat} (srt : ∀ i j, i < j → j < l.length → l.getD i 0 < l.getD j 0) {n : Nat} :
    ∀ (fuel first len : Nat), len ≤ fuel → first + len ≤ l.length → (∀ i, i < first → l.getD i 0 < n) →
      (∀ i, first + len ≤ i → i < l.length → n ≤ l.getD i 0) →
      lowerBound l n fuel first len ≤ l.length ∧ (∀ i, i < lowerBound l n fuel first len → l.getD i 0 < n) ∧
        (∀ i, lowerBound l n fuel first len ≤ i → i < l.length → n ≤ l.getD i 0)
  | 0, first, len, h1, h2, h3, h4 => by
    have : len = 0 := by omega
    subst this
    exact ⟨h2, h3, h4⟩
  | fuel + 1, first, len, h1, h2, h3, h4 => by
    simp only [lowerBound]
    split
    · rename_i k
      subst k
      exact ⟨h2, h3, h4⟩
    · rename_i k
      split
      · rename_i q
        refine lowerBound_spec srt fuel _ _ (by omega) (by omega) ?_ ?_
        · intro i hi
          by_cases e : i = first + len / 2
          · subst e; exact q
          · exact Nat.lt_trans (srt i (first + len / 2) (by omega) (by omega)) q
        · intro i hi hl
          exact h4 i (by omega) hl
      · rename_i q
        refine lowerBound_spec srt fuel _ _ (by omega) (by omega) h3 ?_
        intro i hi hl
        by_cases e : i = first + len / 2
        · subst e; exact Nat.not_lt.1 q
        · exact Nat.le_of_lt (Nat.lt_of_le_of_lt (Nat.not_lt.1 q) (srt (first + len / 2) i (by omega) hl))

theorem pairwise_getD {l : List Nat} (p : l.Pairwise (· < ·)) : ∀ i j, i < j → j < l.length → l.getD i 0 < l.getD j 0 := by
  intro i j h1 h2
  rw [List.getD_eq_getElem?_getD, List.getD_eq_getElem?_getD, List.getElem?_eq_getElem (by omega), List.getElem?_eq_getElem h2]
  exact List.pairwise_iff_getElem.1 p i j (by omega) h2 h1

/-- The size chosen for `n` is the least one of the table that is not less than `n`, or the greatest one. -/
theorem sizeFor_spec {l : List Nat} (p : l.Pairwise (· < ·)) (ne : l ≠ []) (n : Nat) :
    sizeFor l n ∈ l ∧ ((∃ s ∈ l, n ≤ s) → n ≤ sizeFor l n ∧ ∀ s ∈ l, n ≤ s → sizeFor l n ≤ s) ∧
      ((∀ s ∈ l, s < n) → ∀ s ∈ l, s ≤ sizeFor l n) := by
  have srt := pairwise_getD p
  have len := List.length_pos_iff.2 ne
  obtain ⟨h1, h2, h3⟩ := lowerBound_spec srt (n := n) l.length 0 l.length (Nat.le_refl _) (by omega) (fun i hi => by omega) (fun i hi hl => by omega)
  have mono : ∀ i j, i ≤ j → j < l.length → l.getD i 0 ≤ l.getD j 0 := by
    intro i j hij hj
    rcases Nat.lt_or_eq_of_le hij with k | k
    · exact Nat.le_of_lt (srt i j k hj)
    · rw [k]; exact Nat.le_refl _
  have mem : ∀ s ∈ l, ∃ i, i < l.length ∧ l.getD i 0 = s := by
    intro s hs
    obtain ⟨i, hi, e⟩ := List.getElem_of_mem hs
    exact ⟨i, hi, by rw [List.getD_eq_getElem?_getD, List.getElem?_eq_getElem hi]; exact e⟩
  have getm : ∀ i, i < l.length → l.getD i 0 ∈ l := by
    intro i hi
    rw [List.getD_eq_getElem?_getD, List.getElem?_eq_getElem hi]
    exact List.getElem_mem hi
  unfold sizeFor sizeIndex
  dsimp only
  generalize lowerBound l n l.length 0 l.length = b at h1 h2 h3
  by_cases e : b = l.length
  · rw [if_pos e]
    have big : ∀ s ∈ l, s ≤ l.getD (b - 1) 0 := by
      intro s hs
      obtain ⟨i, hi, rfl⟩ := mem s hs
      exact mono i (b - 1) (by omega) (by omega)
    refine ⟨getm _ (by omega), ?_, fun _ => big⟩
    rintro ⟨s, hs, k⟩
    exfalso
    obtain ⟨i, hi, rfl⟩ := mem s hs
    have := h2 i (by omega)
    omega
  · rw [if_neg e]
    have bl : b < l.length := by omega
    have hb := h3 b (Nat.le_refl _) bl
    refine ⟨getm b bl, ?_, ?_⟩
    · rintro -
      refine ⟨hb, fun s hs k => ?_⟩
      obtain ⟨i, hi, rfl⟩ := mem s hs
      by_cases q : b ≤ i
      · exact mono b i q hi
      · exfalso
        have := h2 i (by omega)
        omega
    · intro k
      exfalso
      have := k _ (getm b bl)
      omega

theorem sizes_sorted : sizes.Pairwise (· < ·) := by decide +kernel
theorem sizes32_sorted : sizes32.Pairwise (· < ·) := by decide +kernel
theorem sizes_ne : sizes ≠ [] := by decide
theorem sizes32_ne : sizes32 ≠ [] := by decide
theorem sizes_pos : ∀ s ∈ sizes, 53 ≤ s := by decide +kernel

theorem sizeFor_mem (n : Nat) : sizeFor sizes n ∈ sizes := (sizeFor_spec sizes_sorted sizes_ne n).1

/-- A size of the table is its own next size. -/
theorem sizeFor_self {s : Nat} (h : s ∈ sizes) : sizeFor sizes s = s := by
  have sp := (sizeFor_spec sizes_sorted sizes_ne s).2.1 ⟨s, h, Nat.le_refl _⟩
  exact Nat.le_antisymm (sp.2 s h (Nat.le_refl _)) sp.1

theorem sizeFor_pos (n : Nat) : 0 < sizeFor sizes n := by
  have := sizes_pos _ (sizeFor_spec sizes_sorted sizes_ne n).1
  omega

end MI.Hash
