import Verif.Seq.Spec
/-! Helper lemmas for the sequenced index pointer model. -/
namespace MI.Seq
open MI

/-- Consecutive elements are linked both ways. -/
def Chain (h : Heap) : List Id → Prop
  | [] => True
  | [_] => True
  | x :: y :: r => h.next x = y ∧ h.prior y = x ∧ Chain h (y :: r)

theorem Seg_iff_chain {h : Heap} {a b : Id} {xs : List Id} :
    Seg h a xs b ↔ Chain h (a :: xs ++ [b]) := by
  induction xs generalizing a with
  | nil => simp [Seg, Chain]
  | cons x xs ih => simp [Seg, Chain, ih]

theorem Circ_iff {h : Heap} {hd : Id} {xs : List Id} :
    Circ h hd xs ↔ (hd :: xs).Nodup ∧ Chain h (hd :: xs ++ [hd]) := by
  simp only [Circ, Seg_iff_chain]

theorem chain_cons {h : Heap} {x : Id} {l : List Id} (hl : Chain h (x :: l)) : Chain h l := by
  cases l with
  | nil => trivial
  | cons y r => exact hl.2.2

theorem chain_append {h : Heap} {u v : List Id} {x : Id} :
    Chain h (u ++ x :: v) ↔ Chain h (u ++ [x]) ∧ Chain h (x :: v) := by
  induction u with
  | nil => simp [Chain]
  | cons y u ih =>
    cases u with
    | nil => cases v <;> simp [Chain, and_assoc]
    | cons w u => simp only [List.cons_append, Chain] at ih ⊢; rw [ih]; tauto

theorem chain_congr {h h' : Heap} {l : List Id}
    (hn : ∀ y ∈ l.dropLast, h'.next y = h.next y)
    (hp : ∀ y ∈ l.tail, h'.prior y = h.prior y) (hs : Chain h l) : Chain h' l := by
  induction l with
  | nil => trivial
  | cons x l ih =>
    cases l with
    | nil => trivial
    | cons y r =>
      simp only [Chain] at hs ⊢
      refine ⟨by rw [hn x (by simp)]; exact hs.1, by rw [hp y (by simp)]; exact hs.2.1, ih ?_ ?_ hs.2.2⟩
      · intro w hw; exact hn w (by simp at hw ⊢; exact Or.inr hw)
      · intro w hw; exact hp w (by simp at hw ⊢; exact Or.inr hw)

theorem chain_left {h : Heap} {u v : List Id} (hc : Chain h (u ++ v)) : Chain h u := by
  induction u with
  | nil => trivial
  | cons x u ih =>
    cases u with
    | nil => trivial
    | cons y u => simp only [List.cons_append, Chain] at hc ⊢ ih; exact ⟨hc.1, hc.2.1, ih hc.2.2⟩

theorem chain_right {h : Heap} {u v : List Id} (hc : Chain h (u ++ v)) : Chain h v := by
  induction u with
  | nil => exact hc
  | cons x u ih => exact ih (chain_cons hc)

theorem chain_next {h : Heap} {u v : List Id} {p q : Id} (hc : Chain h (u ++ p :: q :: v)) :
    h.next p = q ∧ h.prior q = p := by
  have := (chain_append.1 hc).2
  exact ⟨this.1, this.2.1⟩

theorem chain_mid {h : Heap} {u v : List Id} {p q : Id} :
    Chain h (u ++ p :: q :: v) ↔ Chain h (u ++ [p]) ∧ (h.next p = q ∧ h.prior q = p) ∧ Chain h (q :: v) := by
  rw [chain_append]; simp [Chain, and_assoc]

/-- First half of `relink`: take the block out between `p` and `y`. -/
def unlinkSeg (h : Heap) (p y : Id) : Heap := (h.setNext p y).setPrior y p

/-- Second half of `relink`: put the block `x..z` between `p` and `q`. -/
def insSeg (h : Heap) (p q x z : Id) : Heap :=
  (((h.setPrior x p).setNext z q).setNext p x).setPrior q z

theorem chain_unlinkSeg {h : Heap} {u blk v : List Id} {p y : Id}
    (n1 : (u ++ p :: blk ++ y :: v).dropLast.Nodup) (n2 : (u ++ p :: blk ++ y :: v).tail.Nodup)
    (hc : Chain h (u ++ p :: blk ++ y :: v)) :
    Chain (unlinkSeg h p y) (u ++ p :: y :: v) ∧ Chain (unlinkSeg h p y) blk := by
  have e : u ++ p :: blk ++ y :: v = (u ++ [p]) ++ blk ++ (y :: v) := by simp
  rw [e] at hc n1 n2
  have c1 := chain_left (chain_left hc)
  have c2 := chain_right (chain_left hc)
  have c3 := chain_right hc
  rw [List.dropLast_append_of_ne_nil (by simp)] at n1
  refine ⟨chain_mid.2 ⟨chain_congr ?_ ?_ c1, ?_, chain_congr ?_ ?_ c3⟩, chain_congr ?_ ?_ c2⟩
  all_goals simp only [unlinkSeg, Heap.setNext, Heap.setPrior]
  all_goals try (intro w hw; apply upd_other; rintro rfl)
  · simp [List.nodup_append] at n1 hw
    grind
  · cases u with
    | nil => simp at hw
    | cons a u =>
      simp [List.nodup_append] at n2 hw
      grind
  · simp
  · simp [List.nodup_append] at n1
    grind
  · rw [List.append_assoc, List.tail_append_of_ne_nil (by simp)] at n2
    simp [List.nodup_append] at n2 hw
    grind
  · simp [List.nodup_append] at n1
    have := List.dropLast_subset _ hw
    grind
  · have := List.mem_of_mem_tail hw
    rw [List.append_assoc, List.tail_append_of_ne_nil (by simp)] at n2
    simp [List.nodup_append] at n2
    grind

theorem chain_insSeg {h : Heap} {u blk v : List Id} {p q x z : Id}
    (hx : blk.head? = some x) (hz : blk.getLast? = some z)
    (n1 : (u ++ p :: q :: v).dropLast.Nodup) (n2 : (u ++ p :: q :: v).tail.Nodup)
    (nb : blk.Nodup) (d1 : ∀ w ∈ blk, w ∉ u ++ p :: q :: v)
    (hc : Chain h (u ++ p :: q :: v)) (hb : Chain h blk) :
    Chain (insSeg h p q x z) (u ++ p :: blk ++ q :: v) := by
  obtain ⟨blk', rfl⟩ : ∃ b, blk = x :: b := by
    cases blk with
    | nil => simp at hx
    | cons a b => simp at hx; exact ⟨b, by rw [hx]⟩
  have e : u ++ p :: q :: v = (u ++ [p]) ++ (q :: v) := by simp
  have c1 := chain_left (e ▸ hc)
  have c3 := chain_right (e ▸ hc)
  have e2 : u ++ p :: (x :: blk') ++ q :: v = u ++ p :: x :: (blk' ++ q :: v) := by simp
  rw [e2]
  have D : ∀ w ∈ x :: blk', w ∉ u ∧ w ≠ p ∧ w ≠ q ∧ w ∉ v := by
    intro w hw; simpa using d1 w hw
  have hxm : x ∈ x :: blk' := by simp
  have hzm : z ∈ x :: blk' := List.mem_of_getLast? hz
  have hxp := D _ hxm
  have hzp := D _ hzm
  obtain ⟨b0, hb0⟩ : ∃ b0, x :: blk' = b0 ++ [z] := by
    rw [List.getLast?_eq_some_iff] at hz
    exact hz
  have e3 : x :: (blk' ++ q :: v) = b0 ++ z :: q :: v := by
    have : x :: (blk' ++ q :: v) = (x :: blk') ++ q :: v := rfl
    rw [this, hb0]; simp
  rw [chain_mid, e3, chain_mid, ← hb0]
  rw [e, List.dropLast_append_of_ne_nil (by simp)] at n1
  simp only [List.nodup_append, List.append_assoc, List.mem_append, List.mem_cons, List.not_mem_nil, or_false] at n1
  clear e e2 e3 hc d1
  refine ⟨chain_congr ?_ ?_ c1, ?_, chain_congr ?_ ?_ hb, ?_, chain_congr ?_ ?_ c3⟩
  all_goals simp only [insSeg, Heap.setNext, Heap.setPrior]
  · intro w hw
    simp at hw
    have h1 : w ≠ p := by rintro rfl; exact n1.2.2 w hw w (Or.inl rfl) rfl
    have h2 : w ≠ z := by rintro rfl; exact hzp.1 hw
    rw [upd_other _ _ h1, upd_other _ _ h2]
  · intro w hw
    have hm := List.mem_of_mem_tail hw
    have h1 : w ≠ q := by
      cases u with
      | nil => simp at hw
      | cons a u =>
        simp [List.nodup_append] at n2 hw
        rintro rfl
        rcases hw with hw | hw
        · exact (n2.2.2 _ hw).2.1 rfl
        · exact n2.2.1.1.1 hw.symm
    have h2 : w ≠ x := by rintro rfl; simp at hm; rcases hm with hm | hm; exact hxp.1 hm; exact hxp.2.1 hm
    rw [upd_other _ _ h1, upd_other _ _ h2]
  · rw [upd_other _ _ hxp.2.2.1]; simp
  · intro w hw
    have hm := List.dropLast_subset _ hw
    have h1 : w ≠ p := (D _ hm).2.1
    have h2 : w ≠ z := by
      rw [hb0] at hw nb
      simp [List.nodup_append] at hw nb
      exact nb.2 _ hw
    rw [upd_other _ _ h1, upd_other _ _ h2]
  · intro w hw
    have hm := List.mem_of_mem_tail hw
    have h1 : w ≠ q := (D _ hm).2.2.1
    have h2 : w ≠ x := by simp at hw nb; rintro rfl; exact nb.1 hw
    rw [upd_other _ _ h1, upd_other _ _ h2]
  · rw [upd_other _ _ hzp.2.1]; simp
  · intro w hw
    have hm := List.dropLast_subset _ hw
    have h1 : w ≠ p := by rintro rfl; exact n1.2.1.2.2 w rfl w hw rfl
    have h2 : w ≠ z := by
      rintro rfl
      simp at hm
      rcases hm with hm | hm
      · exact hzp.2.2.1 hm
      · exact hzp.2.2.2 hm
    rw [upd_other _ _ h1, upd_other _ _ h2]
  · intro w hw
    simp at hw
    have h1 : w ≠ q := by
      rw [show u ++ p :: q :: v = (u ++ [p]) ++ (q :: v) by simp, List.tail_append_of_ne_nil (by simp)] at n2
      simp [List.nodup_append] at n2
      rintro rfl
      exact n2.2.1.1 hw
    have h2 : w ≠ x := by rintro rfl; exact hxp.2.2.2 hw
    rw [upd_other _ _ h1, upd_other _ _ h2]

end MI.Seq
