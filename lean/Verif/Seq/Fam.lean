import Verif.Seq.HeapLemmas
/-! Families of disjoint circular lists, and the effect of the pointer primitives on them. -/
namespace MI.Seq
open MI

theorem Fam_single {h : Heap} {a : Id} {xs : List Id} : Fam h [(a, xs)] ↔ Circ h a xs := by
  simp [Fam, Circ, famIds]

theorem Fam.perm {h : Heap} {L L' : List (Id × List Id)} (hf : Fam h L) (p : L.Perm L') : Fam h L' := by
  refine ⟨(List.Perm.nodup_iff ?_).1 hf.1, fun q hq => hf.2 q (p.mem_iff.2 hq)⟩
  exact p.flatMap_right _

theorem Fam.tail {h : Heap} {a : Id × List Id} {L : List (Id × List Id)} (hf : Fam h (a :: L)) : Fam h L := by
  refine ⟨?_, fun q hq => hf.2 q (List.mem_cons_of_mem _ hq)⟩
  have := hf.1
  simp only [famIds, List.flatMap_cons, List.nodup_append] at this
  exact this.2.1

theorem Fam.circ {h : Heap} {L : List (Id × List Id)} {a : Id} {xs : List Id} (hf : Fam h L)
    (hm : (a, xs) ∈ L) : Circ h a xs := by
  refine ⟨?_, hf.2 _ hm⟩
  have := hf.1
  simp only [famIds] at this
  exact (List.nodup_flatMap.1 this).1 _ hm

theorem Seg_congr {h h' : Heap} {a b : Id} {xs : List Id}
    (hn : ∀ w ∈ a :: xs, h'.next w = h.next w) (hp : ∀ w ∈ xs ++ [b], h'.prior w = h.prior w)
    (hs : Seg h a xs b) : Seg h' a xs b := by
  rw [Seg_iff_chain] at *
  refine chain_congr ?_ ?_ hs
  · intro w hw; apply hn; rw [List.dropLast_append_of_ne_nil (by simp)] at hw; simpa using hw
  · intro w hw; apply hp; simpa using hw

/-- `h'` differs from `h` only at the nodes of `S`. -/
def SameOff (h h' : Heap) (S : List Id) : Prop :=
  ∀ w, w ∉ S → h'.next w = h.next w ∧ h'.prior w = h.prior w

theorem Fam.frame1 {h h' : Heap} {a : Id} {xs ys : List Id} {R : List (Id × List Id)}
    (hf : Fam h ((a, xs) :: R)) (hs : SameOff h h' (a :: xs)) (hp : (a :: ys).Perm (a :: xs))
    (hc : Circ h' a ys) : Fam h' ((a, ys) :: R) := by
  have n := hf.1
  simp only [famIds, List.flatMap_cons, List.nodup_append] at n
  refine ⟨?_, ?_⟩
  · simp only [famIds, List.flatMap_cons, List.nodup_append]
    refine ⟨hc.1, n.2.1, fun x hx => n.2.2 x (hp.mem_iff.1 hx)⟩
  · intro p hpm
    rcases List.mem_cons.1 hpm with rfl | hm
    · exact hc.2
    · have hd : ∀ w ∈ p.1 :: p.2, w ∉ a :: xs := by
        intro w hw hw'
        exact n.2.2 w hw' w (List.mem_flatMap.2 ⟨p, hm, hw⟩) rfl
      refine Seg_congr ?_ ?_ (hf.2 p (by simp [hm]))
      · intro w hw; exact (hs w (hd w hw)).1
      · intro w hw; refine (hs w (hd w ?_)).2; simp at hw ⊢; tauto

theorem Fam.frame2 {h h' : Heap} {a b : Id} {xs ys xs' ys' : List Id} {R : List (Id × List Id)}
    (hf : Fam h ((a, xs) :: (b, ys) :: R)) (hs : SameOff h h' (a :: xs ++ b :: ys))
    (hp : (a :: xs' ++ b :: ys').Perm (a :: xs ++ b :: ys))
    (hc : Seg h' a xs' a) (hd : Seg h' b ys' b) : Fam h' ((a, xs') :: (b, ys') :: R) := by
  have n := hf.1
  simp only [famIds, List.flatMap_cons, ← List.append_assoc] at n
  rw [List.nodup_append] at n
  refine ⟨?_, ?_⟩
  · simp only [famIds, List.flatMap_cons, ← List.append_assoc]
    rw [List.nodup_append]
    refine ⟨hp.nodup_iff.2 n.1, n.2.1, fun x hx => n.2.2 x (hp.mem_iff.1 hx)⟩
  · intro p hpm
    simp only [List.mem_cons] at hpm
    rcases hpm with rfl | rfl | hm
    · exact hc
    · exact hd
    · have hd : ∀ w ∈ p.1 :: p.2, w ∉ a :: xs ++ b :: ys := by
        intro w hw hw'
        exact n.2.2 w hw' w (List.mem_flatMap.2 ⟨p, hm, hw⟩) rfl
      refine Seg_congr ?_ ?_ (hf.2 p (by simp [hm]))
      · intro w hw; exact (hs w (hd w hw)).1
      · intro w hw; refine (hs w (hd w ?_)).2; simp at hw ⊢; tauto

theorem unlinkSeg_same {h : Heap} {p y : Id} {S : List Id} (hp : p ∈ S) (hy : y ∈ S) :
    SameOff h (unlinkSeg h p y) S := by
  intro w hw
  have h1 : w ≠ p := fun e => hw (e ▸ hp)
  have h2 : w ≠ y := fun e => hw (e ▸ hy)
  simp only [unlinkSeg, Heap.setNext, Heap.setPrior, upd_other _ _ h1, upd_other _ _ h2, and_self]

theorem insSeg_same {h : Heap} {p q x z : Id} {S : List Id} (hp : p ∈ S) (hq : q ∈ S) (hx : x ∈ S)
    (hz : z ∈ S) : SameOff h (insSeg h p q x z) S := by
  intro w hw
  have h1 : w ≠ p := fun e => hw (e ▸ hp)
  have h2 : w ≠ q := fun e => hw (e ▸ hq)
  have h3 : w ≠ x := fun e => hw (e ▸ hx)
  have h4 : w ≠ z := fun e => hw (e ▸ hz)
  simp only [insSeg, Heap.setNext, Heap.setPrior, upd_other _ _ h1, upd_other _ _ h2,
    upd_other _ _ h3, upd_other _ _ h4, and_self]

theorem SameOff.trans {h h' h'' : Heap} {S : List Id} (a : SameOff h h' S) (b : SameOff h' h'' S) :
    SameOff h h'' S := by
  intro w hw
  rw [(b w hw).1, (b w hw).2]
  exact a w hw

theorem SameOff.mono {h h' : Heap} {S T : List Id} (a : SameOff h h' S) (st : ∀ w ∈ S, w ∈ T) :
    SameOff h h' T := fun w hw => a w (fun hm => hw (st w hm))

/-- The node before a position. -/
def lastOr (a : Id) (l : List Id) : Id := l.getLastD a

theorem hdOr_spec (a : Id) (l : List Id) : ∃ v', l ++ [a] = hdOr a l :: v' := by
  cases l with
  | nil => exact ⟨[], rfl⟩
  | cons x l => exact ⟨l ++ [a], rfl⟩

theorem lastOr_spec (a : Id) (l : List Id) : ∃ u', a :: l = u' ++ [lastOr a l] := by
  rcases List.eq_nil_or_concat l with rfl | ⟨l', x, rfl⟩
  · exact ⟨[], rfl⟩
  · exact ⟨a :: l', by simp [lastOr, List.getLastD_eq_getLast?]⟩

theorem seg_split {h : Heap} {a : Id} {u v : List Id} (hs : Seg h a (u ++ v) a) :
    h.next (lastOr a u) = hdOr a v ∧ h.prior (hdOr a v) = lastOr a u := by
  rw [Seg_iff_chain] at hs
  obtain ⟨v', hv⟩ := hdOr_spec a v
  obtain ⟨u', hu⟩ := lastOr_spec a u
  have : a :: (u ++ v) ++ [a] = u' ++ lastOr a u :: hdOr a v :: v' := by
    have : a :: (u ++ v) ++ [a] = (a :: u) ++ (v ++ [a]) := by simp
    rw [this, hu, hv]; simp
  rw [this] at hs
  exact chain_next hs

theorem lastOr_mem (a : Id) (l : List Id) : lastOr a l ∈ a :: l := by
  obtain ⟨u', hu⟩ := lastOr_spec a l
  rw [hu]; simp

theorem hdOr_mem (a : Id) (l : List Id) : hdOr a l ∈ a :: l := by
  obtain ⟨u', hu⟩ := hdOr_spec a l
  have : hdOr a l ∈ l ++ [a] := by rw [hu]; simp
  simp at this ⊢; tauto

/-- Taking a block out of a circular list. -/
theorem circ_unlinkSeg {h : Heap} {a : Id} {u blk v : List Id} (hc : Circ h a (u ++ blk ++ v)) :
    let h' := unlinkSeg h (lastOr a u) (hdOr a v)
    Circ h' a (u ++ v) ∧ Chain h' blk := by
  obtain ⟨v', hv⟩ := hdOr_spec a v
  obtain ⟨u', hu⟩ := lastOr_spec a u
  obtain ⟨n, s⟩ := Circ_iff.1 hc
  have e1 : u' ++ lastOr a u :: blk ++ hdOr a v :: v' = a :: (u ++ blk ++ v) ++ [a] := by
    have : a :: (u ++ blk ++ v) ++ [a] = (a :: u) ++ blk ++ (v ++ [a]) := by simp
    rw [this, hu, hv]; simp
  have e2 : u' ++ lastOr a u :: hdOr a v :: v' = a :: (u ++ v) ++ [a] := by
    have : a :: (u ++ v) ++ [a] = (a :: u) ++ (v ++ [a]) := by simp
    rw [this, hu, hv]; simp
  have := chain_unlinkSeg (h := h) (u := u') (p := lastOr a u) (blk := blk) (y := hdOr a v) (v := v')
    (by rw [e1, List.dropLast_append_of_ne_nil (by simp)]; simpa using n)
    (by rw [e1]; simp [List.nodup_append] at n ⊢; grind) (by rw [e1]; exact s)
  rw [e2] at this
  refine ⟨Circ_iff.2 ⟨?_, this.1⟩, this.2⟩
  refine List.Nodup.sublist ?_ n
  simp

/-- Putting a block into a circular list. -/
theorem circ_insSeg {h : Heap} {a x z : Id} {u blk v : List Id} (hx : blk.head? = some x)
    (hz : blk.getLast? = some z) (nb : blk.Nodup) (hd : ∀ w ∈ blk, w ∉ a :: (u ++ v))
    (hc : Circ h a (u ++ v)) (hb : Chain h blk) :
    Circ (insSeg h (lastOr a u) (hdOr a v) x z) a (u ++ blk ++ v) := by
  obtain ⟨v', hv⟩ := hdOr_spec a v
  obtain ⟨u', hu⟩ := lastOr_spec a u
  obtain ⟨n, s⟩ := Circ_iff.1 hc
  have e1 : u' ++ lastOr a u :: blk ++ hdOr a v :: v' = a :: (u ++ blk ++ v) ++ [a] := by
    have : a :: (u ++ blk ++ v) ++ [a] = (a :: u) ++ blk ++ (v ++ [a]) := by simp
    rw [this, hu, hv]; simp
  have e2 : u' ++ lastOr a u :: hdOr a v :: v' = a :: (u ++ v) ++ [a] := by
    have : a :: (u ++ v) ++ [a] = (a :: u) ++ (v ++ [a]) := by simp
    rw [this, hu, hv]; simp
  have := chain_insSeg (h := h) (u := u') (p := lastOr a u) (blk := blk) (q := hdOr a v) (v := v') hx hz
    (by rw [e2, List.dropLast_append_of_ne_nil (by simp)]; simpa using n)
    (by rw [e2]; simp [List.nodup_append] at n ⊢; grind)
    nb (by rw [e2]; intro w hw; have := hd w hw; simp at this ⊢; tauto)
    (by rw [e2]; exact s) hb
  rw [e1] at this
  refine Circ_iff.2 ⟨?_, this⟩
  have p : (a :: (u ++ blk ++ v)).Perm (blk ++ a :: (u ++ v)) := by
    refine List.Perm.trans ?_ (List.perm_middle.symm)
    refine List.Perm.cons _ ?_
    rw [← List.append_assoc]
    exact List.Perm.append_right _ List.perm_append_comm
  rw [p.nodup_iff, List.nodup_append]
  exact ⟨nb, n, fun w hw y hy e => hd w hw (e ▸ hy)⟩

theorem Chain.same {h h' : Heap} {S blk : List Id} (hc : Chain h blk) (hs : SameOff h h' S)
    (hd : ∀ w ∈ blk, w ∉ S) : Chain h' blk :=
  chain_congr (fun w hw => (hs w (hd w (List.dropLast_subset _ hw))).1)
    (fun w hw => (hs w (hd w (List.mem_of_mem_tail hw))).2) hc

theorem relinkRange_eq {h : Heap} {position x y z p : Id} (hne : x ≠ y) (hz : h.prior y = z)
    (hp : (unlinkSeg h (h.prior x) y).prior position = p) (_hx1 : x ≠ position)
    (hzp : z ≠ p) :
    h.relinkRange position x y = insSeg (unlinkSeg h (h.prior x) y) p position x z := by
  subst hz
  have hzp' := hzp.symm
  simp only [Heap.relinkRange, hne, ne_eq, not_false_eq_true, if_true, unlinkSeg, insSeg, Heap.setNext,
    Heap.setPrior] at *
  rw [hp]
  simp [upd_other _ _ hzp]

/-- `relink(position,x,y)` inside one list moves the block before `position`. -/
theorem fam_relinkRange_same {h : Heap} {a : Id} {u blk v s t : List Id} {R : List (Id × List Id)}
    (hf : Fam h ((a, u ++ blk ++ v) :: R)) (e : u ++ v = s ++ t) :
    Fam (h.relinkRange (hdOr a t) (hdOr a (blk ++ v)) (hdOr a v)) ((a, s ++ blk ++ t) :: R) := by
  have hc : Circ h a (u ++ blk ++ v) := hf.circ (by simp)
  have hn := hc.1
  have pn : (a :: (u ++ blk ++ v)).Perm (blk ++ a :: (u ++ v)) := by
    refine List.Perm.trans ?_ (List.perm_middle.symm)
    refine List.Perm.cons _ ?_
    rw [← List.append_assoc]
    exact List.Perm.append_right _ List.perm_append_comm
  have pn2 : (a :: (s ++ blk ++ t)).Perm (blk ++ a :: (s ++ t)) := by
    refine List.Perm.trans ?_ (List.perm_middle.symm)
    refine List.Perm.cons _ ?_
    rw [← List.append_assoc]
    exact List.Perm.append_right _ List.perm_append_comm
  have pp : (a :: (s ++ blk ++ t)).Perm (a :: (u ++ blk ++ v)) := by
    rw [← e] at pn2; exact pn2.trans pn.symm
  rw [pn.nodup_iff, List.nodup_append] at hn
  have hd : ∀ w ∈ blk, w ∉ a :: (u ++ v) := fun w hw hm => hn.2.2 w hw w hm rfl
  cases hb : blk with
  | nil =>
    subst hb
    simp only [List.append_nil, List.nil_append] at *
    simp only [Heap.relinkRange]
    rw [← e]; simpa using hf
  | cons x b =>
    rw [← hb]
    have hx : hdOr a (blk ++ v) = x := by rw [hb]; rfl
    obtain ⟨z, hz⟩ : ∃ z, blk.getLast? = some z := by rw [hb]; exact ⟨_, List.getLast?_cons⟩
    have hzl : lastOr a (u ++ blk) = z := by
      simp [lastOr, List.getLastD_eq_getLast?, List.getLast?_append, hz]
    have sp1 := seg_split (u := u) (v := blk ++ v) (by simpa using hc.2)
    have sp2 := seg_split (u := u ++ blk) (v := v) (by simpa using hc.2)
    rw [hx] at sp1 ⊢
    rw [hzl] at sp2
    have hxm : x ∈ blk := by rw [hb]; simp
    have hzm : z ∈ blk := List.mem_of_getLast? hz
    have hyin : hdOr a v ∈ a :: (u ++ v) := by have := hdOr_mem a v; simp at this ⊢; tauto
    have hpin : lastOr a u ∈ a :: (u ++ v) := by have := lastOr_mem a u; simp at this ⊢; tauto
    have hqin : hdOr a t ∈ a :: (u ++ v) := by rw [e]; have := hdOr_mem a t; simp at this ⊢; tauto
    have hrin : lastOr a s ∈ a :: (u ++ v) := by rw [e]; have := lastOr_mem a s; simp at this ⊢; tauto
    have un := circ_unlinkSeg hc
    have hne : ∀ w ∈ blk, ∀ y ∈ a :: (u ++ v), w ≠ y := fun w hw y hy e => hd w hw (e ▸ hy)
    have spl : (unlinkSeg h (h.prior x) (hdOr a v)).prior (hdOr a t) = lastOr a s := by
      rw [sp1.2]
      refine (seg_split (u := s) (v := t) ?_).2
      rw [← e]; exact un.1.2
    rw [relinkRange_eq (hne _ hxm _ hyin) sp2.2 spl (hne _ hxm _ hqin) (hne _ hzm _ hrin), sp1.2]
    have un' := un
    rw [e] at un'
    have fin := circ_insSeg (x := x) (z := z) (by rw [hb]; rfl) hz hn.1 (by rw [← e]; exact hd) un'.1 un'.2
    refine hf.frame1 ?_ pp fin
    have sub : ∀ w ∈ a :: (u ++ v), w ∈ a :: (u ++ blk ++ v) := by
      intro w hw; simp at hw ⊢; tauto
    have sub2 : ∀ w ∈ blk, w ∈ a :: (u ++ blk ++ v) := by
      intro w hw; simp at hw ⊢; tauto
    exact (unlinkSeg_same (sub _ hpin) (sub _ hyin)).trans
      (insSeg_same (sub _ hrin) (sub _ hqin) (sub2 _ hxm) (sub2 _ hzm))

/-- `relink(position,x,y)` across lists moves the block to the other list. -/
theorem fam_relinkRange_cross {h : Heap} {a c : Id} {u blk v s t : List Id} {R : List (Id × List Id)}
    (hf : Fam h ((a, u ++ blk ++ v) :: (c, s ++ t) :: R)) :
    Fam (h.relinkRange (hdOr c t) (hdOr a (blk ++ v)) (hdOr a v))
      ((a, u ++ v) :: (c, s ++ blk ++ t) :: R) := by
  have hc : Circ h a (u ++ blk ++ v) := hf.circ (by simp)
  have hc2 : Circ h c (s ++ t) := hf.circ (by simp)
  have hn := hf.1
  simp only [famIds, List.flatMap_cons] at hn
  have pn : (a :: (u ++ blk ++ v)).Perm (blk ++ a :: (u ++ v)) := by
    refine List.Perm.trans ?_ (List.perm_middle.symm)
    refine List.Perm.cons _ ?_
    rw [← List.append_assoc]
    exact List.Perm.append_right _ List.perm_append_comm
  have pn2 : (c :: (s ++ blk ++ t)).Perm (blk ++ c :: (s ++ t)) := by
    refine List.Perm.trans ?_ (List.perm_middle.symm)
    refine List.Perm.cons _ ?_
    rw [← List.append_assoc]
    exact List.Perm.append_right _ List.perm_append_comm
  have pp : (a :: (u ++ v) ++ c :: (s ++ blk ++ t)).Perm (a :: (u ++ blk ++ v) ++ c :: (s ++ t)) := by
    refine (List.Perm.append_left _ pn2).trans (List.Perm.trans ?_ (List.Perm.append_right _ pn.symm))
    rw [← List.append_assoc]
    exact List.Perm.append_right _ List.perm_append_comm
  rw [List.nodup_append] at hn
  have hn1 := hn.1
  rw [pn.nodup_iff, List.nodup_append] at hn1
  have hd : ∀ w ∈ blk, w ∉ a :: (u ++ v) := fun w hw hm => hn1.2.2 w hw w hm rfl
  have hd2 : ∀ w ∈ blk, w ∉ c :: (s ++ t) := fun w hw hm =>
    hn.2.2 w (pn.mem_iff.2 (by simp [hw])) w (List.mem_append_left _ hm) rfl
  have hdd : ∀ w ∈ c :: (s ++ t), w ∉ a :: (u ++ v) := fun w hw hm =>
    hn.2.2 w (pn.mem_iff.2 (List.mem_append_right _ hm)) w (List.mem_append_left _ hw) rfl
  cases hb : blk with
  | nil =>
    subst hb
    simp only [List.append_nil, List.nil_append] at *
    simp only [Heap.relinkRange]
    simpa using hf
  | cons x b =>
    rw [← hb]
    have hx : hdOr a (blk ++ v) = x := by rw [hb]; rfl
    obtain ⟨z, hz⟩ : ∃ z, blk.getLast? = some z := by rw [hb]; exact ⟨_, List.getLast?_cons⟩
    have hzl : lastOr a (u ++ blk) = z := by
      simp [lastOr, List.getLastD_eq_getLast?, List.getLast?_append, hz]
    have sp1 := seg_split (u := u) (v := blk ++ v) (by simpa using hc.2)
    have sp2 := seg_split (u := u ++ blk) (v := v) (by simpa using hc.2)
    rw [hx] at sp1 ⊢
    rw [hzl] at sp2
    have hxm : x ∈ blk := by rw [hb]; simp
    have hzm : z ∈ blk := List.mem_of_getLast? hz
    have hyin : hdOr a v ∈ a :: (u ++ v) := by have := hdOr_mem a v; simp at this ⊢; tauto
    have hpin : lastOr a u ∈ a :: (u ++ v) := by have := lastOr_mem a u; simp at this ⊢; tauto
    have hqin : hdOr c t ∈ c :: (s ++ t) := by have := hdOr_mem c t; simp at this ⊢; tauto
    have hrin : lastOr c s ∈ c :: (s ++ t) := by have := lastOr_mem c s; simp at this ⊢; tauto
    have un := circ_unlinkSeg hc
    have hs1 : SameOff h (unlinkSeg h (lastOr a u) (hdOr a v)) (a :: (u ++ v)) :=
      unlinkSeg_same hpin hyin
    have hc2' : Circ (unlinkSeg h (lastOr a u) (hdOr a v)) c (s ++ t) := by
      refine ⟨hc2.1, Seg_congr ?_ ?_ hc2.2⟩
      · intro w hw; exact (hs1 w (hdd w hw)).1
      · intro w hw; exact (hs1 w (hdd w (by simp at hw ⊢; tauto))).2
    have hne : ∀ w ∈ blk, ∀ y ∈ a :: (u ++ v), w ≠ y := fun w hw y hy e => hd w hw (e ▸ hy)
    have hne2 : ∀ w ∈ blk, ∀ y ∈ c :: (s ++ t), w ≠ y := fun w hw y hy e => hd2 w hw (e ▸ hy)
    have spl : (unlinkSeg h (h.prior x) (hdOr a v)).prior (hdOr c t) = lastOr c s := by
      rw [sp1.2]
      exact (seg_split (u := s) (v := t) hc2'.2).2
    rw [relinkRange_eq (hne _ hxm _ hyin) sp2.2 spl (hne2 _ hxm _ hqin) (hne2 _ hzm _ hrin), sp1.2]
    have fin := circ_insSeg (x := x) (z := z) (by rw [hb]; rfl) hz hn1.1 hd2 hc2' un.2
    have hs2 : SameOff (unlinkSeg h (lastOr a u) (hdOr a v))
        (insSeg (unlinkSeg h (lastOr a u) (hdOr a v)) (lastOr c s) (hdOr c t) x z)
        (blk ++ c :: (s ++ t)) :=
      insSeg_same (by simp at hrin ⊢; tauto) (by simp at hqin ⊢; tauto) (by simp [hxm]) (by simp [hzm])
    have hfa : Seg (insSeg (unlinkSeg h (lastOr a u) (hdOr a v)) (lastOr c s) (hdOr c t) x z) a (u ++ v) a := by
      have hdj : ∀ w ∈ a :: (u ++ v), w ∉ blk ++ c :: (s ++ t) := by
        intro w hw hm
        rcases List.mem_append.1 hm with hm | hm
        · exact hd w hm hw
        · exact hdd w hm hw
      refine Seg_congr ?_ ?_ un.1.2
      · intro w hw; exact (hs2 w (hdj w hw)).1
      · intro w hw; exact (hs2 w (hdj w (by simp at hw ⊢; tauto))).2
    refine hf.frame2 ?_ pp hfa fin.2
    refine (hs1.mono ?_).trans (hs2.mono ?_) <;> (intro w hw; simp at hw ⊢; tauto)

end MI.Seq
