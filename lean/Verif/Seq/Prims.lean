import Verif.Seq.Fam
/-! Effect of `link`, `unlink`, `relink`, `reverse` and `swap` on families of circular lists. -/
namespace MI.Seq
open MI

theorem circ_insSeg_fresh {h : Heap} {a x : Id} {u v : List Id} (hd : x ∉ a :: (u ++ v))
    (hc : Circ h a (u ++ v)) : Circ (insSeg h (lastOr a u) (hdOr a v) x x) a (u ++ [x] ++ v) :=
  circ_insSeg (blk := [x]) rfl rfl (by simp) (by simpa using hd) hc trivial

theorem link_eq {h : Heap} {x hd : Id} (hx : x ≠ hd) :
    h.link x hd = insSeg h (h.prior hd) hd x x := by
  simp only [Heap.link, insSeg, Heap.setNext, Heap.setPrior, Heap.mk.injEq, upd_same, upd_other _ _ hx,
    and_self]

theorem circ_link {h : Heap} {a x : Id} {xs : List Id} (hx : x ∉ a :: xs) (hc : Circ h a xs) :
    Circ (h.link x a) a (xs ++ [x]) ∧ SameOff h (h.link x a) (x :: a :: xs) := by
  have hxa : x ≠ a := fun e => hx (by simp [e])
  have sp := seg_split (h := h) (a := a) (u := xs) (v := []) (by simpa using hc.2)
  have e : h.prior a = lastOr a xs := sp.2
  rw [link_eq hxa, e]
  refine ⟨?_, insSeg_same ?_ ?_ ?_ ?_⟩
  · have := circ_insSeg_fresh (x := x) (u := xs) (v := []) (by simpa using hx) (by simpa using hc)
    simpa [hdOr] using this
  · exact List.mem_cons_of_mem _ (lastOr_mem a xs)
  all_goals simp

theorem nextOf_ne {h : Heap} {a x : Id} {u v : List Id} (hc : Circ h a (u ++ x :: v)) :
    h.prior x = lastOr a u ∧ h.next x = hdOr a v ∧ h.prior (hdOr a v) = x ∧ hdOr a v ≠ x ∧ lastOr a u ≠ x := by
  have s1 := seg_split (h := h) (a := a) (u := u) (v := x :: v) hc.2
  have s2 := seg_split (h := h) (a := a) (u := u ++ [x]) (v := v) (by simpa using hc.2)
  have e : lastOr a (u ++ [x]) = x := by simp [lastOr, List.getLastD_eq_getLast?]
  rw [e] at s2
  have n := hc.1
  simp only [List.nodup_cons, List.nodup_append, List.mem_append, List.mem_cons] at n
  refine ⟨s1.2, s2.1, s2.2, ?_, ?_⟩
  · have := hdOr_mem a v; intro e; rw [e] at this; simp at this; rcases this with h1 | h1
    · exact n.1 (Or.inr (Or.inl h1.symm))
    · exact n.2.2.1.1 h1
  · have := lastOr_mem a u; intro e; rw [e] at this; simp at this; rcases this with h1 | h1
    · exact n.1 (Or.inr (Or.inl h1.symm))
    · exact n.2.2.2 x h1 x (Or.inl rfl) rfl

theorem circ_unlink {h : Heap} {a x : Id} {u v : List Id} (hc : Circ h a (u ++ x :: v)) :
    Circ (h.unlink x) a (u ++ v) ∧ SameOff h (h.unlink x) (a :: (u ++ v)) := by
  obtain ⟨h1, h2, _, _, h5⟩ := nextOf_ne hc
  have e : h.unlink x = unlinkSeg h (lastOr a u) (hdOr a v) := by
    simp only [Heap.unlink, unlinkSeg, Heap.setNext, Heap.setPrior, h1, h2]
    simp [upd_other _ _ h5.symm, h2]
  rw [e]
  refine ⟨(circ_unlinkSeg (blk := [x]) (by simpa using hc)).1, unlinkSeg_same ?_ ?_⟩
  · have := lastOr_mem a u; simp at this ⊢; tauto
  · have := hdOr_mem a v; simp at this ⊢; tauto

theorem relink_eq {h : Heap} {p x : Id} (h3 : h.prior (h.next x) = x) (h4 : h.next x ≠ x)
    (h5 : h.prior x ≠ x) (hpx : p ≠ x) (hxp : ((h.unlink x).prior p) ≠ x) :
    h.relink p x = h.relinkRange p x (h.next x) := by
  have hxp' := hxp.symm
  simp only [Heap.unlink, Heap.setNext, Heap.setPrior] at hxp hxp'
  simp only [Heap.relink, Heap.relinkRange, Heap.unlink, Heap.setNext, Heap.setPrior, ne_eq, h4.symm,
    not_false_eq_true, if_true, h3, Heap.mk.injEq, upd_same, upd_other _ _ h5.symm, upd_other _ _ hpx.symm,
    upd_other _ _ h4.symm] at hxp hxp' ⊢
  simp only [upd_other _ _ hxp', upd_same, and_self]

/-- `relink(position,x)` in one list. -/
theorem fam_relink_same {h : Heap} {a x : Id} {u v s t : List Id} {R : List (Id × List Id)}
    (hf : Fam h ((a, u ++ x :: v) :: R)) (e : u ++ v = s ++ t) :
    Fam (h.relink (hdOr a t) x) ((a, s ++ x :: t) :: R) := by
  have hc : Circ h a (u ++ x :: v) := hf.circ (by simp)
  obtain ⟨h1, h2, h3, h4, h5⟩ := nextOf_ne hc
  have hx : x ∉ a :: (s ++ t) := by
    rw [← e]; have := hc.1; simp only [List.nodup_cons, List.nodup_append, List.mem_append, List.mem_cons] at this ⊢
    grind
  have un := (circ_unlink hc).1
  rw [e] at un
  have sp := (seg_split un.2).2
  rw [relink_eq (by rw [h2]; exact h3) (by rw [h2]; exact h4) (by rw [h1]; exact h5), h2]
  · have := fam_relinkRange_same (u := u) (blk := [x]) (v := v) (s := s) (t := t) (by simpa using hf) e
    simpa [hdOr] using this
  · intro e; apply hx; rw [← e]; have := hdOr_mem a t; simp at this ⊢; tauto
  · rw [sp]; intro e; apply hx; rw [← e]; have := lastOr_mem a s; simp at this ⊢; tauto

/-- `relink(position,x)` across lists. -/
theorem fam_relink_cross {h : Heap} {a c x : Id} {u v s t : List Id} {R : List (Id × List Id)}
    (hf : Fam h ((a, u ++ x :: v) :: (c, s ++ t) :: R)) :
    Fam (h.relink (hdOr c t) x) ((a, u ++ v) :: (c, s ++ x :: t) :: R) := by
  have hc : Circ h a (u ++ x :: v) := hf.circ (by simp)
  have hc2 : Circ h c (s ++ t) := hf.circ (by simp)
  obtain ⟨h1, h2, h3, h4, h5⟩ := nextOf_ne hc
  have hn := hf.1
  simp only [famIds, List.flatMap_cons] at hn
  rw [List.nodup_append] at hn
  have hdj : ∀ w ∈ a :: (u ++ x :: v), w ∉ c :: (s ++ t) := fun w hw hm =>
    hn.2.2 w hw w (List.mem_append_left _ hm) rfl
  have hx : x ∉ c :: (s ++ t) := hdj x (by simp)
  have un := (circ_unlink hc).2
  have hc2' : Seg (h.unlink x) c (s ++ t) c := by
    have hdd : ∀ w ∈ c :: (s ++ t), w ∉ a :: (u ++ v) := fun w hw hm =>
      hdj w (by simp at hm ⊢; tauto) hw
    refine Seg_congr ?_ ?_ hc2.2
    · intro w hw; exact (un w (hdd w hw)).1
    · intro w hw; exact (un w (hdd w (by simp at hw ⊢; tauto))).2
  have sp := (seg_split hc2').2
  rw [relink_eq (by rw [h2]; exact h3) (by rw [h2]; exact h4) (by rw [h1]; exact h5), h2]
  · have := fam_relinkRange_cross (u := u) (blk := [x]) (v := v) (s := s) (t := t) (by simpa using hf)
    simpa [hdOr] using this
  · intro e; apply hx; rw [← e]; have := hdOr_mem c t; simp at this ⊢; tauto
  · rw [sp]; intro e; apply hx; rw [← e]; have := lastOr_mem c s; simp at this ⊢; tauto

/-! ### reverse -/

theorem chain_reverse {h h' : Heap} {l : List Id} (hn : ∀ w ∈ l, h'.next w = h.prior w)
    (hp : ∀ w ∈ l, h'.prior w = h.next w) (hc : Chain h l) : Chain h' l.reverse := by
  induction l with
  | nil => trivial
  | cons x l ih =>
    cases l with
    | nil => trivial
    | cons y r =>
      rw [List.reverse_cons, List.reverse_cons, List.append_assoc, List.cons_append, List.nil_append]
      rw [chain_append]
      refine ⟨?_, ?_⟩
      · rw [← List.reverse_cons]
        exact ih (fun w hw => hn w (by simp at hw ⊢; tauto)) (fun w hw => hp w (by simp at hw ⊢; tauto)) hc.2.2
      · refine ⟨?_, ?_, trivial⟩
        · rw [hn y (by simp)]; exact hc.2.1
        · rw [hp x (by simp)]; exact hc.1

/-- Following `next` from `x` one meets `rest` and then `a`. -/
def NextPath (h : Heap) : Id → List Id → Id → Prop
  | x, [], a => h.next x = a
  | x, y :: r, a => h.next x = y ∧ NextPath h y r a

theorem NextPath.of_seg {h : Heap} {x a : Id} {l : List Id} (hs : Seg h x l a) : NextPath h x l a := by
  induction l generalizing x with
  | nil => exact hs.1
  | cons y r ih => exact ⟨hs.1, ih hs.2.2⟩

theorem NextPath.congr {h h' : Heap} {x a : Id} {l : List Id} (hn : ∀ w ∈ x :: l, h'.next w = h.next w)
    (hs : NextPath h x l a) : NextPath h' x l a := by
  induction l generalizing x with
  | nil => simp only [NextPath] at *; rw [hn x (by simp)]; exact hs
  | cons y r ih =>
    exact ⟨by rw [hn x (by simp)]; exact hs.1, ih (fun w hw => hn w (List.mem_cons_of_mem _ hw)) hs.2⟩

theorem reverse_go {a : Id} (rest : List Id) : ∀ (h : Heap) (x : Id) (n : Nat),
    NextPath h x rest a → (x :: rest).Nodup → a ∉ rest → rest.length < n →
    ∃ h', Heap.reverse.go a n h x = some h' ∧
      (∀ w ∈ x :: rest, h'.next w = h.prior w ∧ h'.prior w = h.next w) ∧ SameOff h h' (x :: rest) := by
  induction rest with
  | nil =>
    intro h x n hc _ _ hn
    obtain ⟨n, rfl⟩ : ∃ m, n = m + 1 := ⟨n - 1, by simp at hn; omega⟩
    have : h.next x = a := hc
    refine ⟨_, by simp only [Heap.reverse.go]; rw [if_pos this], by simp, ?_⟩
    intro w hw; simp at hw; simp [upd_other _ _ hw]
  | cons y r ih =>
    intro h x n hc nd ha hn
    obtain ⟨n, rfl⟩ : ∃ m, n = m + 1 := ⟨n - 1, by simp at hn; omega⟩
    have hy : h.next x = y := hc.1
    have hya : y ≠ a := fun e => ha (by simp [e])
    have hxr : x ∉ y :: r := (List.nodup_cons.1 nd).1
    simp only [Heap.reverse.go]
    rw [if_neg (by rw [hy]; exact hya), hy]
    obtain ⟨h', e', hw, hs⟩ := ih ⟨upd h.next x (h.prior x), upd h.prior x y⟩ y n
      (NextPath.congr (fun w hm => upd_other _ _ (fun e => hxr (e ▸ hm))) hc.2)
      (List.nodup_cons.1 nd).2 (fun hm => ha (by simp [hm])) (by simp at hn; omega)
    refine ⟨h', e', ?_, ?_⟩
    · intro w hm
      rcases List.mem_cons.1 hm with rfl | hm
      · have := hs w hxr
        rw [this.1, this.2, hy]; simp
      · have := hw w hm
        have hne : w ≠ x := fun e => hxr (e ▸ hm)
        simp [upd_other _ _ hne] at this; exact this
    · intro w hm
      have hne : w ≠ x := fun e => hm (by simp [e])
      have := hs w (fun h1 => hm (List.mem_cons_of_mem _ h1))
      simp [upd_other _ _ hne] at this; exact this

/-- `reverse(header)` terminates and reverses the list. -/
theorem fam_reverse {h : Heap} {a : Id} {xs : List Id} {R : List (Id × List Id)} {n : Nat}
    (hf : Fam h ((a, xs) :: R)) (hn : xs.length < n) :
    ∃ h', h.reverse n a = some h' ∧ Fam h' ((a, xs.reverse) :: R) := by
  have hc : Circ h a xs := hf.circ (by simp)
  obtain ⟨h', e, hw, hs⟩ := reverse_go xs h a n (NextPath.of_seg hc.2) hc.1 (List.nodup_cons.1 hc.1).1 hn
  refine ⟨h', e, hf.frame1 hs ?_ ⟨?_, ?_⟩⟩
  · exact (List.reverse_perm xs).cons a
  · exact ((List.reverse_perm xs).cons a).nodup_iff.2 hc.1
  · have := chain_reverse (h' := h') (l := a :: xs ++ [a])
      (fun w hm => (hw w (by simp at hm ⊢; tauto)).1)
      (fun w hm => (hw w (by simp at hm ⊢; tauto)).2) (Seg_iff_chain.1 hc.2)
    rw [Seg_iff_chain]
    simpa using this

/-! ### swap of two headers -/

theorem seg_rehead {h h' : Heap} {a b : Id} {u : List Id} (hu : u ≠ [])
    (hs : Seg h a u a) (n : u.Nodup) (hb : b ∉ u)
    (h1 : h'.next b = h.next a) (h2 : h'.prior (h.next a) = b)
    (h3 : h'.prior b = h.prior a) (h4 : h'.next (h.prior a) = b)
    (hn : ∀ w ∈ u, w ≠ h.prior a → h'.next w = h.next w)
    (hp : ∀ w ∈ u, w ≠ h.next a → h'.prior w = h.prior w) : Seg h' b u b := by
  have s1 := seg_split (h := h) (a := a) (u := []) (v := u) hs
  have s2 := seg_split (h := h) (a := a) (u := u) (v := []) (by simpa using hs)
  obtain ⟨x, r, rfl⟩ := List.exists_cons_of_ne_nil hu
  obtain ⟨r', z, hz⟩ : ∃ r' z, x :: r = r' ++ [z] :=
    ⟨_, _, (List.dropLast_append_getLast (l := x :: r) (by simp)).symm⟩
  have e1 : h.next a = x := s1.1
  have e2 : h.prior a = z := by
    have := s2.2
    rw [hz] at this
    simpa [lastOr, hdOr, List.getLastD_eq_getLast?] using this
  rw [Seg_iff_chain] at hs ⊢
  have hc : Chain h (x :: r) := chain_left (chain_cons hs)
  have hc' : Chain h' (x :: r) := by
    refine chain_congr ?_ ?_ hc
    · intro w hw
      refine hn w (List.dropLast_subset _ hw) ?_
      rw [e2]; rintro rfl
      rw [hz] at hw n
      simp [List.nodup_append] at hw n
      exact n.2 w hw rfl
    · intro w hw
      refine hp w (List.mem_of_mem_tail hw) ?_
      rw [e1]; rintro rfl
      exact (List.nodup_cons.1 n).1 hw
  rw [hz] at hc' ⊢
  have : b :: (r' ++ [z]) ++ [b] = (b :: r') ++ z :: b :: [] := by simp
  rw [this, chain_mid]
  refine ⟨?_, ⟨by rw [← e2]; exact h4, by rw [h3, e2]⟩, trivial⟩
  rw [List.cons_append, ← hz]
  rw [← hz] at hc'
  exact ⟨by rw [h1, e1], by rw [← e1]; exact h2, hc'⟩

theorem seg_nil_iff {h : Heap} {a : Id} {xs : List Id} (hc : Circ h a xs) : h.next a = a ↔ xs = [] := by
  cases xs with
  | nil => simpa using hc.2.1
  | cons x r =>
    simp only [reduceCtorEq, iff_false]
    have := hc.2.1
    rw [this]; intro e; exact (List.nodup_cons.1 hc.1).1 (by simp [e])

theorem next_mem {h : Heap} {a : Id} {xs : List Id} (hs : Seg h a xs a) : h.next a ∈ a :: xs ∧ h.prior a ∈ a :: xs := by
  have s1 := seg_split (h := h) (a := a) (u := []) (v := xs) hs
  have s2 := seg_split (h := h) (a := a) (u := xs) (v := []) (by simpa using hs)
  have e1 : h.next a = hdOr a xs := s1.1
  have e2 : h.prior a = lastOr a xs := s2.2
  rw [e1, e2]; exact ⟨hdOr_mem _ _, lastOr_mem _ _⟩

theorem prior_ne {h : Heap} {a : Id} {xs : List Id} (hc : Circ h a xs) (hne : xs ≠ []) :
    h.next a ∈ xs ∧ h.prior a ∈ xs := by
  have n1 : h.next a ≠ a := fun e => hne ((seg_nil_iff hc).1 e)
  have s2 := seg_split (h := h) (a := a) (u := xs) (v := []) (by simpa using hc.2)
  have e2 : h.prior a = lastOr a xs := s2.2
  obtain ⟨m1, m2⟩ := next_mem hc.2
  refine ⟨by rcases List.mem_cons.1 m1 with e | e; exact absurd e n1; exact e, ?_⟩
  rw [e2, lastOr, List.getLastD_eq_getLast?, List.getLast?_eq_some_getLast hne]
  exact List.getLast_mem hne

/-- `swap(x,y)` exchanges the two lists. -/
theorem fam_swapHeaders {h : Heap} {a b : Id} {xs ys : List Id} {R : List (Id × List Id)}
    (hf : Fam h ((a, xs) :: (b, ys) :: R)) :
    Fam (h.swapHeaders a b) ((a, ys) :: (b, xs) :: R) := by
  have hca : Circ h a xs := hf.circ (by simp)
  have hcb : Circ h b ys := hf.circ (by simp)
  have hn := hf.1
  simp only [famIds, List.flatMap_cons] at hn
  rw [List.nodup_append] at hn
  have hdj : ∀ w ∈ a :: xs, w ∉ b :: ys := fun w hw hm =>
    hn.2.2 w hw w (List.mem_append_left _ hm) rfl
  have hab : a ≠ b := fun e => hdj a (by simp) (by simp [e])
  have hax : a ∉ xs := (List.nodup_cons.1 hca.1).1
  have hby : b ∉ ys := (List.nodup_cons.1 hcb.1).1
  have hay : a ∉ ys := fun hm => hdj a (by simp) (by simp [hm])
  have hbx : b ∉ xs := fun hm => hdj b (by simp [hm]) (by simp)
  have hxy : ∀ w ∈ xs, ∀ w' ∈ ys, w ≠ w' := fun w hw w' hw' e => hdj w (by simp [hw]) (by simp [e, hw'])
  have hxa : ∀ w ∈ xs, w ≠ a := fun w hw e => hax (e ▸ hw)
  have hxb : ∀ w ∈ xs, w ≠ b := fun w hw e => hbx (e ▸ hw)
  have hya : ∀ w ∈ ys, w ≠ a := fun w hw e => hay (e ▸ hw)
  have hyb : ∀ w ∈ ys, w ≠ b := fun w hw e => hby (e ▸ hw)
  have nx := (List.nodup_cons.1 hca.1).2
  have ny := (List.nodup_cons.1 hcb.1).2
  have key : SameOff h (h.swapHeaders a b) (a :: xs ++ b :: ys) ∧
      Seg (h.swapHeaders a b) a ys a ∧ Seg (h.swapHeaders a b) b xs b := by
    by_cases e1 : xs = []
    · have q1 := (seg_nil_iff hca).2 e1
      by_cases e2 : ys = []
      · have q2 := (seg_nil_iff hcb).2 e2
        simp only [Heap.swapHeaders, q1, q2, ne_eq, not_true_eq_false, if_false]
        subst e1; subst e2
        exact ⟨fun w _ => ⟨rfl, rfl⟩, hca.2, hcb.2⟩
      · have q2 : h.next b ≠ b := fun e => e2 ((seg_nil_iff hcb).1 e)
        obtain ⟨m1, m2⟩ := prior_ne hcb e2
        have a1 := hyb _ m1; have a2 := hyb _ m2; have a3 := hya _ m1; have a4 := hya _ m2
        have E : h.swapHeaders a b = ⟨upd (upd (upd h.next a (h.next b)) b b) (h.prior b) a,
            upd (upd (upd h.prior a (h.prior b)) b b) (h.next b) a⟩ := by
          simp only [Heap.swapHeaders, q1, q2, ne_eq, not_true_eq_false, if_false, if_true,
            not_false_eq_true, Heap.setNext, Heap.setPrior]
          simp [upd, hab, a1, a2, a3, a4, a1.symm, a2.symm, a3.symm, a4.symm]
        rw [E]
        refine ⟨?_, ?_, ?_⟩
        · intro w hw
          simp only [List.mem_append, List.mem_cons, not_or] at hw
          have b1 : w ≠ h.prior b := fun e => hw.2.2 (e ▸ m2)
          have b2 : w ≠ h.next b := fun e => hw.2.2 (e ▸ m1)
          simp [upd, hw.1.1, hw.2.1, b1, b2]
        · refine seg_rehead (h := h) (a := b) e2 hcb.2 ny hay ?_ ?_ ?_ ?_ ?_ ?_
          · simp [upd, hab, a4.symm]
          · simp [upd]
          · simp [upd, hab, a3.symm]
          · simp [upd]
          · intro w hw hne; simp [upd, hne, hyb w hw, hya w hw]
          · intro w hw hne; simp [upd, hne, hyb w hw, hya w hw]
        · subst e1
          simp [Seg, upd, a1.symm, a2.symm]
    · have q1 : h.next a ≠ a := fun e => e1 ((seg_nil_iff hca).1 e)
      obtain ⟨m3, m4⟩ := prior_ne hca e1
      have c1 := hxb _ m3; have c2 := hxb _ m4; have c3 := hxa _ m3; have c4 := hxa _ m4
      by_cases e2 : ys = []
      · have q2 := (seg_nil_iff hcb).2 e2
        have E : h.swapHeaders a b = ⟨upd (upd (upd h.next b (h.next a)) a a) (h.prior a) b,
            upd (upd (upd h.prior b (h.prior a)) a a) (h.next a) b⟩ := by
          simp only [Heap.swapHeaders, q1, q2, ne_eq, not_true_eq_false, if_false, if_true,
            not_false_eq_true, Heap.setNext, Heap.setPrior]
          simp [upd, hab, hab.symm, c1, c2, c3, c4, c1.symm, c2.symm, c3.symm, c4.symm]
        rw [E]
        refine ⟨?_, ?_, ?_⟩
        · intro w hw
          simp only [List.mem_append, List.mem_cons, not_or] at hw
          have b1 : w ≠ h.prior a := fun e => hw.1.2 (e ▸ m4)
          have b2 : w ≠ h.next a := fun e => hw.1.2 (e ▸ m3)
          simp [upd, hw.1.1, hw.2.1, b1, b2]
        · subst e2
          simp [Seg, upd, c3.symm, c4.symm]
        · refine seg_rehead (h := h) (a := a) e1 hca.2 nx hbx ?_ ?_ ?_ ?_ ?_ ?_
          · simp [upd, hab.symm, c2.symm]
          · simp [upd]
          · simp [upd, hab.symm, c1.symm]
          · simp [upd]
          · intro w hw hne; simp [upd, hne, hxb w hw, hxa w hw]
          · intro w hw hne; simp [upd, hne, hxb w hw, hxa w hw]
      · have q2 : h.next b ≠ b := fun e => e2 ((seg_nil_iff hcb).1 e)
        obtain ⟨m1, m2⟩ := prior_ne hcb e2
        have a1 := hyb _ m1; have a2 := hyb _ m2; have a3 := hya _ m1; have a4 := hya _ m2
        have d1 := hxy _ m3 _ m1; have d2 := hxy _ m4 _ m2
        have E : h.swapHeaders a b = ⟨upd (upd (upd (upd h.next a (h.next b)) b (h.next a)) (h.prior b) a) (h.prior a) b,
            upd (upd (upd (upd h.prior a (h.prior b)) b (h.prior a)) (h.next b) a) (h.next a) b⟩ := by
          simp only [Heap.swapHeaders, q1, q2, ne_eq, if_true,
            not_false_eq_true, Heap.setNext, Heap.setPrior]
          simp [upd, hab, hab.symm, a1.symm, a2.symm, a3.symm, a4.symm, c1.symm, c2.symm, c3.symm, c4.symm]
        rw [E]
        refine ⟨?_, ?_, ?_⟩
        · intro w hw
          simp only [List.mem_append, List.mem_cons, not_or] at hw
          have b1 : w ≠ h.prior a := fun e => hw.1.2 (e ▸ m4)
          have b2 : w ≠ h.next a := fun e => hw.1.2 (e ▸ m3)
          have b3 : w ≠ h.prior b := fun e => hw.2.2 (e ▸ m2)
          have b4 : w ≠ h.next b := fun e => hw.2.2 (e ▸ m1)
          simp [upd, hw.1.1, hw.2.1, b1, b2, b3, b4]
        · refine seg_rehead (h := h) (a := b) e2 hcb.2 ny hay ?_ ?_ ?_ ?_ ?_ ?_
          · simp [upd, hab, a4.symm, c4.symm]
          · simp [upd, d1.symm]
          · simp [upd, hab, a3.symm, c3.symm]
          · simp [upd, d2.symm]
          · intro w hw hne; simp [upd, hne, hyb w hw, hya w hw, (hxy _ m4 w hw).symm]
          · intro w hw hne; simp [upd, hne, hyb w hw, hya w hw, (hxy _ m3 w hw).symm]
        · refine seg_rehead (h := h) (a := a) e1 hca.2 nx hbx ?_ ?_ ?_ ?_ ?_ ?_
          · simp [upd, c2.symm, a2.symm]
          · simp [upd]
          · simp [upd, c1.symm, a1.symm]
          · simp [upd]
          · intro w hw hne; simp [upd, hne, hxb w hw, hxa w hw, (hxy w hw _ m2)]
          · intro w hw hne; simp [upd, hne, hxb w hw, hxa w hw, (hxy w hw _ m1)]
  refine hf.frame2 key.1 ?_ key.2.1 key.2.2
  have : (a :: xs ++ b :: ys).Perm (a :: b :: (xs ++ ys)) := List.Perm.cons _ List.perm_middle
  refine List.Perm.trans ?_ this.symm
  have : (a :: ys ++ b :: xs).Perm (a :: b :: (ys ++ xs)) := List.Perm.cons _ List.perm_middle
  exact this.trans ((List.perm_append_comm.cons b).cons a)

end MI.Seq
