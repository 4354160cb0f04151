import Verif.Seq.Index
import Verif.Seq.SortLemmas
/-! Helper lemmas: effect of the sequenced index member functions on the represented lists. -/
namespace MI.Seq
open MI

theorem fam_link {h : Heap} {a x : Id} {xs : List Id} {R : List (Id × List Id)}
    (hf : Fam h ((a, xs) :: R)) (hx : x ∉ famIds ((a, xs) :: R)) :
    Fam (h.link x a) ((a, xs ++ [x]) :: R) := by
  have hx1 : x ∉ a :: xs := fun hm => hx (by simp only [famIds, List.flatMap_cons]; exact List.mem_append_left _ hm)
  obtain ⟨h1, h2⟩ := circ_link hx1 (hf.circ (by simp))
  have n := hf.1
  simp only [famIds, List.flatMap_cons, List.nodup_append] at n hx
  refine ⟨?_, ?_⟩
  · simp only [famIds, List.flatMap_cons, List.nodup_append]
    refine ⟨h1.1, n.2.1, ?_⟩
    intro y hy z hz e
    have : y ∈ x :: (a :: xs) := by simp at hy ⊢; tauto
    rcases List.mem_cons.1 this with rfl | hm
    · exact hx (List.mem_append_right _ (e ▸ hz))
    · exact n.2.2 y hm z hz e
  · intro p hp
    rcases List.mem_cons.1 hp with rfl | hp
    · exact h1.2
    · have hd : ∀ w ∈ p.1 :: p.2, w ∉ x :: a :: xs := by
        intro w hw hw'
        have hm : w ∈ List.flatMap (fun p => p.1 :: p.2) R := List.mem_flatMap.2 ⟨p, hp, hw⟩
        rcases List.mem_cons.1 hw' with rfl | hw'
        · exact hx (List.mem_append_right _ hm)
        · exact n.2.2 w hw' w hm rfl
      refine Seg_congr ?_ ?_ (hf.2 p (by simp [hp]))
      · intro w hw; exact (h2 w (hd w hw)).1
      · intro w hw; exact (h2 w (hd w (by simp at hw ⊢; tauto))).2

theorem famIds_cons (a : Id) (xs : List Id) (R : List (Id × List Id)) :
    famIds ((a, xs) :: R) = a :: (xs ++ famIds R) := by simp [famIds]

theorem fam_unlink {h : Heap} {a x : Id} {u v : List Id} {R : List (Id × List Id)}
    (hf : Fam h ((a, u ++ x :: v) :: R)) :
    Fam (h.unlink x) ((a, u ++ v) :: R) ∧ x ∉ famIds ((a, u ++ v) :: R) := by
  obtain ⟨h1, h2⟩ := circ_unlink (hf.circ (a := a) (xs := u ++ x :: v) (by simp))
  have n := hf.1
  have pn : (famIds ((a, u ++ x :: v) :: R)).Perm (x :: famIds ((a, u ++ v) :: R)) := by
    rw [famIds_cons, famIds_cons]
    have : (a :: (u ++ x :: v ++ famIds R)) = (a :: u) ++ x :: (v ++ famIds R) := by simp
    rw [this]
    exact List.perm_middle.trans (by simp)
  rw [pn.nodup_iff, List.nodup_cons] at n
  refine ⟨⟨n.2, ?_⟩, n.1⟩
  intro p hp
  rcases List.mem_cons.1 hp with rfl | hp
  · exact h1.2
  · have hd : ∀ w ∈ p.1 :: p.2, w ∉ a :: (u ++ v) := by
      intro w hw hw'
      have hm : w ∈ famIds R := List.mem_flatMap.2 ⟨p, hp, hw⟩
      have := n.2
      rw [famIds_cons, ← List.cons_append, List.nodup_append] at this
      exact this.2.2 w hw' w hm rfl
    refine Seg_congr ?_ ?_ (hf.2 p (by simp [hp]))
    · intro w hw; exact (h2 w (hd w hw)).1
    · intro w hw; exact (h2 w (hd w (by simp at hw ⊢; tauto))).2

theorem fam_insertAt {h : Heap} {a x : Id} {s t : List Id} {R : List (Id × List Id)}
    (hf : Fam h ((a, s ++ t) :: R)) (hx : x ∉ famIds ((a, s ++ t) :: R)) :
    Fam (insertAt h a (hdOr a t) x true) ((a, s ++ x :: t) :: R) := by
  have f1 := fam_link hf hx
  simp only [insertAt, if_true]
  split
  · exact fam_relink_same (u := s ++ t) (v := []) (s := s) (t := t) (by simpa using f1) (by simp)
  · rename_i hp
    have hp : hdOr a t = a := by simpa using hp
    have ha : a ∉ t := by
      have := (hf.circ (a := a) (xs := s ++ t) (by simp)).1; simp at this; tauto
    have : t = [] := (hdOr_eq_iff' ha).1 hp
    subst this
    simpa using f1

/-- Elements of the range that were accepted. -/
def accepted (vs : List (Id × Bool)) : List Id := (vs.filter (·.2)).map (·.1)

theorem fam_insertIter {a : Id} {R : List (Id × List Id)} (vs : List (Id × Bool)) :
    ∀ {h : Heap} {s t : List Id}, Fam h ((a, s ++ t) :: R) →
    (vs.map (·.1)).Nodup → (∀ v ∈ vs, v.1 ∉ famIds ((a, s ++ t) :: R)) →
    Fam (insertIter h a (hdOr a t) vs) ((a, s ++ accepted vs ++ t) :: R) := by
  induction vs with
  | nil => intro h s t hf _ _; simpa [insertIter, accepted] using hf
  | cons v vs ih =>
    intro h s t hf hn hx
    obtain ⟨x, acc⟩ := v
    simp only [List.map_cons, List.nodup_cons] at hn
    cases acc with
    | false =>
      simp only [insertIter, insertAt, Bool.false_eq_true, if_false]
      simpa [accepted] using ih hf hn.2 (fun v hv => hx v (by simp [hv]))
    | true =>
      have f1 := fam_insertAt hf (hx (x, true) (by simp))
      have f2 := ih (h := insertAt h a (hdOr a t) x true) (s := s ++ [x]) (t := t) (by simpa using f1) hn.2 (by
        intro v hv
        have h1 := hx v (by simp [hv])
        have h2 : v.1 ≠ x := fun e => hn.1 (by rw [← e]; exact List.mem_map_of_mem hv)
        simp only [famIds_cons, List.mem_cons, List.mem_append, not_or] at h1 ⊢
        simp; tauto)
      simpa [insertIter, accepted] using f2

theorem next_in {h : Heap} {a x : Id} {u v : List Id} {R : List (Id × List Id)}
    (hf : Fam h ((a, u ++ x :: v) :: R)) : h.next x = hdOr a v :=
  (nextOf_ne (hf.circ (a := a) (xs := u ++ x :: v) (by simp))).2.1

theorem next_hd {h : Heap} {a : Id} {v : List Id} {R : List (Id × List Id)}
    (hf : Fam h ((a, v) :: R)) : h.next a = hdOr a v :=
  (seg_split (h := h) (a := a) (u := []) (v := v) (hf.circ (a := a) (xs := v) (by simp)).2).1

theorem prior_hd {h : Heap} {a : Id} {v : List Id} {R : List (Id × List Id)}
    (hf : Fam h ((a, v) :: R)) : h.prior a = lastOr a v :=
  (seg_split (h := h) (a := a) (u := v) (v := []) (by simpa using (hf.circ (a := a) (xs := v) (by simp)).2)).2

theorem notMem_hd {h : Heap} {a : Id} {v : List Id} {R : List (Id × List Id)}
    (hf : Fam h ((a, v) :: R)) : a ∉ v := (List.nodup_cons.1 (hf.circ (a := a) (xs := v) (by simp)).1).1

theorem fam_eraseRange {a : Id} {R : List (Id × List Id)} (blk : List Id) :
    ∀ {h : Heap} {s t : List Id} {n : Nat}, Fam h ((a, s ++ blk ++ t) :: R) → blk.length ≤ n →
    ∃ h', eraseRange n h (hdOr a (blk ++ t)) (hdOr a t) = .ok (h', blk) ∧ Fam h' ((a, s ++ t) :: R) := by
  induction blk with
  | nil =>
    intro h s t n hf _
    unfold eraseRange
    exact ⟨h, by simp, by simpa using hf⟩
  | cons x blk ih =>
    intro h s t n hf hn
    obtain ⟨n, rfl⟩ : ∃ m, n = m + 1 := ⟨n - 1, by simp at hn; omega⟩
    have hf' : Fam h ((a, s ++ x :: (blk ++ t)) :: R) := by simpa using hf
    have hnx := next_in hf'
    obtain ⟨f1, _⟩ := fam_unlink hf'
    obtain ⟨h', e1, e2⟩ := ih (n := n) (s := s) (t := t) (by simpa using f1) (by simp at hn; omega)
    have hne : x ≠ hdOr a t := by
      intro e
      have hm := hdOr_mem a t
      rw [← e] at hm
      have := (hf'.circ (a := a) (xs := s ++ x :: (blk ++ t)) (by simp)).1
      simp [List.nodup_append] at this hm
      grind
    unfold eraseRange
    have : hdOr a (x :: blk ++ t) = x := rfl
    rw [this, if_pos hne]
    simp only [eraseAt, hnx, e1]
    exact ⟨h', rfl, e2⟩

theorem fam_rearrange {a : Id} {R : List (Id × List Id)} (vs : List Id) :
    ∀ {h : Heap} {xs dn : List Id}, Fam h ((a, xs ++ dn) :: R) → vs.Perm xs →
    Fam (rearrange h a vs) ((a, dn ++ vs) :: R) := by
  induction vs with
  | nil => intro h xs dn hf hp; have := hp.symm.eq_nil; subst this; simpa [rearrange] using hf
  | cons v vs ih =>
    intro h xs dn hf hp
    obtain ⟨u, w, rfl⟩ := List.append_of_mem (hp.mem_iff.1 (List.mem_cons_self))
    have f1 := fam_relink_same (a := a) (x := v) (u := u) (v := w ++ dn) (s := u ++ w ++ dn) (t := [])
      (R := R) (h := h) (by simpa using hf) (by simp)
    have hp2 : vs.Perm (u ++ w) := by
      have := hp.trans List.perm_middle
      exact this.cons_inv
    have := ih (h := h.relink a v) (xs := u ++ w) (dn := dn ++ [v]) (by simpa [hdOr] using f1) hp2
    simpa [rearrange] using this

theorem fam_internalSplice {a : Id} {R : List (Id × List Id)} (vs : List Id) :
    ∀ {h : Heap} {s t : List Id}, Fam h ((a, s ++ t) :: R) → vs.Nodup → (∀ v ∈ vs, v ∈ s ++ t) →
    hdOr a t ∉ vs →
    Fam (internalSplice h (hdOr a t) vs)
      ((a, s.filter (· ∉ vs) ++ vs ++ t.filter (· ∉ vs)) :: R) := by
  induction vs with
  | nil => intro h s t hf _ _ _; simpa [internalSplice] using hf
  | cons v vs ih =>
    intro h s t hf hn hm hp
    have nd := (hf.circ (a := a) (xs := s ++ t) (by simp)).1
    rw [List.nodup_cons, List.nodup_append] at nd
    simp only [List.mem_cons, not_or] at hp
    rw [List.nodup_cons] at hn
    have hvm := hm v (by simp)
    rcases List.mem_append.1 hvm with hv | hv
    · obtain ⟨u, w, rfl⟩ := List.append_of_mem hv
      have f1 := fam_relink_same (a := a) (x := v) (u := u) (v := w ++ t) (s := u ++ w) (t := t)
        (R := R) (h := h) (by simpa using hf) (by simp)
      have nd1 := nd.2.1
      rw [List.nodup_append, List.nodup_cons] at nd1
      have := ih (h := h.relink (hdOr a t) v) (s := u ++ w ++ [v]) (t := t) (by simpa using f1) hn.2 (by
        intro x hx; have := hm x (by simp [hx]); simp at this ⊢; tauto) hp.2
      simp only [internalSplice]
      refine Eq.mp ?_ this
      congr 3
      have hu : v ∉ u := fun h1 => nd1.2.2 v h1 v (by simp) rfl
      have hw : v ∉ w := nd1.2.1.1
      have ht : v ∉ t := fun h1 => nd.2.2.2 v (by simp) v h1 rfl
      have e1 : ∀ l : List Id, v ∉ l → l.filter (fun x => decide (x ∉ v :: vs)) = l.filter (fun x => decide (x ∉ vs)) := by
        intro l hl
        apply List.filter_congr
        intro y hy
        have : y ≠ v := fun e => hl (e ▸ hy)
        simp [this]
      have e2 : List.filter (fun x => decide (x ∉ vs)) [v] = [v] := by simp [hn.1]
      have e3 : List.filter (fun x => decide (x ∉ v :: vs)) (v :: w) = List.filter (fun x => decide (x ∉ v :: vs)) w := by
        simp
      rw [List.filter_append, List.filter_append, e2, List.filter_append, e3, e1 u hu, e1 w hw, e1 t ht]
      simp
    · obtain ⟨u, w, rfl⟩ := List.append_of_mem hv
      have nd1 := nd.2.2.1
      rw [List.nodup_append, List.nodup_cons] at nd1
      have hune : u ≠ [] := by
        rintro rfl; exact hp.1 (by simp [hdOr])
      obtain ⟨u0, u', rfl⟩ := List.exists_cons_of_ne_nil hune
      have f1 := fam_relink_same (a := a) (x := v) (u := s ++ u0 :: u') (v := w) (s := s) (t := u0 :: u' ++ w)
        (R := R) (h := h) (by simpa using hf) (by simp)
      have := ih (h := h.relink u0 v) (s := s ++ [v]) (t := u0 :: u' ++ w) (by simpa [hdOr] using f1) hn.2 (by
        intro x hx; have := hm x (by simp [hx]); simp at this ⊢; tauto) (by simpa [hdOr] using hp.2)
      simp only [internalSplice]
      have hh1 : hdOr a (u0 :: u' ++ v :: w) = u0 := rfl
      have hh2 : hdOr a (u0 :: u' ++ w) = u0 := rfl
      rw [hh1]
      rw [hh2] at this
      refine Eq.mp ?_ this
      congr 3
      have hu : v ∉ u0 :: u' := fun h1 => nd1.2.2 v h1 v (by simp) rfl
      have hw : v ∉ w := nd1.2.1.1
      have hs : v ∉ s := fun h1 => nd.2.2.2 v h1 v hv rfl
      have e1 : ∀ l : List Id, v ∉ l → l.filter (fun x => decide (x ∉ v :: vs)) = l.filter (fun x => decide (x ∉ vs)) := by
        intro l hl
        apply List.filter_congr
        intro y hy
        have : y ≠ v := fun e => hl (e ▸ hy)
        simp [this]
      have e2 : List.filter (fun x => decide (x ∉ vs)) [v] = [v] := by simp [hn.1]
      have e3 : List.filter (fun x => decide (x ∉ v :: vs)) (v :: w) = List.filter (fun x => decide (x ∉ v :: vs)) w := by
        simp
      rw [List.filter_append, List.filter_append, e2, List.filter_append, e3, e1 _ hu, e1 w hw, e1 s hs]
      simp

/-! ### copy_ -/

theorem deleteAllGo_spec {h : Heap} {a : Id} (v : List Id) : ∀ {x : Id} {n : Nat},
    NextPath h x v a → x ≠ a → a ∉ v → v.length < n → deleteAllGo h a n x = some (x :: v) := by
  induction v with
  | nil =>
    intro x n hp hx _ hn
    obtain ⟨n, rfl⟩ : ∃ m, n = m + 1 := ⟨n - 1, by simp at hn; omega⟩
    have : h.next x = a := hp
    unfold deleteAllGo
    rw [if_pos hx]
    simp only [this]
    unfold deleteAllGo
    simp
  | cons y v ih =>
    intro x n hp hx ha hn
    obtain ⟨n, rfl⟩ : ∃ m, n = m + 1 := ⟨n - 1, by simp at hn; omega⟩
    have h1 : h.next x = y := hp.1
    unfold deleteAllGo
    rw [if_pos hx]
    simp only [h1]
    rw [ih hp.2 (fun e => ha (by simp [e])) (fun e => ha (by simp [e])) (by simp at hn; omega)]
    rfl

theorem traverse_from {h : Heap} {a : Id} {u v : List Id} {n : Nat} (hc : Circ h a (u ++ v)) (hn : v.length ≤ n) :
    deleteAllGo h a n (hdOr a v) = some v := by
  cases v with
  | nil => unfold deleteAllGo; simp [hdOr]
  | cons x v =>
    have hs := hc.2
    rw [Seg_iff_chain] at hs
    have hs2 : Seg h x v a := by
      rw [Seg_iff_chain]
      have : a :: (u ++ x :: v) ++ [a] = (a :: u) ++ (x :: v ++ [a]) := by simp
      rw [this] at hs
      exact chain_right hs
    have nd := hc.1
    simp at nd
    exact deleteAllGo_spec v (NextPath.of_seg hs2) (fun e => nd.1.2.1 e.symm) nd.1.2.2 (by simp at hn; omega)

theorem copyGo_spec {hx : Heap} {map : Id → Id} {xa : Id} (rest : List Id) :
    ∀ {h : Heap} {org : Id} {n : Nat}, NextPath hx org rest xa → xa ∉ rest → rest.length < n →
    (∀ y z, y ∈ org :: xa :: rest → z ∈ org :: xa :: rest → map y = map z → y = z) → (org :: rest).Nodup →
    ∃ h', copyGo hx map xa n h org (map org) = some h' ∧
      (∀ y ∈ org :: rest, h'.next (map y) = map (hx.next y)) ∧
      (∀ y ∈ org :: rest, h'.prior (map (hx.next y)) = map y) ∧
      (∀ w, w ∉ (org :: rest).map map → h'.next w = h.next w) ∧
      (∀ w, w ∉ (rest ++ [xa]).map map → h'.prior w = h.prior w) := by
  induction rest with
  | nil =>
    intro h org n hp _ hn _ _
    obtain ⟨n, rfl⟩ : ∃ m, n = m + 1 := ⟨n - 1, by simp at hn; omega⟩
    have e : hx.next org = xa := hp
    refine ⟨_, by simp only [copyGo, e]; rw [if_neg (by simp)], ?_, ?_, ?_, ?_⟩
    · simp [Heap.setNext, Heap.setPrior, e]
    · simp [Heap.setNext, Heap.setPrior, e]
    · intro w hw; simp at hw; simp [Heap.setNext, Heap.setPrior, upd_other _ _ hw]
    · intro w hw; simp at hw; simp [Heap.setNext, Heap.setPrior, upd_other _ _ hw]
  | cons y rest ih =>
    intro h org n hp ha hn hinj hnd
    obtain ⟨n, rfl⟩ : ∃ m, n = m + 1 := ⟨n - 1, by simp at hn; omega⟩
    have e : hx.next org = y := hp.1
    have hya : y ≠ xa := fun e => ha (by simp [e])
    obtain ⟨h', g1, g2, g3, g4, g5⟩ := ih (h := (h.setNext (map org) (map y)).setPrior (map y) (map org)) (n := n) hp.2
      (fun e => ha (by simp [e])) (by simp at hn; omega)
      (fun a b ha hb => hinj a b (by simp at ha ⊢; tauto) (by simp at hb ⊢; tauto)) (List.nodup_cons.1 hnd).2
    have hor : map org ∉ (y :: rest).map map := by
      intro hm
      obtain ⟨z, hz, ez⟩ := List.mem_map.1 hm
      have := hinj z org (by simp at hz ⊢; tauto) (by simp) ez
      subst this
      exact (List.nodup_cons.1 hnd).1 hz
    have hyr : map y ∉ (rest ++ [xa]).map map := by
      intro hm
      obtain ⟨z, hz, ez⟩ := List.mem_map.1 hm
      have := hinj z y (by simp at hz ⊢; tauto) (by simp) ez
      subst this
      rcases List.mem_append.1 hz with hz | hz
      · exact (List.nodup_cons.1 (List.nodup_cons.1 hnd).2).1 hz
      · exact hya (by simpa using hz)
    refine ⟨h', by simp only [copyGo, e]; rw [if_pos hya]; exact g1, ?_, ?_, ?_, ?_⟩
    · intro w hw
      rcases List.mem_cons.1 hw with rfl | hw
      · rw [g4 _ hor, e]; simp [Heap.setNext, Heap.setPrior]
      · exact g2 w hw
    · intro w hw
      rcases List.mem_cons.1 hw with rfl | hw
      · rw [e, g5 _ hyr]; simp [Heap.setPrior]
      · exact g3 w hw
    · intro w hw
      simp only [List.map_cons, List.mem_cons, not_or] at hw
      rw [g4 w (by simp only [List.map_cons, List.mem_cons, not_or]; exact hw.2)]
      simp [Heap.setNext, Heap.setPrior, upd_other _ _ hw.1]
    · intro w hw
      simp only [List.cons_append, List.map_cons, List.mem_cons, not_or] at hw
      rw [g5 w hw.2]
      simp [Heap.setNext, Heap.setPrior, upd_other _ _ hw.1]

theorem seg_map {hx h' : Heap} {map : Id → Id} (v : List Id) : ∀ {a b : Id}, Seg hx a v b →
    (∀ y ∈ a :: v, h'.next (map y) = map (hx.next y)) →
    (∀ y ∈ a :: v, h'.prior (map (hx.next y)) = map y) → Seg h' (map a) (v.map map) (map b) := by
  induction v with
  | nil =>
    intro a b hs h1 h2
    have e : hx.next a = b := hs.1
    have := h1 a (by simp); have := h2 a (by simp)
    simp_all [Seg]
  | cons x v ih =>
    intro a b hs h1 h2
    have e : hx.next a = x := hs.1
    have e1 := h1 a (by simp); have e2 := h2 a (by simp)
    rw [e] at e1 e2
    exact ⟨e1, e2, ih hs.2.2 (fun y hy => h1 y (by simp at hy ⊢; tauto)) (fun y hy => h2 y (by simp at hy ⊢; tauto))⟩

/-! ### transfers -/

theorem fam_transfer {h : Heap} {a b x : Id} {u v xs : List Id} {R : List (Id × List Id)}
    (hf : Fam h ((b, u ++ x :: v) :: (a, xs) :: R)) :
    Fam (transfer h a x true) ((b, u ++ v) :: (a, xs ++ [x]) :: R) := by
  obtain ⟨f1, hx⟩ := fam_unlink hf
  have hx' : x ∉ famIds ((a, xs) :: (b, u ++ v) :: R) := by
    simp only [famIds_cons, List.mem_cons, List.mem_append, not_or] at hx ⊢
    tauto
  simpa [transfer] using (fam_link f1.swap hx').swap

/-- List level transfer of a range: success flag and the elements handled before a throw. -/
def transL (dec : Id → Option Bool) : List Id → Bool × List Id
  | [] => (true, [])
  | x :: vs =>
    match dec x with
    | none => (false, [])
    | some _ => let r := transL dec vs; (r.1, x :: r.2)

theorem fam_transferRange {a b : Id} {R : List (Id × List Id)} (dec : Id → Option Bool) (vs : List Id) :
    ∀ {h : Heap} {ys xs : List Id}, Fam h ((b, ys) :: (a, xs) :: R) → vs.Nodup → (∀ v ∈ vs, v ∈ ys) →
    ∃ h', transferRange h a dec vs = (if (transL dec vs).1 then .ok h' else .threw h') ∧
      Fam h' ((b, ys.filter (fun y => !(decide (y ∈ (transL dec vs).2) && dec y == some true))) ::
        (a, xs ++ (transL dec vs).2.filter (fun y => dec y == some true)) :: R) := by
  induction vs with
  | nil =>
    intro h ys xs hf _ _
    refine ⟨h, by simp [transferRange, transL], ?_⟩
    simpa [transL] using hf
  | cons x vs ih =>
    intro h ys xs hf hn hm
    rw [List.nodup_cons] at hn
    rcases (Option.eq_none_or_eq_some (dec x)) with hd | ⟨acc, hd⟩
    · have e1 : transferRange h a dec (x :: vs) = .threw h := by simp [transferRange, hd]
      have e2 : transL dec (x :: vs) = (false, []) := by simp [transL, hd]
      rw [e1, e2]
      exact ⟨h, by simp, by simpa using hf⟩
    · have e1 : transferRange h a dec (x :: vs) = transferRange (transfer h a x acc) a dec vs := by
        simp [transferRange, hd]
      have e2 : transL dec (x :: vs) = ((transL dec vs).1, x :: (transL dec vs).2) := by simp [transL, hd]
      rw [e1, e2]
      have hym : x ∈ ys := hm x (by simp)
      have hyn : ys.Nodup := (List.nodup_cons.1 (hf.circ (a := b) (xs := ys) (by simp)).1).2
      cases acc with
      | false =>
        obtain ⟨h', e', f'⟩ := ih hf hn.2 (fun v hv => hm v (by simp [hv]))
        refine ⟨h', by simpa [transfer] using e', ?_⟩
        have E1 : ys.filter (fun y => !(decide (y ∈ x :: (transL dec vs).2) && dec y == some true)) =
            ys.filter (fun y => !(decide (y ∈ (transL dec vs).2) && dec y == some true)) := by
          apply List.filter_congr
          intro y hy
          by_cases hyx : y = x
          · subst hyx; simp [hd]
          · simp [hyx]
        have E2 : (x :: (transL dec vs).2).filter (fun y => dec y == some true) =
            (transL dec vs).2.filter (fun y => dec y == some true) := by simp [hd]
        simp only [E1, E2]
        exact f'
      | true =>
        obtain ⟨u, v, rfl⟩ := List.append_of_mem hym
        have f1 := fam_transfer hf
        obtain ⟨h', e', f'⟩ := ih f1 hn.2 (by
          intro w hw
          have h1 := hm w (by simp [hw])
          have h2 : w ≠ x := fun e => hn.1 (e ▸ hw)
          simp at h1 ⊢; tauto)
        refine ⟨h', e', ?_⟩
        have hxu : x ∉ u ∧ x ∉ v := by
          rw [List.nodup_append, List.nodup_cons] at hyn
          exact ⟨fun h1 => hyn.2.2 x h1 x (by simp) rfl, hyn.2.1.1⟩
        have e1 : ∀ l : List Id, x ∉ l → l.filter (fun y => !(decide (y ∈ x :: (transL dec vs).2) && dec y == some true)) =
            l.filter (fun y => !(decide (y ∈ (transL dec vs).2) && dec y == some true)) := by
          intro l hl
          apply List.filter_congr
          intro y hy
          have : y ≠ x := fun e => hl (e ▸ hy)
          simp [this]
        have E1 : (u ++ x :: v).filter (fun y => !(decide (y ∈ x :: (transL dec vs).2) && dec y == some true)) =
            (u ++ v).filter (fun y => !(decide (y ∈ (transL dec vs).2) && dec y == some true)) := by
          rw [List.filter_append, List.filter_append, List.filter_cons, e1 u hxu.1, e1 v hxu.2]
          simp [hd]
        have E2 : (x :: (transL dec vs).2).filter (fun y => dec y == some true) =
            x :: (transL dec vs).2.filter (fun y => dec y == some true) := by simp [hd]
        simp only [E1, E2]
        simpa using f'

theorem transL_ok {dec : Id → Option Bool} {vs : List Id} (h : (transL dec vs).1 = true) :
    (transL dec vs).2 = vs := by
  induction vs with
  | nil => rfl
  | cons x vs ih =>
    simp only [transL] at h ⊢
    cases hd : dec x with
    | none => simp [hd] at h
    | some acc => simp only [hd] at h ⊢; rw [ih h]

theorem transL_total {dec : Id → Option Bool} {vs : List Id} (h : ∀ x ∈ vs, (dec x).isSome) :
    (transL dec vs).1 = true := by
  induction vs with
  | nil => rfl
  | cons x vs ih =>
    simp only [transL]
    cases hd : dec x with
    | none => have := h x (by simp); simp [hd] at this
    | some acc => exact ih (fun y hy => h y (by simp [hy]))

theorem fam_relocateRange {h : Heap} {a : Id} {u blk v s t : List Id} {R : List (Id × List Id)}
    (hf : Fam h ((a, u ++ blk ++ v) :: R)) (e : u ++ v = s ++ t) :
    Fam (relocateRange h (hdOr a t) (hdOr a (blk ++ v)) (hdOr a v)) ((a, s ++ blk ++ t) :: R) := by
  unfold relocateRange
  split
  · exact fam_relinkRange_same hf e
  · rename_i hp
    have hp : hdOr a t = hdOr a v := by simpa using hp
    have ha : a ∉ u ++ v ∧ (u ++ v).Nodup := by
      have := (hf.circ (a := a) (xs := u ++ blk ++ v) (by simp)).1
      simp only [List.nodup_cons, List.nodup_append, List.mem_append] at this ⊢
      grind
    have : u = s ∧ v = t := by
      have key : ∀ (s t : List Id), u ++ v = s ++ t → hdOr a t = hdOr a v → t.length = v.length := by
        intro s t e hp
        cases t with
        | nil =>
          cases v with
          | nil => rfl
          | cons y v => exact absurd (by simp [show a = y from hp]) ha.1
        | cons z t =>
          cases v with
          | nil =>
            have : z = a := hp
            exact absurd (by rw [e]; simp [this]) ha.1
          | cons y v =>
            have hz : z = y := hp
            subst hz
            have hn := ha.2
            have h1 : (u ++ z :: v).idxOf z = u.length := by
              rw [List.idxOf_append_of_notMem (by simp only [List.nodup_append] at hn; grind)]; simp
            have h2 : (s ++ z :: t).idxOf z = s.length := by
              rw [e] at hn
              rw [List.idxOf_append_of_notMem (by simp only [List.nodup_append] at hn; grind)]; simp
            have h3 := congrArg List.length e
            rw [e] at h1
            simp only [List.length_append, List.length_cons] at h3 ⊢
            omega
      have hl := key s t e hp
      exact (List.append_inj' e hl.symm)
    rw [← this.1, ← this.2]
    exact hf

end MI.Seq
