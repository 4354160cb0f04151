import Verif.Rnd.Algo2
import Verif.Seq.IndexLemmas
/-! Helper lemmas: the loader of the random access index. -/
namespace MI.Rnd
open MI MI.Seq

/-- A loader seen as a heap of links, on the nodes `ids`. -/
structure Agree (l : Loader) (h : Heap) (ids : List Id) : Prop where
  inj : ∀ x ∈ ids, ∀ y ∈ ids, l.up x = l.up y → x = y
  nx : ∀ x ∈ ids, l.nxt (l.up x) = h.next x
  pv : ∀ x ∈ ids, l.prv (l.up x) = h.prior x

theorem Agree.setNext {l : Loader} {h : Heap} {ids : List Id} (H : Agree l h ids) {p v : Id} (hp : p ∈ ids) :
    Agree (l.setNext p v) (h.setNext p v) ids where
  inj := H.inj
  nx x hx := by
    simp only [Loader.setNext, Heap.setNext]
    by_cases e : x = p
    · subst e; simp
    · rw [upd_other _ _ e, upd_other _ _ (fun e' => e (H.inj _ hx _ hp e'))]; exact H.nx x hx
  pv := H.pv

theorem Agree.setPrev {l : Loader} {h : Heap} {ids : List Id} (H : Agree l h ids) {p v : Id} (hp : p ∈ ids) :
    Agree (l.setPrev p v) (h.setPrior p v) ids where
  inj := H.inj
  nx := H.nx
  pv x hx := by
    simp only [Loader.setPrev, Heap.setPrior]
    by_cases e : x = p
    · subst e; simp
    · rw [upd_other _ _ e, upd_other _ _ (fun e' => e (H.inj _ hx _ hp e'))]; exact H.pv x hx

theorem Agree.next {l : Loader} {h : Heap} {ids : List Id} (H : Agree l h ids) {p : Id} (hp : p ∈ ids) : l.next p = h.next p :=
  H.nx p hp

theorem Agree.prev {l : Loader} {h : Heap} {ids : List Id} (H : Agree l h ids) {p : Id} (hp : p ∈ ids) : l.prev p = h.prior p :=
  H.pv p hp

/-- The loader threads the list `xs`. -/
structure LRep (l : Loader) (hd : Id) (xs xs0 : List Id) : Prop where
  ex : ∃ h, Agree l h (hd :: xs) ∧ Fam h [(hd, xs)]
  perm : xs.Perm xs0
  up : ∀ i v, (xs0 ++ [hd])[i]? = some v → l.up v = i
  size : l.size = xs0.length
  header : l.header = hd

theorem rearrange_step {l : Loader} {hd x : Id} {u v s t xs0 : List Id} (H : LRep l hd (u ++ x :: v) xs0) (e : u ++ v = s ++ t)
    {pos : Option Id} (hpos : pos.getD hd = lastOr hd s) : LRep (l.rearrange pos x) hd (s ++ x :: t) xs0 := by
  obtain ⟨⟨h, A, F⟩, hp, hup, hsz, hh⟩ := H
  obtain ⟨F1, hx1⟩ := fam_unlink F
  have hnx : h.next x = hdOr hd v := next_in F
  have hc : Circ h hd (u ++ x :: v) := F.circ (by simp)
  have hpv : h.prior x = lastOr hd u := by
    have := (seg_split (h := h) (a := hd) (u := u) (v := x :: v) hc.2).2
    simpa [hdOr] using this
  have sp := seg_split (h := h.unlink x) (a := hd) (u := s) (v := t) (by
    have := (F1.circ (a := hd) (xs := u ++ v) (by simp)).2; rwa [e] at this)
  have F' := fam_relink_same F e
  -- membership
  have mlast : ∀ w : List Id, (∀ y ∈ w, y ∈ u ++ v) → lastOr hd w ∈ hd :: (u ++ x :: v) := by
    intro w hw
    obtain ⟨u', hu⟩ := lastOr_spec hd w
    have : lastOr hd w ∈ hd :: w := by rw [hu]; simp
    rcases List.mem_cons.1 this with h | h
    · rw [h]; simp
    · have := hw _ h; simp only [List.mem_append, List.mem_cons] at this ⊢; tauto
  have mhd : ∀ w : List Id, (∀ y ∈ w, y ∈ u ++ v) → hdOr hd w ∈ hd :: (u ++ x :: v) := by
    intro w hw
    cases w with
    | nil => simp [hdOr]
    | cons y w =>
      have := hw y (by simp)
      simp only [hdOr, List.headD_cons, List.mem_append, List.mem_cons] at this ⊢; tauto
  have mx : x ∈ hd :: (u ++ x :: v) := by simp
  have m1 := mlast u (fun y hy => by simp [hy])
  have m2 := mhd v (fun y hy => by simp [hy])
  have m3 := mlast s (fun y hy => by rw [e]; simp [hy])
  have m4 := mhd t (fun y hy => by rw [e]; simp [hy])
  have hmem : ∀ y, y ∈ hd :: (s ++ x :: t) → y ∈ hd :: (u ++ x :: v) := by
    intro y hy
    have : y ∈ s ++ t ↔ y ∈ u ++ v := by rw [e]
    simp only [List.mem_append, List.mem_cons] at this hy ⊢; tauto
  -- unlinking
  have A1 : Agree ((l.setNext (l.prev x) (l.next x)).setPrev ((l.setNext (l.prev x) (l.next x)).next x)
      ((l.setNext (l.prev x) (l.next x)).prev x)) (h.unlink x) (hd :: (u ++ x :: v)) := by
    have a := A.setNext (p := l.prev x) (v := l.next x) (by rw [A.prev mx, hpv]; exact m1)
    rw [A.prev mx, A.next mx] at a ⊢
    have b1 := a.next mx
    have b2 := a.prev mx
    have hxl : x ≠ lastOr hd u := by
      obtain ⟨u', hu⟩ := lastOr_spec hd u
      have hm : lastOr hd u ∈ hd :: u := by rw [hu]; simp
      have := hc.1
      simp only [List.nodup_cons, List.nodup_append, List.mem_append, List.mem_cons] at this hm
      rintro rfl; grind
    have b3 : (h.setNext (h.prior x) (h.next x)).next x = h.next x := by
      rw [hpv]; simp only [Heap.setNext]; exact upd_other _ _ hxl
    have := a.setPrev (p := (h.setNext (h.prior x) (h.next x)).next x) (v := (h.setNext (h.prior x) (h.next x)).prior x) (by
      rw [b3, hnx]; exact m2)
    rw [b1, b2]
    exact this
  refine ⟨⟨h.relink (hdOr hd t) x, ?_, F'⟩, ?_, ?_, ?_, ?_⟩
  · have key : Agree (l.rearrange pos x) (h.relink (hdOr hd t) x) (hd :: (u ++ x :: v)) := by
      unfold Loader.rearrange
      rw [hh, hpos]
      simp only
      generalize hl1 : ((l.setNext (l.prev x) (l.next x)).setPrev ((l.setNext (l.prev x) (l.next x)).next x)
        ((l.setNext (l.prev x) (l.next x)).prev x)) = l1 at A1
      have a := A1.setPrev (p := x) (v := lastOr hd s) mx
      have e1 : (l1.setPrev x (lastOr hd s)).next (lastOr hd s) = hdOr hd t := by
        rw [a.next m3]; exact sp.1
      rw [e1]
      have b := a.setNext (p := x) (v := hdOr hd t) mx
      have e2 : ((l1.setPrev x (lastOr hd s)).setNext x (hdOr hd t)).next x = hdOr hd t := by
        rw [b.next mx]; simp [Heap.setNext]
      rw [e2]
      have c := b.setPrev (p := hdOr hd t) (v := x) m4
      have hne : x ≠ hdOr hd t := by
        have hx' : x ∉ hd :: (s ++ t) := by
          rw [← e]; have := hc.1
          simp only [List.nodup_cons, List.nodup_append, List.mem_append, List.mem_cons] at this ⊢
          grind
        intro hcon; apply hx'
        cases t with
        | nil => simp [hcon, hdOr]
        | cons y t => simp [hcon, hdOr]
      have e3 : (((l1.setPrev x (lastOr hd s)).setNext x (hdOr hd t)).setPrev (hdOr hd t) x).prev x = lastOr hd s := by
        rw [c.prev mx]; simp [Heap.setNext, Heap.setPrior, upd_other _ _ hne]
      rw [e3]
      have d := c.setNext (p := lastOr hd s) (v := x) m3
      have e4 : h.relink (hdOr hd t) x = ((((h.unlink x).setPrior x (lastOr hd s)).setNext x (hdOr hd t)).setPrior (hdOr hd t) x).setNext (lastOr hd s) x := by
        unfold Heap.relink
        simp only
        rw [sp.2]
        have e5 : (((h.unlink x).setPrior x (lastOr hd s)).setNext x (hdOr hd t)).next x = hdOr hd t := by simp [Heap.setNext]
        rw [e5]
        have e6 : ((((h.unlink x).setPrior x (lastOr hd s)).setNext x (hdOr hd t)).setPrior (hdOr hd t) x).prior x = lastOr hd s := by
          simp [Heap.setNext, Heap.setPrior, upd_other _ _ hne]
        rw [e6]
      rw [e4]
      exact d
    exact ⟨fun x hx y hy => key.inj x (hmem x hx) y (hmem y hy), fun x hx => key.nx x (hmem x hx), fun x hx => key.pv x (hmem x hx)⟩
  · refine List.Perm.trans ?_ hp
    refine List.perm_middle.trans (List.Perm.trans ?_ List.perm_middle.symm)
    rw [e]
  · intro i w hw
    have := hup i w hw
    simpa [Loader.rearrange, Loader.setNext, Loader.setPrev] using this
  · simpa [Loader.rearrange, Loader.setNext, Loader.setPrev] using hsz
  · simpa [Loader.rearrange, Loader.setNext, Loader.setPrev] using hh

theorem chain_get {h : Heap} {L : List Id} : Chain h L ↔
    ∀ i a b, L[i]? = some a → L[i + 1]? = some b → h.next a = b ∧ h.prior b = a := by
  induction L with
  | nil => simp [Chain]
  | cons x L ih =>
    cases L with
    | nil => simp [Chain]
    | cons y L =>
      simp only [Chain, ih]
      constructor
      · rintro ⟨h1, h2, h3⟩ i a b ha hb
        cases i with
        | zero => simp at ha hb; subst ha; subst hb; exact ⟨h1, h2⟩
        | succ i => exact h3 i a b (by simpa using ha) (by simpa using hb)
      · intro H
        have := H 0 x y (by simp) (by simp)
        exact ⟨this.1, this.2, fun i a b ha hb => H (i + 1) a b (by simpa using ha) (by simpa using hb)⟩

theorem preprocess_rep {s : Arr} {hd : Id} {xs : List Id} (h : Rep s hd xs) : LRep (preprocess s) hd xs xs := by
  have hsz := h.1
  have hnd := h.nodup
  refine ⟨⟨⟨fun x => (preprocess s).nxt (s.up x), fun x => (preprocess s).prv (s.up x)⟩, ⟨?_, fun _ _ => rfl, fun _ _ => rfl⟩, ?_, ?_⟩,
    List.Perm.refl _, fun i v hv => (h.2.2 i v hv).2, hsz, by show s.arr s.size = hd; rw [hsz]; exact h.arr_end⟩
  · intro x hx y hy e
    have m : ∀ x ∈ hd :: xs, ∃ i, i ≤ xs.length ∧ s.arr i = x ∧ s.up x = i := by
      intro x hx
      rcases List.mem_cons.1 hx with rfl | hx
      · exact ⟨_, Nat.le_refl _, h.arr_end, h.up_end⟩
      · obtain ⟨i, hi, rfl⟩ := List.getElem_of_mem hx
        exact ⟨i, by omega, h.arr hi, h.up hi⟩
    obtain ⟨i, _, a1, a2⟩ := m x hx
    obtain ⟨j, _, b1, b2⟩ := m y hy
    have e : s.up x = s.up y := e
    rw [a2, b2] at e
    rw [← a1, ← b1, e]
  · have := h.notMem
    have := h.nodup'
    simp [famIds]; tauto
  · intro p hp
    have hp : p = (hd, xs) := by simpa using hp
    subst hp
    simp only
    rw [Seg_iff_chain, chain_get]
    intro i a b ha hb
    have hi : i + 1 < (hd :: xs ++ [hd]).length := by
      by_contra hc; rw [List.getElem?_eq_none (by omega)] at hb; cases hb
    simp only [List.length_append, List.length_cons, List.length_nil] at hi
    have hb' : (xs ++ [hd])[i]? = some b := by simpa using hb
    have hbu := h.2.2 i b hb'
    show (preprocess s).nxt (s.up a) = b ∧ (preprocess s).prv (s.up b) = a
    cases i with
    | zero =>
      have ea : a = hd := by simpa using ha.symm
      subst ea
      simp only [preprocess, hbu.2, h.up_end, hsz, if_true, hbu.1, true_and]
      exact h.arr_end
    | succ i =>
      have ha' : (xs ++ [hd])[i]? = some a := by
        rw [List.getElem?_append_left (by omega)]
        rw [List.cons_append, List.getElem?_cons_succ, List.getElem?_append_left (by omega)] at ha
        exact ha
      have hau := h.2.2 i a ha'
      simp only [preprocess, hbu.2, hau.2]
      rw [if_neg (by omega), if_neg (by omega)]
      exact ⟨hbu.1, by simpa using hau.1⟩

theorem erase_split {x : Id} {u v : List Id} (h : (u ++ x :: v).Nodup) : (u ++ x :: v).erase x = u ++ v := by
  rw [List.erase_append_right _ (by simp only [List.nodup_append] at h; grind)]
  simp

theorem insertAfter_split {p x : Id} {u v : List Id} (h : p ∉ u) : insertAfter p x (u ++ p :: v) = u ++ p :: x :: v := by
  induction u with
  | nil => simp [insertAfter]
  | cons y u ih =>
    have h1 : y ≠ p := fun e => h (by simp [e])
    simp only [List.cons_append, insertAfter, if_neg h1, ih (fun e => h (by simp [e]))]

/-- One call of the rearranger. -/
theorem rearrange_rep {l : Loader} {hd x : Id} {xs xs0 : List Id} (H : LRep l hd xs xs0) {pos : Option Id} (hx : x ∈ xs)
    (hpos : ∀ p ∈ pos, p ∈ xs ∧ p ≠ x) : LRep (l.rearrange pos x) hd (moveAfter xs pos x) xs0 := by
  have hn : xs.Nodup := by
    obtain ⟨h, _, F⟩ := H.ex
    have := (F.circ (a := hd) (xs := xs) (by simp)).1
    exact (List.nodup_cons.1 this).2
  obtain ⟨u, v, rfl⟩ := List.append_of_mem hx
  have hn' : (u ++ v).Nodup := hn.sublist (by simp)
  unfold moveAfter
  rw [erase_split hn]
  cases pos with
  | none => exact rearrange_step (s := []) (t := u ++ v) H rfl rfl
  | some p =>
    obtain ⟨hp, hpx⟩ := hpos p rfl
    have hm : p ∈ u ++ v := by
      simp only [List.mem_append, List.mem_cons] at hp ⊢; tauto
    obtain ⟨s, t, e⟩ := List.append_of_mem hm
    have hps : p ∉ s := by rw [e] at hn'; simp only [List.nodup_append] at hn'; grind
    simp only
    rw [e, insertAfter_split hps]
    have := rearrange_step (s := s ++ [p]) (t := t) (pos := some p) H (by simpa using e) (by
      simp [lastOr, List.getLastD_eq_getLast?])
    simpa using this

/-- Invariant of the final loop. -/
structure FInv (l : Loader) (n : Nat → Id) (sz i : Nat) : Prop where
  placed : ∀ j, i ≤ j → j ≤ sz → l.nxt j = n j ∧ l.up (n j) = j
  bound : ∀ k, k < i → l.up (n k) < i
  inj : ∀ k k', k < i → k' < i → l.up (n k) = l.up (n k') → k = k'
  nx : ∀ k, k + 1 < i → l.nxt (l.up (n k)) = n (k + 1)
  pv : ∀ k, k < i → l.prv (l.up (n (k + 1))) = n k

theorem FInv.surj {l : Loader} {n : Nat → Id} {sz i : Nat} (H : FInv l n sz i) {p : Nat} (hp : p < i) :
    ∃ k, k < i ∧ l.up (n k) = p := by
  let F : Fin i → Fin i := fun k => ⟨l.up (n k), H.bound k k.2⟩
  have hF : Function.Injective F := by
    rintro ⟨a, ha⟩ ⟨b, hb⟩ e
    have e' : l.up (n a) = l.up (n b) := congrArg Fin.val e
    exact Fin.ext (H.inj a b ha hb e')
  obtain ⟨⟨k, hk⟩, e⟩ := (Finite.injective_iff_surjective.1 hF) ⟨p, hp⟩
  exact ⟨k, hk, congrArg Fin.val e⟩

theorem finishGo_inv (n : Nat → Id) (sz : Nat) (hn : ∀ i j, i ≤ sz → j ≤ sz → n i = n j → i = j) (i : Nat) :
    ∀ (l : Loader), i ≤ sz → FInv l n sz i → FInv (Loader.finishGo i l (n i)) n sz 0 ∧ (Loader.finishGo i l (n i)).size = l.size := by
  induction i with
  | zero => intro l _ H; exact ⟨H, rfl⟩
  | succ i ih =>
    intro l hi H
    have e1 : l.prev (n (i + 1)) = n i := H.pv i (by omega)
    simp only [Loader.finishGo, e1]
    by_cases hd : l.up (n i) = i
    · rw [if_neg (by simpa using hd)]
      suffices I : FInv (l.setNext (n i) (n i)) n sz i from ih _ (by omega) I
      refine ⟨?_, ?_, ?_, ?_, ?_⟩
      · intro j h1 h2
        simp only [Loader.setNext, hd]
        by_cases hj : j = i
        · subst hj; exact ⟨by simp, hd⟩
        · rw [upd_other _ _ hj]; exact H.placed j (by omega) h2
      · intro k hk
        have h1 := H.bound k (by omega)
        have h2 : l.up (n k) ≠ i := fun e => by
          have := H.inj k i (by omega) (by omega) (e.trans hd.symm); omega
        show l.up (n k) < i
        omega
      · intro k k' h1 h2 e; exact H.inj k k' (by omega) (by omega) e
      · intro k hk
        simp only [Loader.setNext, hd]
        have h2 : l.up (n k) ≠ i := fun e => by
          have := H.inj k i (by omega) (by omega) (e.trans hd.symm); omega
        rw [upd_other _ _ h2]; exact H.nx k (by omega)
      · intro k hk; exact H.pv k (by omega)
    · rw [if_pos (by simpa using hd)]
      obtain ⟨k, hk, ek⟩ := H.surj (p := i) (by omega)
      have hki : k ≠ i := fun e => hd (e ▸ ek)
      have em : l.prev (l.nxt i) = n k := by
        have := H.nx k (by omega)
        rw [ek] at this
        rw [this]; exact H.pv k hk
      have hnk : n k ≠ n i := fun e => hki (hn k i (by omega) (by omega) e)
      have hdi : l.up (n i) < i := by have := H.bound i (by omega); omega
      simp only [em]
      generalize hl' : (Loader.setNext
        { nxt := upd l.nxt (l.up (n i)) (l.nxt i),
          prv := upd (upd l.prv (l.up (n i)) (l.prv i)) i (l.prv (l.up (n i))),
          up := upd (upd l.up (n k) (l.up (n i))) (n i) (l.up (n k)), size := l.size, header := l.header } (n i) (n i)) = l'
      have up_i : l'.up (n i) = i := by rw [← hl']; simp [Loader.setNext, ek]
      have up_k : l'.up (n k) = l.up (n i) := by rw [← hl']; simp [Loader.setNext, upd_other _ _ hnk]
      have up_o : ∀ j, j ≤ sz → j ≠ i → j ≠ k → l'.up (n j) = l.up (n j) := by
        intro j hj h1 h2
        rw [← hl']
        simp only [Loader.setNext]
        rw [upd_other _ _ (fun e => h1 (hn _ _ hj (by omega) e)), upd_other _ _ (fun e => h2 (hn _ _ hj (by omega) e))]
      have nx_i : l'.nxt i = n i := by rw [← hl']; simp [Loader.setNext, ek]
      have nx_d : l'.nxt (l.up (n i)) = n (k + 1) := by
        rw [← hl']; simp only [Loader.setNext, upd_same, ek]
        rw [upd_other _ _ (by omega), upd_same, ← ek]; exact H.nx k (by omega)
      have nx_o : ∀ p, p ≠ i → p ≠ l.up (n i) → l'.nxt p = l.nxt p := by
        intro p h1 h2
        rw [← hl']; simp only [Loader.setNext, upd_same, ek]
        rw [upd_other _ _ h1, upd_other _ _ h2]
      have pv_i : l'.prv i = l.prv (l.up (n i)) := by rw [← hl']; simp [Loader.setNext]
      have pv_d : l'.prv (l.up (n i)) = l.prv i := by
        rw [← hl']; simp only [Loader.setNext]
        rw [upd_other _ _ (by omega), upd_same]
      have pv_o : ∀ p, p ≠ i → p ≠ l.up (n i) → l'.prv p = l.prv p := by
        intro p h1 h2
        rw [← hl']; simp only [Loader.setNext]
        rw [upd_other _ _ h1, upd_other _ _ h2]
      have sz' : l'.size = l.size := by rw [← hl']; rfl
      have ne_i : ∀ j, j < i + 1 → j ≠ k → l.up (n j) ≠ i := fun j hj h e => h (H.inj j k hj hk (e.trans ek.symm))
      have ne_d : ∀ j, j < i + 1 → j ≠ i → l.up (n j) ≠ l.up (n i) := fun j hj h e => h (H.inj j i hj (by omega) e)
      suffices I : FInv l' n sz i from ⟨(ih _ (by omega) I).1, (ih _ (by omega) I).2.trans sz'⟩
      refine ⟨?_, ?_, ?_, ?_, ?_⟩
      · intro j h1 h2
        by_cases hj : j = i
        · subst hj; exact ⟨nx_i, up_i⟩
        · rw [nx_o j hj (by omega), up_o j h2 hj (by omega)]; exact H.placed j (by omega) h2
      · intro j hj
        by_cases hjk : j = k
        · subst hjk; rw [up_k]; exact hdi
        · rw [up_o j (by omega) (by omega) hjk]
          have := H.bound j (by omega)
          have := ne_i j (by omega) hjk
          omega
      · intro j j' h1 h2 e
        by_cases hjk : j = k
        · by_cases hjk' : j' = k
          · omega
          · subst hjk
            rw [up_k, up_o j' (by omega) (by omega) hjk'] at e
            exact absurd e.symm (ne_d j' (by omega) (by omega))
        · by_cases hjk' : j' = k
          · subst hjk'
            rw [up_k, up_o j (by omega) (by omega) hjk] at e
            exact absurd e (ne_d j (by omega) (by omega))
          · rw [up_o j (by omega) (by omega) hjk, up_o j' (by omega) (by omega) hjk'] at e
            exact H.inj j j' (by omega) (by omega) e
      · intro j hj
        by_cases hjk : j = k
        · subst hjk; rw [up_k, nx_d]
        · rw [up_o j (by omega) (by omega) hjk, nx_o _ (ne_i j (by omega) hjk) (ne_d j (by omega) (by omega))]
          exact H.nx j (by omega)
      · intro j hj
        by_cases hji : j + 1 = i
        · rw [hji, up_i, pv_i, ← hji]; exact H.pv j (by omega)
        · by_cases hjk : j + 1 = k
          · rw [hjk, up_k, pv_d, ← ek, ← hjk]; exact H.pv j (by omega)
          · rw [up_o (j + 1) (by omega) hji hjk, pv_o _ (ne_i (j + 1) (by omega) hjk) (ne_d (j + 1) (by omega) hji)]
            exact H.pv j (by omega)

theorem finish_rep {l : Loader} {hd : Id} {xs xs0 : List Id} (H : LRep l hd xs xs0) {cap : Nat} (hc : xs0.length ≤ cap) :
    Rep (l.finish cap) hd xs := by
  obtain ⟨⟨h, A, F⟩, hp, hup, hsz, hh⟩ := H
  have hlen := hp.length_eq
  have hc' := F.circ (a := hd) (xs := xs) (by simp)
  have hnd : (xs ++ [hd]).Nodup := by
    have := hc'.1
    simp only [List.nodup_cons, List.nodup_append, List.mem_singleton] at this ⊢
    refine ⟨this.2, by simp, ?_⟩
    rintro a ha b rfl rfl; exact this.1 ha
  have hmem : ∀ i, i ≤ xs.length → (xs ++ [hd]).getD i hd ∈ hd :: xs := by
    intro i hi
    rcases Nat.lt_or_ge i xs.length with hl | hl
    · rw [List.getD_eq_getElem?_getD, List.getElem?_append_left hl, List.getElem?_eq_getElem hl]; simp
    · have : i = xs.length := by omega
      subst this; simp
  have get : ∀ i, i ≤ xs.length → (xs ++ [hd])[i]? = some ((xs ++ [hd]).getD i hd) := by
    intro i hi
    have hl : i < (xs ++ [hd]).length := by simp; omega
    rw [List.getD_eq_getElem?_getD, List.getElem?_eq_getElem hl]; rfl
  have hn : ∀ i j, i ≤ xs.length → j ≤ xs.length → (xs ++ [hd]).getD i hd = (xs ++ [hd]).getD j hd → i = j := by
    intro i j hi hj e
    exact (List.getElem?_inj (by simp; omega) hnd).1 ((get i hi).trans ((congrArg some e).trans (get j hj).symm))
  have hnhd : (xs ++ [hd]).getD xs.length hd = hd := by simp
  have huph : l.up hd = xs.length := by rw [hlen]; exact hup _ _ (by simp)
  have ch := chain_get.1 (Seg_iff_chain.1 hc'.2)
  have hupx : ∀ x ∈ xs, l.up x < xs.length := by
    intro x hx
    obtain ⟨i, hi, rfl⟩ := List.getElem_of_mem (hp.subset hx)
    rw [hup i xs0[i] (by rw [List.getElem?_append_left hi]; exact List.getElem?_eq_getElem hi)]; omega
  have hx_lt : ∀ k, k < xs.length → (xs ++ [hd]).getD k hd ∈ xs := by
    intro k hk
    rw [List.getD_eq_getElem?_getD, List.getElem?_append_left hk, List.getElem?_eq_getElem hk]; simp
  have I : FInv (l.setNext hd hd) (fun k => (xs ++ [hd]).getD k hd) xs.length xs.length := by
    refine ⟨?_, ?_, ?_, ?_, ?_⟩
    · intro j h1 h2
      have : j = xs.length := by omega
      subst this
      simp only [hnhd, Loader.setNext, huph, upd_same, and_self]
    · intro k hk; exact hupx _ (hx_lt k hk)
    · intro k k' h1 h2 e
      exact hn k k' (by omega) (by omega) (A.inj _ (hmem k (by omega)) _ (hmem k' (by omega)) e)
    · intro k hk
      have h1 := hupx _ (hx_lt k (by omega))
      simp only [Loader.setNext, huph]
      rw [upd_other _ _ (by omega), A.nx _ (hmem k (by omega))]
      exact (ch (k + 1) _ _ (by
        rw [List.cons_append, List.getElem?_cons_succ]; exact get k (by omega)) (by
        rw [List.cons_append, List.getElem?_cons_succ]; exact get (k + 1) (by omega))).1
    · intro k hk
      show l.prv (l.up ((xs ++ [hd]).getD (k + 1) hd)) = _
      rw [A.pv _ (hmem (k + 1) (by omega))]
      exact (ch (k + 1) _ _ (by
        rw [List.cons_append, List.getElem?_cons_succ]; exact get k (by omega)) (by
        rw [List.cons_append, List.getElem?_cons_succ]; exact get (k + 1) (by omega))).2
  have hfin := finishGo_inv (fun k => (xs ++ [hd]).getD k hd) xs.length hn xs.length _ (Nat.le_refl _) I
  simp only [hnhd] at hfin
  unfold Loader.finish
  rw [hsz, hh, ← hlen]
  refine ⟨?_, ?_, ?_⟩
  · show (Loader.finishGo xs.length (l.setNext hd hd) hd).size = _
    rw [hfin.2]; show l.size = _; omega
  · show (Loader.finishGo xs.length (l.setNext hd hd) hd).size ≤ cap
    rw [hfin.2]; show l.size ≤ _; omega
  · intro i v hv
    have hi : i < (xs ++ [hd]).length := by
      by_contra hc; rw [List.getElem?_eq_none (by omega)] at hv; cases hv
    simp only [List.length_append, List.length_cons, List.length_nil] at hi
    have := hfin.1.placed i (by omega) (by omega)
    have e := get i (by omega)
    rw [hv] at e
    have e : v = (xs ++ [hd]).getD i hd := by simpa using e
    rw [e]; exact this

theorem rep_load {s : Arr} {hd : Id} {xs : List Id} (h : Rep s hd xs) (moves : List (Option Id × Id))
    (hm : ∀ mv ∈ moves, mv.2 ∈ xs ∧ ∀ p ∈ mv.1, p ∈ xs ∧ p ≠ mv.2) :
    Rep (load s moves) hd (moves.foldl (fun l mv => moveAfter l mv.1 mv.2) xs) := by
  have key : ∀ (moves : List (Option Id × Id)) (l : Loader) (ys : List Id), LRep l hd ys xs →
      (∀ mv ∈ moves, mv.2 ∈ xs ∧ ∀ p ∈ mv.1, p ∈ xs ∧ p ≠ mv.2) →
      LRep (moves.foldl (fun l mv => l.rearrange mv.1 mv.2) l) hd (moves.foldl (fun l mv => moveAfter l mv.1 mv.2) ys) xs := by
    intro moves
    induction moves with
    | nil => intro l ys H _; exact H
    | cons mv moves ih =>
      intro l ys H hm
      simp only [List.foldl_cons]
      have hmv := hm mv (by simp)
      refine ih _ _ (rearrange_rep H (H.perm.symm.subset hmv.1) (fun p hp => ⟨H.perm.symm.subset (hmv.2 p hp).1, (hmv.2 p hp).2⟩)) ?_
      intro mv' h'; exact hm mv' (by simp [h'])
  cases moves with
  | nil => exact h
  | cons mv moves =>
    have := key (mv :: moves) _ _ (preprocess_rep h) hm
    exact finish_rep this (by have := h.1; have := h.2.1; omega)

end MI.Rnd
