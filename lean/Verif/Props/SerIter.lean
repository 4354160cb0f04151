import Verif.Props.SerLoad

/-!
# Property of saving and loading iterators: C68

An iterator is the node it points to (`some x`: the element `x`, or the end if `x` is the header of the container); local iterators of hashed indices may
have no node (`none`). `saveIt w i x` is what is written for an iterator after container `i` has been saved; `loadIt es hd` reads this after a container has been loaded.
-/
namespace MI.Ser
open MI MI.Cont
variable {V : Type} {w w' : World V} {i j : Nat} {c d : Container V} {H : Host V}

/-- The positions of an index, which is not hashed, correspond; a hashed index has the same elements. -/
def SamePlaces (g : Id → Id) (xs ys : List Id) : Spec V → Prop
  | .hash _ _ _ => ys.Perm (xs.map g)
  | _ => ys = xs.map g

theorem saveIt_spec (r : Reach w) (hi : w.cs[i]? = some c) (x : Id) :
    saveIt w i (some x) = some (if x = c.hd then .known c.elems.length else if x ∈ c.elems then .known (c.elems.idxOf x) else .fresh) := by
  have I := r.inv
  obtain ⟨hc, s, -⟩ := I.facts hi
  have h0 := seqs_head I hi
  obtain ⟨L, hL, h2, h3, h4, h5⟩ := I.seq hi h0
  unfold saveIt
  simp only [hi]
  cases hls : c.ls with
  | nil => exact absurd hls s.ne
  | cons M ls =>
    rw [hls] at hL
    obtain rfl : M = L := by simpa using hL
    simp only [Layer.walk_spec h2 h4]

/-- C68: a container `c` is saved, and after it any iterators to its elements or its end. When they are loaded (in a container `d` with the same indices), each iterator is read as
one of the container loaded, `g x`: the end as the end, that to an element as one to an element with the same value. Different iterators remain different, and in every index that is not
hashed the element is at the position where the original is. -/
theorem C68_iterators (r : Reach w) (hi : w.cs[i]? = some c) {junk : Alg} {A : Archive V} (hA : save w i junk = some A)
    (r' : Reach w') (hj : w'.cs[j]? = some d) (ha : d.asked = c.asked) (ok : H.Ok) (calm : H.Calm) :
    ∃ w'' d' es g, load H {} w' j A = .ok w'' ∧ loadT H {} w' j A = .ok (w'', es) ∧ w''.cs[j]? = some d' ∧
      (∀ x, x = c.hd ∨ x ∈ c.elems → ∃ p, saveIt w i (some x) = some p ∧ loadIt es d'.hd p = .ok (some (g x))) ∧
      g c.hd = d'.hd ∧ (∀ x ∈ c.elems, g x ∈ d'.elems ∧ w''.m.val (g x) = w.m.val x) ∧
      (∀ x y, x = c.hd ∨ x ∈ c.elems → y = c.hd ∨ y ∈ c.elems → g x = g y → x = y) ∧
      ∀ (k : Nat) S xs, c.asked[k]? = some S → c.seqs[k]? = some xs → ∃ ys, d'.seqs[k]? = some ys ∧ SamePlaces g xs ys S := by
  obtain ⟨w'', d', f, h1, h2, h3, h4, h5, t, h6, ⟨es, e1, e2, e3⟩, h7⟩ := load_back r hi hA r' hj ha ok calm
  have hn := (List.nodup_cons.1 (r.inv.facts hi).2.1.nodup)
  have hn' := (List.nodup_cons.1 (h2.inv.facts h3.post).2.1.nodup)
  have ne : ∀ x ∈ c.elems, x ≠ c.hd := fun x hx e => hn.1 (e ▸ hx)
  have hf : ∀ x ∈ c.elems, f x ∈ d'.elems := fun x hx => h6.mem_iff.2 (List.mem_map_of_mem hx)
  obtain ⟨g, hg⟩ : ∃ g : Id → Id, g = fun x => if x = c.hd then d'.hd else f x := ⟨_, rfl⟩
  have g0 : g c.hd = d'.hd := by rw [hg]; simp
  have g1 : ∀ x ∈ c.elems, g x = f x := fun x hx => by rw [hg]; simp [ne x hx]
  have fi : ∀ x ∈ c.elems, ∀ y ∈ c.elems, f x = f y → x = y := by
    intro x hx y hy h
    exact List.inj_on_of_nodup_map (h6.nodup_iff.1 hn'.2) hx hy h
  refine ⟨w'', d', es, g, h1, e1, h3.post, ?_, g0, ?_, ?_, ?_⟩
  · intro x hx
    refine ⟨_, saveIt_spec r hi x, ?_⟩
    rcases hx with rfl | hx
    · simp [loadIt, e2, g0]
    · have hl : c.elems.idxOf x < es.length := by rw [e2]; exact List.idxOf_lt_length_iff.2 hx
      have := e3 x hx
      rw [List.getD_eq_getElem?_getD, List.getElem?_eq_getElem hl] at this
      simp only [ne x hx, hx, if_true, if_false, loadIt, hl.ne, List.getElem?_eq_getElem hl]
      rw [g1 x hx, this]; rfl
  · intro x hx
    rw [g1 x hx]
    exact ⟨hf x hx, t.val x hx⟩
  · intro x y hx hy h
    rcases hx with rfl | hx <;> rcases hy with rfl | hy
    · rfl
    · rw [g0, g1 y hy] at h
      exact (hn'.1 (h ▸ hf y hy)).elim
    · rw [g0, g1 x hx] at h
      exact (hn'.1 (h ▸ hf x hx)).elim
    · rw [g1 x hx, g1 y hy] at h
      exact fi x hx y hy h
  · intro k S xs hS hxs
    have hk : k < d'.seqs.length := by
      have h := congrArg List.length (h3.asked.trans ha)
      have := (List.getElem?_eq_some_iff.1 hS).1
      simp only [Container.asked, Container.seqs, List.length_map] at h this ⊢
      omega
    refine ⟨d'.seqs[k], List.getElem?_eq_getElem hk, ?_⟩
    have b := h7 k S xs _ hS hxs (List.getElem?_eq_getElem hk)
    obtain ⟨-, -, -, p, -⟩ := r.inv.seq hi hxs
    obtain ⟨-, -, -, p', -⟩ := h2.inv.seq h3.post (List.getElem?_eq_getElem hk)
    have hm : xs.map g = xs.map f := List.map_congr_left fun x hx => g1 x (p.mem_iff.1 hx)
    cases S with
    | hash g' eq hf =>
      show (d'.seqs[k]).Perm (xs.map g)
      rw [hm]
      exact p'.trans (h6.trans (p.map f).symm)
    | ord u lt => exact Eq.trans b hm.symm
    | seq => exact Eq.trans b hm.symm
    | rnd => exact Eq.trans b hm.symm

/-- C68: an iterator to anything else is not taken for one of the container: reading it throws. -/
theorem C68_foreign (r : Reach w) (hi : w.cs[i]? = some c) {x : Id} (h : x ≠ c.hd) (h' : x ∉ c.elems) (es : List Id) (hd : Id) :
    ∃ p, saveIt w i (some x) = some p ∧ loadIt es hd p = .threw none :=
  ⟨_, saveIt_spec r hi x, by simp [h, h', loadIt]⟩

/-- C68: whatever archive has been loaded, and whatever is read for an iterator: if neither throws, the iterator has no node, or is to an element or the end of the container loaded. -/
theorem C68_any_archive (r : Reach w) (hi : w.cs[i]? = some c) (ok : H.Ok) (f : Mishap) (A : Archive V) {es : List Id}
    (hl : loadT H f w i A = .ok (w', es)) (p : Ref) : ∃ c', w'.cs[i]? = some c' ∧
      (loadIt es c'.hd p = .threw none ∨ loadIt es c'.hd p = .ok none ∨ loadIt es c'.hd p = .ok (some c'.hd) ∨ ∃ x ∈ c'.elems, loadIt es c'.hd p = .ok (some x)) := by
  obtain ⟨w1, c', o, r1, -, -, h, -⟩ := load_safe ok f r hi A
  obtain ⟨rfl, q⟩ := h _ _ hl
  refine ⟨c', o.post, ?_⟩
  cases p with
  | null => exact Or.inr (Or.inl rfl)
  | fresh => exact Or.inl rfl
  | known n =>
    unfold loadIt
    dsimp only
    split
    · exact Or.inr (Or.inr (Or.inl rfl))
    · cases e : es[n]? with
      | none => exact Or.inl rfl
      | some y => exact Or.inr (Or.inr (Or.inr ⟨y, q.mem_iff.2 (List.mem_of_getElem? e), rfl⟩))

open Ex MI.Cont.Ex

/-- The hypotheses of `C68_iterators` can be met: an iterator to the element in the middle of the random access index, read back, is to the element in the middle of that index. -/
example : ∃ A w'' d' es y, save v3 0 junk = some A ∧ loadT (Host.top fun _ => {}) {} v3 1 A = .ok (w'', es) ∧ w''.cs[1]? = some d' ∧
    (∃ p, saveIt v3 0 (some 12) = some p ∧ loadIt es d'.hd p = .ok (some y)) ∧ w''.m.val y = (1, 5) ∧ (d'.seqs[3]?.getD [])[2]? = some y := by
  obtain ⟨A, hA, -⟩ := C38_save v3_reach he0 junk
  obtain ⟨w'', d', es, g, -, h1, h2, h3, -, h4, -, h5⟩ := C68_iterators v3_reach he0 hA v3_reach he1 rfl (Host.top_ok fun _ => {}) Host.top_calm
  have hm : 12 ∈ e0.elems := by decide +kernel
  have hS : e0.asked[3]? = some .rnd := by
    have h : (match e0.asked[3]? with | some .rnd => true | _ => false) = true := by decide +kernel
    split at h
    · assumption
    · exact absurd h Bool.false_ne_true
  obtain ⟨ys, k1, k2⟩ := h5 3 .rnd [14, 11, 12, 13, 15] hS (by decide +kernel)
  refine ⟨A, w'', d', es, g 12, hA, h1, h2, h3 12 (Or.inr hm), (h4 12 hm).2.trans (by decide +kernel), ?_⟩
  rw [k1, show ys = _ from k2]
  rfl

/-- An iterator to the element of container 1 is not one of container 0; neither is one to a number that is too large. -/
example (es : List Id) (hd : Id) : ∃ p, saveIt v3 0 (some 16) = some p ∧ loadIt es hd p = .threw none :=
  C68_foreign v3_reach he0 (by decide +kernel) (by decide +kernel) es hd

/-- The hypotheses of `C68_any_archive` can be met, with the archive of container 0. -/
example : ∃ A w'' es c', loadT (Host.top fun _ => {}) {} v3 1 A = .ok (w'', es) ∧ w''.cs[1]? = some c' ∧ (loadIt es c'.hd (.known 99) = .threw none ∨
    loadIt es c'.hd (.known 99) = .ok none ∨ loadIt es c'.hd (.known 99) = .ok (some c'.hd) ∨ ∃ x ∈ c'.elems, loadIt es c'.hd (.known 99) = .ok (some x)) := by
  obtain ⟨A, hA, -⟩ := C38_save v3_reach he0 junk
  obtain ⟨w'', d', es, g, -, h1, -⟩ := C68_iterators v3_reach he0 hA v3_reach he1 rfl (Host.top_ok fun _ => {}) Host.top_calm
  obtain ⟨c', h2, h3⟩ := C68_any_archive v3_reach he1 (Host.top_ok fun _ => {}) {} A h1 (.known 99)
  exact ⟨A, w'', es, c', h1, h2, h3⟩

/-- A number that is too large is not read as the end. -/
example : loadIt [4, 5] 9 (.known 1) = .ok (some 5) ∧ loadIt [4, 5] 9 (.known 2) = .ok (some 9) ∧ loadIt [4, 5] 9 (.known 3) = .threw none := ⟨rfl, rfl, rfl⟩

end MI.Ser
