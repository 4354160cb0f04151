import Verif.Ser.Archive
import Verif.Ser.Replay

/-! The duplicates iterator visits the elements that are equivalent to another one. -/
namespace MI.Ser
open MI MI.Cont
variable {V : Type}

section
variable {nx : Id → Option Id} {lt : Id → Id → Bool} {hd : Id} {X : List Id}

theorem dups_skip (sw : StrictWeak lt) {x y : Id} {Y : List Id} (hs : Sorted lt (x :: y :: Y)) (h : lt x y = true) :
    dups (equivOf lt) (x :: y :: Y) = dups (equivOf lt) (y :: Y) := by
  obtain ⟨h1, h2⟩ := List.pairwise_cons.1 hs
  have hlt : ∀ z ∈ y :: Y, lt x z = true := by
    intro z hz
    rcases List.mem_cons.1 hz with rfl | hz
    · exact h
    · exact sw.lt_le_trans h ((List.pairwise_cons.1 h2).1 z hz)
  have hne : ∀ z ∈ y :: Y, equivOf lt x z = false := fun z hz => by simp [equivOf, hlt z hz]
  unfold dups
  rw [List.filter_cons, if_neg, List.filter_congr]
  · intro z hz
    rw [List.any_cons, StrictWeak.equiv_symm, hne z hz]
    simp
  · rw [Bool.not_eq_true, List.any_eq_false]
    intro z hz
    rcases List.mem_cons.1 hz with rfl | hz
    · simp
    · simp [hne z hz]

theorem advance_spec (sw : StrictWeak lt) (hhd : hd ∉ X) (hs : Sorted lt X) (hnx : ∀ u x v, X = u ++ x :: v → nx x = some (hdOr hd v)) :
    ∀ (n : Nat) (u Y : List Id), X = u ++ Y → Y.length < n → ∃ m Z, Y = m ++ Z ∧ dupAdvance nx lt hd n (hdOr hd Y) = some (hdOr hd Z) ∧
      dups (equivOf lt) Y = dups (equivOf lt) Z ∧ (Z = [] ∨ ∃ x y Z', Z = x :: y :: Z' ∧ lt x y = false)
  | 0, _, _, _, h => by omega
  | n + 1, u, [], e, h => ⟨[], [], rfl, by simp [dupAdvance, hdOr], rfl, Or.inl rfl⟩
  | n + 1, u, [x], e, h => by
    have hx : x ≠ hd := by rintro rfl; exact hhd (by simp [e])
    have h1 := hnx u x [] e
    refine ⟨[x], [], rfl, ?_, by simp [dups], Or.inl rfl⟩
    obtain ⟨n, rfl⟩ : ∃ k, n = k + 1 := ⟨n - 1, by simp at h; omega⟩
    simp only [hdOr, List.headD_cons, List.headD_nil] at h1 ⊢
    simp [dupAdvance, hx, h1]
  | n + 1, u, x :: y :: Y, e, h => by
    have hx : x ≠ hd := by rintro rfl; exact hhd (by simp [e])
    have hy : y ≠ hd := by rintro rfl; exact hhd (by simp [e])
    have h1 := hnx u x (y :: Y) e
    simp only [hdOr, List.headD_cons] at h1
    cases hxy : lt x y with
    | false =>
      refine ⟨[], x :: y :: Y, rfl, ?_, rfl, Or.inr ⟨x, y, Y, rfl, hxy⟩⟩
      simp [dupAdvance, hdOr, hx, hy, h1, hxy]
    | true =>
      obtain ⟨m, Z, k1, k2, k3, k4⟩ := advance_spec sw hhd hs hnx n (u ++ [x]) (y :: Y) (by simp [e]) (by simp at h ⊢; omega)
      have hs' : Sorted lt (x :: y :: Y) := hs.sublist (by rw [e]; exact List.sublist_append_right _ _)
      refine ⟨x :: m, Z, by simp [k1], ?_, by rw [dups_skip sw hs' hxy, k3], k4⟩
      simp only [hdOr, List.headD_cons] at k2
      simp only [hdOr, List.headD_cons, dupAdvance, hx, if_false, h1, hxy, Bool.true_eq_false, and_false, k2]

/-- From a node in the class of `chunk` on. -/
theorem dupFrom_spec (sw : StrictWeak lt) (hn : X.Nodup) (hhd : hd ∉ X) (hs : Sorted lt X) (hnx : ∀ u x v, X = u ++ x :: v → nx x = some (hdOr hd v)) :
    ∀ (n : Nat) (chunk : Id) (u Z : List Id), X = u ++ Z → Z.length < n → (∀ x, Z.head? = some x → equivOf lt chunk x = true) →
      dupFrom nx lt hd n (hdOr hd Z) chunk =
        some (Z.filter fun z => equivOf lt chunk z || Z.any fun y => decide (y ≠ z) && equivOf lt z y)
  | 0, _, _, _, _, h, _ => by omega
  | n + 1, chunk, u, [], e, h, _ => by simp [dupFrom, hdOr]
  | n + 1, chunk, u, [x], e, h, hc => by
    have hx : x ≠ hd := by rintro rfl; exact hhd (by simp [e])
    have h1 := hnx u x [] e
    have := hc x rfl
    obtain ⟨n, rfl⟩ : ∃ k, n = k + 1 := ⟨n - 1, by simp at h; omega⟩
    simp only [hdOr, List.headD_cons, List.headD_nil] at h1 ⊢
    simp [dupFrom, hx, h1, this]
  | n + 1, chunk, u, x :: y :: Z, e, h, hc => by
    have hx : x ≠ hd := by rintro rfl; exact hhd (by simp [e])
    have hy : y ≠ hd := by rintro rfl; exact hhd (by simp [e])
    have h1 := hnx u x (y :: Z) e
    have hcx := hc x rfl
    obtain ⟨c1, c2⟩ := StrictWeak.equiv_iff.1 hcx
    have hs' : Sorted lt (x :: y :: Z) := hs.sublist (by rw [e]; exact List.sublist_append_right _ _)
    obtain ⟨s1, s2⟩ := List.pairwise_cons.1 hs'
    simp only [hdOr, List.headD_cons] at h1
    -- the filter on the tail
    have split : ∀ E, (y :: Z).filter (fun z => equivOf lt chunk z || (x :: y :: Z).any fun y => decide (y ≠ z) && equivOf lt z y) = E →
        (x :: y :: Z).filter (fun z => equivOf lt chunk z || (x :: y :: Z).any fun y => decide (y ≠ z) && equivOf lt z y) = x :: E := by
      intro E hE
      rw [List.filter_cons, if_pos (by simp [hcx]), hE]
    cases hcy : lt chunk y with
    | true =>
      have hlt : ∀ z ∈ y :: Z, lt chunk z = true := by
        intro z hz
        rcases List.mem_cons.1 hz with rfl | hz
        · exact hcy
        · exact sw.lt_le_trans hcy ((List.pairwise_cons.1 s2).1 z hz)
      obtain ⟨m, Z', k1, k2, k3, k4⟩ := advance_spec sw hhd hs hnx (n + 1) (u ++ [x]) (y :: Z) (by simp [e]) (by simp at h ⊢; omega)
      have tail : dupFrom nx lt hd n (hdOr hd Z') (hdOr hd Z') = some (dups (equivOf lt) Z') := by
        rcases k4 with rfl | ⟨a, b, Z'', rfl, hab⟩
        · obtain ⟨n, rfl⟩ : ∃ k, n = k + 1 := ⟨n - 1, by simp at h; omega⟩
          simp [dupFrom, hdOr, dups]
        · have hlen : (a :: b :: Z'').length < n := by
            have := congrArg List.length k1
            simp only [List.length_append, List.length_cons] at this h ⊢
            omega
          have k5 := dupFrom_spec sw hn hhd hs hnx n a (u ++ x :: m) (a :: b :: Z'') (by rw [e, k1]; simp) hlen
            (fun z hz => by cases hz; exact sw.equiv_refl _)
          have hsub : (a :: b :: Z'').Sublist X := by
            rw [show X = (u ++ x :: m) ++ a :: b :: Z'' by rw [e, k1]; simp]
            exact List.sublist_append_right _ _
          have hs2 : Sorted lt (a :: b :: Z'') := hs.sublist hsub
          have eab : equivOf lt a b = true := StrictWeak.equiv_iff.2 ⟨hab, (List.pairwise_cons.1 hs2).1 b (by simp)⟩
          have nd : a ≠ b := by
            rintro rfl
            have := hn.sublist hsub
            simp at this
          show dupFrom nx lt hd n a a = _
          rw [show dupFrom nx lt hd n a a = _ from k5, dups]
          refine congrArg some (List.filter_congr fun z hz => ?_)
          cases haz : equivOf lt a z with
          | false => simp
          | true =>
            rw [Bool.true_or]
            symm
            rw [List.any_eq_true]
            by_cases hza : a = z
            · subst hza
              exact ⟨b, by simp, by simp [eab, nd.symm]⟩
            · exact ⟨a, by simp, by simp [hza, StrictWeak.equiv_symm (x := z), haz]⟩
      rw [split (dups (equivOf lt) Z')]
      · simp only [hdOr, List.headD_cons] at k2
        simp only [hdOr, List.headD_cons, dupFrom, hx, if_false, h1, hcy, ne_eq, hy, not_false_eq_true, and_self, if_true, k2]
        simp only [hdOr] at tail
        rw [tail]
      · rw [← k3, dups]
        refine List.filter_congr fun z hz => ?_
        have h2 : equivOf lt chunk z = false := by simp [equivOf, hlt z hz]
        have h3 : equivOf lt z x = false := by
          simp [equivOf, sw.le_lt_trans c1 (hlt z hz)]
        rw [h2, List.any_cons, h3]
        simp
    | false =>
      have hcy' : equivOf lt chunk y = true := StrictWeak.equiv_iff.2 ⟨hcy, sw.le_trans c2 (s1 y (by simp))⟩
      have k := dupFrom_spec sw hn hhd hs hnx n chunk (u ++ [x]) (y :: Z) (by simp [e]) (by simp at h ⊢; omega) (fun z hz => by cases hz; exact hcy')
      rw [split _ rfl]
      simp only [hdOr, List.headD_cons] at k
      simp only [hdOr, List.headD_cons, dupFrom, hx, if_false, h1, hcy, Bool.false_eq_true, and_false, k]
      refine congrArg some (congrArg (x :: ·) (List.filter_congr fun z hz => ?_))
      rw [List.any_cons (a := x)]
      cases hcz : equivOf lt chunk z with
      | true => simp
      | false =>
        have : equivOf lt z x = false := by
          cases hzx : equivOf lt z x with
          | false => rfl
          | true =>
            rw [sw.equiv_trans hcx (by rw [StrictWeak.equiv_symm]; exact hzx)] at hcz
            exact nomatch hcz
        rw [this]; simp

theorem dupWalk_spec (sw : StrictWeak lt) (hn : X.Nodup) (hhd : hd ∉ X) (hs : Sorted lt X) (hnx : ∀ u x v, X = u ++ x :: v → nx x = some (hdOr hd v))
    {n : Nat} (h : X.length < n) : dupWalk nx lt hd (hdOr hd X) n = some (dups (equivOf lt) X) := by
  obtain ⟨m, Z, k1, k2, k3, k4⟩ := advance_spec sw hhd hs hnx n [] X rfl h
  unfold dupWalk
  rw [k2, k3]
  rcases k4 with rfl | ⟨a, b, Z'', rfl, hab⟩
  · obtain ⟨n, rfl⟩ : ∃ k, n = k + 1 := ⟨n - 1, by omega⟩
    simp [dupFrom, hdOr, dups]
  · have hsub : (a :: b :: Z'').Sublist X := by rw [k1]; exact List.sublist_append_right _ _
    have k5 := dupFrom_spec sw hn hhd hs hnx n a m (a :: b :: Z'') k1 (Nat.lt_of_le_of_lt hsub.length_le h)
      (fun z hz => by cases hz; exact sw.equiv_refl _)
    have eab : equivOf lt a b = true := StrictWeak.equiv_iff.2 ⟨hab, (List.pairwise_cons.1 (hs.sublist hsub)).1 b (by simp)⟩
    have nd : a ≠ b := by
      rintro rfl
      have := hn.sublist hsub
      simp at this
    show dupFrom nx lt hd n a a = _
    rw [show dupFrom nx lt hd n a a = _ from k5, dups]
    refine congrArg some (List.filter_congr fun z hz => ?_)
    cases haz : equivOf lt a z with
    | false => simp
    | true =>
      rw [Bool.true_or]
      symm
      rw [List.any_eq_true]
      by_cases hza : a = z
      · subst hza
        exact ⟨b, by simp, by simp [eab, nd.symm]⟩
      · exact ⟨a, by simp, by simp [hza, StrictWeak.equiv_symm (x := z), haz]⟩

end

theorem hasStream_spec (L : Layer V) : hasStream L = Rearranged L.spec := by cases L <;> rfl

/-- What `save_` goes over. -/
theorem listing_spec {L : Layer V} {val : Id → V} {hd : Id} {xs : List Id} {n : Nat} (ok : L.spec.Ok) (w : L.Holds val hd xs) (hn : xs.length + 3 ≤ n)
    (hr : hasStream L = true) : listing n hd val L = some (listed val xs L.spec) := by
  have nd := w.nodup
  cases L with
  | ord u lt h =>
    obtain rfl : u = false := by simpa [hasStream] using hr
    obtain ⟨n1, n2⟩ := List.nodup_cons.1 nd
    have := dupWalk_spec (nx := fun x => (Layer.ord false lt h).next n x) (sw_val ok val) n2 n1 w.2
      (fun u x v e => Layer.next_spec (by rw [← e]; exact w) (by rw [← e]; exact hn)) (n := n) (by omega)
    simp only [listing]
    rw [Layer.first_spec w]
    exact this
  | hash c eq hf pol ml h a => simp [hasStream] at hr
  | seq h => exact Layer.walk_spec w hn
  | rnd s => exact Layer.walk_spec w hn

end MI.Ser
