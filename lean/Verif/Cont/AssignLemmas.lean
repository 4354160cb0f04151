import Verif.Cont.Assign
import Verif.Cont.ApiLemmas4
/-! Move construction and assignment of containers. -/
set_option linter.unusedVariables false
namespace MI.Cont
open MI
variable {V : Type} {w : World V} {i j : Nat} {c d : Container V}

section lists
variable {α : Type}

theorem set_last (l : List α) (a b : α) : (l ++ [a]).set l.length b = l ++ [b] := by
  rw [List.set_append_right _ _ (Nat.le_refl _)]; simp

theorem erase_last (l : List α) (a : α) : (l ++ [a]).eraseIdx l.length = l := by
  rw [List.eraseIdx_append_of_length_le (Nat.le_refl _)]; simp

theorem get_last (l : List α) (a : α) : (l ++ [a])[l.length]? = some a := by simp

theorem get_front {l : List α} {i : Nat} {a b : α} (h : l[i]? = some a) : (l ++ [b])[i]? = some a := by
  rw [List.getElem?_append_left (List.getElem?_eq_some_iff.1 h).1]; exact h

theorem set_front {l : List α} {i : Nat} {a b d : α} (h : l[i]? = some a) : (l ++ [b]).set i d = l.set i d ++ [b] :=
  List.set_append_left _ _ (List.getElem?_eq_some_iff.1 h).1

theorem get_set_self {l : List α} {i : Nat} {a b : α} (h : l[i]? = some a) : (l.set i b)[i]? = some b :=
  List.getElem?_set_self (List.getElem?_eq_some_iff.1 h).1

end lists

theorem kinds_of_asked (h : c.asked = d.asked) : c.kinds = d.kinds := by
  have g : ∀ {Ls Ms : List (Layer V)}, Ls.map Layer.spec = Ms.map Layer.spec → Ls.map Layer.kind = Ms.map Layer.kind := by
    intro Ls
    induction Ls with
    | nil => intro Ms h; cases Ms with
      | nil => rfl
      | cons => exact nomatch h
    | cons L Ls ih =>
      intro Ms h
      cases Ms with
      | nil => exact nomatch h
      | cons M Ms =>
        simp only [List.map_cons, List.cons.injEq] at h
        simp only [List.map_cons, ih h.2, List.cons.injEq, and_true]
        have := h.1
        cases L <;> cases M <;> simp_all [Layer.spec, Layer.kind]
  exact g h

/-- Move construction. -/
theorem moveConstruct_spec {hd z : Id} {pol : Pol} {e : Nat → Env} {F : CopyFault} (r : Reach w) (l : w.Legal (.newLike i hd z pol e F)) (hi : w.cs[i]? = some c) :
    (∃ w' b, w.moveConstruct i hd z pol e F = .ok w' ∧ Reach w' ∧ ¬ (F.header = true ∨ F.index = true) ∧ w'.cs = w.cs.set i b ++ [c] ∧ w'.hs = w.hs ∧
      w'.m = w.m.allocate hd ∧ b.hd = hd ∧ b.asked = c.asked ∧ b.count = 0 ∧ b.seqs = c.seqs.map fun _ => []) ∨
    (w.moveConstruct i hd z pol e F = .threw w ∧ (F.header = true ∨ F.index = true)) := by
  rcases eff_newLike r.inv l with ⟨w1, c0, b, k1, h0, k2, k3, k4, k5, k6, k7, k8, k9⟩ | ⟨c0, k1, h0, k2⟩
  · obtain rfl := Option.some.inj (hi.symm.trans h0)
    left
    have r1 := r.ok l k1
    have g1 : w1.cs[w.cs.length]? = some b := by rw [k3]; exact get_last _ _
    have g2 : w1.cs[i]? = some c := by rw [k3]; exact get_front hi
    have k := eff_swapElements g1 g2 k7
    refine ⟨_, b, by simp only [World.moveConstruct, k1, andThen, k]; try rfl, r1.ok (o := .swapElements w.cs.length i) ⟨b, c, g1, g2, k7⟩ k, k2, ?_, k4, k5, k6, k7, k8, k9⟩
    show (w1.cs.set w.cs.length c).set i b = _
    rw [k3, set_last, set_front hi]
  · exact Or.inr ⟨by simp only [World.moveConstruct, k1, andThen], k2⟩

/-- Copy assignment. -/
theorem copyAssign_spec {hd z : Id} {ns : List Id} {e : Nat → Env} {F : CopyFault} (r : Reach w) (l : w.Legal (.copy j hd z ns e F)) (hi : w.cs[i]? = some c)
    (hj : w.cs[j]? = some d) (k : c.kinds = d.kinds) :
    (∃ w' d', w.copyAssign i j hd z ns e F = .ok w' ∧ Reach w' ∧ ¬ F.Some d.count ∧ Assigned w w' i c d d' hd ns) ∨
    (∃ w', w.copyAssign i j hd z ns e F = .threw w' ∧ Reach w' ∧ F.Some d.count ∧ w'.cs = w.cs ∧ w'.hs = w.hs ∧
      w'.m.alloc = w.m.alloc ∧ w'.m.cons = w.m.cons ∧ ∀ z ∈ w.m.alloc, w'.m.val z = w.m.val z) := by
  have fr : ∀ n ∈ hd :: ns, n ∉ w.m.alloc := by
    obtain ⟨_, _, _, _, f, _⟩ := l
    exact fun n hn => (f n hn).2.1
  rcases eff_copy r.inv l with ⟨w1, d0, d', k1, h0, k2, q⟩ | ⟨w1, d0, k1, h0, k2, k3⟩
  · obtain rfl := Option.some.inj (hj.symm.trans h0)
    left
    have r1 := r.ok l k1
    have g1 : w1.cs[w.cs.length]? = some d' := by rw [q.cs]; exact get_last _ _
    have g2 : w1.cs[i]? = some c := by rw [q.cs]; exact get_front hi
    have kk : c.kinds = d'.kinds := k.trans (kinds_of_asked q.asked.symm)
    have s1 := eff_swap g2 g1 kk
    have r2 := r1.ok (o := .swap i w.cs.length) ⟨c, d', g2, g1, kk⟩ s1
    have e2 : (w1.cs.set i d').set w.cs.length c = w.cs.set i d' ++ [c] := by
      rw [q.cs, set_front hi]
      have := set_last (w.cs.set i d') d' c
      rwa [List.length_set] at this
    rw [e2] at s1 r2
    have l3 : (⟨w1.m, w.cs.set i d' ++ [c], w1.hs⟩ : World V).Legal (.destroy w.cs.length) := by
      show _ < (w.cs.set i d' ++ [c]).length
      simp
    obtain ⟨w3, c3, k4, k5, k6, k7, k8, k9, k10⟩ := eff_destroy r2.inv l3
    have hc3 : c3 = c := by
      have := get_last (w.cs.set i d') c
      rw [List.length_set] at this
      exact Option.some.inj (k5.symm.trans this)
    subst hc3
    have r3 := r2.ok l3 k4
    obtain ⟨hc, s, -, sa, sc, z0, h0⟩ := r.inv.facts hi
    refine ⟨w3, d', by simp only [World.copyAssign, k1, andThen, s1, k4], r3, k2, ?_, ?_, q.head, q.elems, q.count, q.asked, q.load, q.clone, ?_, ?_, ?_, ?_⟩
    · have := erase_last (w.cs.set i d') c3
      rw [List.length_set] at this
      exact k6.trans this
    · exact k10.trans q.hs
    · rw [k9]; exact q.vals
    · intro x
      rw [k8]
      show x ∈ w1.m.alloc ∧ _ ↔ _
      rw [q.alloc]
      simp only [List.mem_append, List.mem_reverse, List.mem_cons]
      constructor
      · rintro ⟨h | h | h, g⟩
        · exact Or.inl (Or.inr h)
        · exact Or.inl (Or.inl h)
        · exact Or.inr ⟨h, g⟩
      · rintro ((h | h) | ⟨h, g⟩)
        · subst h
          exact ⟨Or.inr (Or.inl rfl), fun g => fr x (by simp) (r.inv.mem_alloc hc (by simpa using g))⟩
        · exact ⟨Or.inl h, fun g => fr x (by simp [h]) (r.inv.mem_alloc hc (by simpa using g))⟩
        · exact ⟨Or.inr (Or.inr h), g⟩
    · intro x
      rw [k7]
      show x ∈ w1.m.cons ∧ _ ↔ _
      rw [q.cons]
      simp only [List.mem_append, List.mem_reverse]
      constructor
      · rintro ⟨h | h, g⟩
        · exact Or.inl h
        · exact Or.inr ⟨h, g⟩
      · rintro (h | ⟨h, g⟩)
        · exact ⟨Or.inl h, fun g => fr x (by simp [h]) (r.inv.mem_alloc hc (by simp [g]))⟩
        · exact ⟨Or.inr h, g⟩
    · intro x hx
      rw [k9]; exact q.val x hx
  · obtain rfl := Option.some.inj (hj.symm.trans h0)
    exact Or.inr ⟨w1, by simp only [World.copyAssign, k1, andThen], r.threw l k1, k2, k3⟩

/-- The destructor of the last container. -/
theorem destroy_last {cs : List (Container V)} (r : Reach w) (h : w.cs = cs ++ [c]) :
    ∃ w', w.step (.destroy cs.length) = .ok (w', ⟨0, true⟩) ∧ Reach w' ∧ w'.cs = cs ∧ w'.hs = w.hs ∧ w'.m.val = w.m.val ∧
      (∀ x, x ∈ w'.m.alloc ↔ x ∈ w.m.alloc ∧ x ∉ c.hd :: c.elems) ∧ ∀ x, x ∈ w'.m.cons ↔ x ∈ w.m.cons ∧ x ∉ c.elems := by
  have l : w.Legal (.destroy cs.length) := by
    show _ < w.cs.length
    rw [h]; simp
  obtain ⟨w', c', k1, k2, k3, k4, k5, k6, k7⟩ := eff_destroy r.inv l
  obtain rfl : c' = c := by
    rw [h, get_last] at k2
    exact (Option.some.inj k2).symm
  exact ⟨w', k1, r.ok l k1, by rw [k3, h, erase_last], k7, k6, k5, k4⟩

/-- The elements of a container to which elements have been added. -/
theorem Filled.elems {chained : Bool} {w' : World V} {c' : Container V} {hint : Option Id} {done : List V} {took : List Id} {yss : List (List Id)} (I : Inv w) (I' : Inv w')
    (f : Filled chained w w' i c c' hint done took yss) : c'.elems.Perm (took ++ c.elems) := by
  refine List.perm_iff_count.2 fun x => ?_
  have q1 := I'.count_cons x
  have q2 := I.count_cons x
  have h1 := flatMap_set (fun c : Container V => c.elems) x c' f.only.pre
  have h2 := flatMap_at (fun c : Container V => c.elems) x f.only.pre
  rw [f.only.cs, f.cons, f.hs] at q1
  simp only [List.count_append, List.count_reverse] at q1 ⊢
  omega

/-- Assignment of a list. -/
theorem assignList_spec {H : Host V} {hd z : Id} {pol : Pol} {e : Nat → Env} {F : CopyFault} {vs : List V} (ok : H.Ok) (r : Reach w)
    (l : w.Legal (.newLike i hd z pol e F)) (hi : w.cs[i]? = some c) :
    (∃ w' c' took, w.assignList H i hd z pol e F vs = .ok w' ∧ Reach w' ∧ w'.cs = w.cs.set i c' ∧ w'.hs = w.hs ∧ c'.hd = hd ∧ c'.asked = c.asked ∧
      c'.count = took.length ∧ Fed true w'.m.val c.asked hd (some hd) vs (c.seqs.map fun _ => []) took c'.seqs ∧
      (∀ x, x ∈ w'.m.alloc ↔ x ∈ hd :: took ∨ x ∈ w.m.alloc ∧ x ∉ c.hd :: c.elems) ∧ (∀ x, x ∈ w'.m.cons ↔ x ∈ took ∨ x ∈ w.m.cons ∧ x ∉ c.elems) ∧
      ∀ x ∈ w.m.cons, w'.m.val x = w.m.val x) ∨
    (∃ w', w.assignList H i hd z pol e F vs = .threw w' ∧ Reach w' ∧ (F.header = true ∨ F.index = true ∨ ¬ H.Calm) ∧ w'.cs = w.cs ∧ w'.hs = w.hs ∧
      (∀ x, x ∈ w'.m.alloc ↔ x ∈ w.m.alloc) ∧ (∀ x, x ∈ w'.m.cons ↔ x ∈ w.m.cons) ∧ ∀ x ∈ w.m.cons, w'.m.val x = w.m.val x) := by
  have fr : w.Fresh hd := by obtain ⟨_, _, f, _⟩ := l; exact f
  obtain ⟨hc, s, -, sa, sc, z0, h0⟩ := r.inv.facts hi
  rcases eff_newLike r.inv l with ⟨w1, c0, b, k1, h0, k2, k3, k4, k5, k6, k7, k8, k9⟩ | ⟨c0, k1, h0, k2⟩
  · obtain rfl := Option.some.inj (hi.symm.trans h0)
    have r1 := r.ok l k1
    have g1 : w1.cs[w.cs.length]? = some b := by rw [k3]; exact get_last _ _
    have g2 : w1.cs[i]? = some c := by rw [k3]; exact get_front hi
    have hb : b.elems = [] := List.length_eq_zero_iff.1 ((r1.inv.facts g1).2.1.count.symm.trans k8)
    obtain ⟨w2, c2, done, took, yss, f, r2, q⟩ := hintedRange_spec (em := false) (vs := vs) ok 0 r1 g1 (hint := hd) (by rw [k6]; simp)
    have hcs : w2.cs = w.cs ++ [c2] := by rw [f.only.cs, k3, set_last]
    have hv : ∀ x ∈ w.m.cons, w2.m.val x = w.m.val x := fun x hx => by rw [f.val x (by rw [k5]; exact hx), k5]; rfl
    have hp : c2.elems.Perm took := by have := f.elems r1.inv r2.inv; rwa [hb, List.append_nil] at this
    have hh : c2.hd = hd := f.only.hd.trans k6
    have hal : w2.m.alloc = took.reverse ++ hd :: w.m.alloc := by rw [f.alloc, k5]; rfl
    have hco : w2.m.cons = took.reverse ++ w.m.cons := by rw [f.cons, k5]; rfl
    have nd : (took.reverse ++ hd :: w.m.alloc).Nodup := hal ▸ r2.inv.nodup
    have ndt : ∀ x ∈ took, x ∉ hd :: w.m.alloc := fun x hx k => (List.nodup_append.1 nd).2.2 x (by simp [hx]) x k rfl
    rcases q with ⟨a, b1, d⟩ | ⟨a, b1, -, -⟩
    · left
      subst b1 d
      have g1' : w2.cs[w.cs.length]? = some c2 := by rw [hcs]; exact get_last _ _
      have g2' : w2.cs[i]? = some c := by rw [hcs]; exact get_front hi
      have ka : c2.asked = c.asked := f.only.asked.trans k7
      have s1 := eff_swapElements g1' g2' ka
      have e2 : (w2.cs.set w.cs.length c).set i c2 = w.cs.set i c2 ++ [c] := by rw [hcs, set_last, set_front hi]
      have r3 := r2.ok (o := .swapElements w.cs.length i) ⟨c2, c, g1', g2', ka⟩ s1
      obtain ⟨w4, m1, m2, m3, m4, m5, m6, m7⟩ := destroy_last r3 (cs := w.cs.set i c2) e2
      rw [List.length_set] at m1
      refine ⟨w4, c2, took, by simp only [World.assignList, k1, andThen, a, s1, m1], m2, m3, m4.trans (f.hs.trans k4), hh, ka, by rw [f.count, k8, Nat.zero_add], ?_, ?_, ?_, ?_⟩
      · rw [m5]
        have := f.fed
        rw [k6, k7, k9] at this
        exact this
      · intro x
        rw [m6]
        show x ∈ w2.m.alloc ∧ _ ↔ _
        rw [hal]
        simp only [List.mem_append, List.mem_reverse]
        constructor
        · rintro ⟨h | h, g⟩
          · exact Or.inl (by simp [h])
          · rcases List.mem_cons.1 h with rfl | h
            · exact Or.inl (by simp)
            · exact Or.inr ⟨h, g⟩
        · rintro (h | ⟨h, g⟩)
          · rcases List.mem_cons.1 h with rfl | h
            · exact ⟨Or.inr (by simp), fun g => fr.2.1 (r.inv.mem_alloc hc g)⟩
            · exact ⟨Or.inl h, fun g => ndt x h (by simp [r.inv.mem_alloc hc g])⟩
          · exact ⟨Or.inr (by simp [h]), g⟩
      · intro x
        rw [m7]
        show x ∈ w2.m.cons ∧ _ ↔ _
        rw [hco]
        simp only [List.mem_append, List.mem_reverse]
        constructor
        · rintro ⟨h | h, g⟩
          · exact Or.inl h
          · exact Or.inr ⟨h, g⟩
        · rintro (h | ⟨h, g⟩)
          · exact ⟨Or.inl h, fun g => ndt x h (by simp [sa x g])⟩
          · exact ⟨Or.inr h, g⟩
      · intro x hx
        rw [m5]; exact hv x hx
    · right
      obtain ⟨w4, m1, m2, m3, m4, m5, m6, m7⟩ := destroy_last r2 hcs
      refine ⟨w4, by simp only [World.assignList, k1, andThen, a, m1, andThrow], m2, Or.inr (Or.inr b1), m3, m4.trans (f.hs.trans k4), ?_, ?_, fun x hx => by rw [m5]; exact hv x hx⟩
      · intro x
        rw [m6, hal, hh]
        simp only [List.mem_append, List.mem_reverse, List.mem_cons, hp.mem_iff]
        constructor
        · rintro ⟨h | h | h, g⟩
          · exact absurd (Or.inr h) g
          · exact absurd (Or.inl h) g
          · exact h
        · intro h
          refine ⟨Or.inr (Or.inr h), ?_⟩
          rintro (rfl | g)
          · exact fr.2.1 h
          · exact ndt x g (by simp [h])
      · intro x
        rw [m7, hco]
        simp only [List.mem_append, List.mem_reverse, hp.mem_iff]
        constructor
        · rintro ⟨h | h, g⟩
          · exact absurd h g
          · exact h
        · exact fun h => ⟨Or.inr h, fun g => ndt x g (by simp [r.inv.cons_sub h])⟩
  · exact Or.inr ⟨w, by simp only [World.assignList, k1, andThen], r, k2.imp id Or.inl, rfl, rfl, fun _ => Iff.rfl, fun _ => Iff.rfl, fun _ _ => rfl⟩

/-- `clear()` of a container of the program. -/
theorem clear_at (r : Reach w) (hi : w.cs[i]? = some c) :
    ∃ w' b, w.step (.clear i) = .ok (w', ⟨0, true⟩) ∧ Reach w' ∧ w'.cs = w.cs.set i b ∧ Drained c b ∧ w'.hs = w.hs ∧ w'.m.val = w.m.val ∧
      (∀ x, x ∈ w'.m.alloc ↔ x ∈ w.m.alloc ∧ x ∉ c.elems) ∧ ∀ x, x ∈ w'.m.cons ↔ x ∈ w.m.cons ∧ x ∉ c.elems := by
  have l : w.Legal (.clear i) := (List.getElem?_eq_some_iff.1 hi).1
  obtain ⟨w', c0, b, k1, o, ⟨m1, m2, m3, m4⟩, k3, k4⟩ := eff_clear r.inv l
  obtain rfl := Option.some.inj (hi.symm.trans o.pre)
  exact ⟨w', b, k1, r.ok l k1, o.cs, ⟨o.hd, o.asked, k3, k4⟩, m4, m3, m2, m1⟩

/-- Move construction with another allocator. -/
theorem moveOther_spec {a : MoveArgs} (r : Reach w) (l : a.Ok w i) (hi : w.cs[i]? = some c) :
    (∃ w' b c', w.moveOther i a = .ok w' ∧ Reach w' ∧ ¬ (a.F.header = true ∨ a.F.index = true) ∧ ¬ a.F'.Some c.count ∧ MovedOut w w' i c b c' a.hd' a.ns) ∨
    (∃ w', w.moveOther i a = .threw w' ∧ Reach w' ∧ (a.F.header = true ∨ a.F.index = true ∨ a.F'.header = true ∨ a.F'.index = true) ∧ w'.cs = w.cs ∧ w'.hs = w.hs ∧
      (∀ x, x ∈ w'.m.alloc ↔ x ∈ w.m.alloc) ∧ w'.m.cons = w.m.cons ∧ ∀ x ∈ w.m.alloc, w'.m.val x = w.m.val x) ∨
    (∃ w' b, w.moveOther i a = .threw w' ∧ Reach w' ∧ a.F'.Some c.count ∧ w'.cs = w.cs.set i b ∧ Drained c b ∧ w'.hs = w.hs ∧
      (∀ x, x ∈ w'.m.alloc ↔ x ∈ w.m.alloc ∧ x ∉ c.elems) ∧ (∀ x, x ∈ w'.m.cons ↔ x ∈ w.m.cons ∧ x ∉ c.elems) ∧ ∀ x ∈ w.m.alloc, w'.m.val x = w.m.val x) := by
  obtain ⟨l1, l2⟩ := l
  have fr : w.Fresh a.hd := by obtain ⟨_, _, f, _⟩ := l1; exact f
  obtain ⟨hc, s, -, sa, sc, z0, h0⟩ := r.inv.facts hi
  rcases eff_newLike r.inv l1 with ⟨w1, c0, b, k1, h0, k2, k3, k4, k5, k6, k7, k8, k9⟩ | ⟨c0, k1, h0, k2⟩
  swap
  · exact Or.inr (Or.inl ⟨w, by simp only [World.moveOther, k1, andThen], r, by tauto, rfl, rfl, fun _ => Iff.rfl, rfl, fun _ _ => rfl⟩)
  obtain rfl := Option.some.inj (hi.symm.trans h0)
  have r1 := r.ok l1 k1
  have l3 := l2 _ _ k1
  have g1 : w1.cs[w.cs.length]? = some b := by rw [k3]; exact get_last _ _
  have g2 : w1.cs[i]? = some c := by rw [k3]; exact get_front hi
  have hb : b.elems = [] := List.length_eq_zero_iff.1 ((r1.inv.facts g1).2.1.count.symm.trans k8)
  have fr' : ∀ n ∈ a.hd' :: a.ns, n ∉ a.hd :: w.m.alloc := by
    obtain ⟨_, _, _, _, f, _⟩ := l3
    intro n hn
    have := (f n hn).2.1
    rwa [k5] at this
  rcases eff_copy r1.inv l3 with ⟨w2, d0, c', q1, h1, q2, q⟩ | ⟨w2, d0, q1, h1, q2, q3, q4, q5, q6, q7⟩
  · obtain rfl := Option.some.inj (g2.symm.trans h1)
    left
    have r2 := r1.ok l3 q1
    have hcs2 : w2.cs = w.cs ++ [b] ++ [c'] := by rw [q.cs, k3]
    have hi2 : (w.cs ++ [b])[i]? = some c := get_front hi
    obtain ⟨w3, ce, m1, r3, m2, m3, m4, m5, m6, m7⟩ := clear_at r2 (i := i) (c := c) (by rw [hcs2]; exact get_front hi2)
    have hcs3 : w3.cs = w.cs.set i ce ++ [b] ++ [c'] := by rw [m2, hcs2, set_front hi2, set_front hi]
    have g3 : w3.cs[w.cs.length]? = some b := by
      rw [hcs3]
      have := get_last (w.cs.set i ce) b
      rw [List.length_set] at this
      exact get_front this
    have g4 : w3.cs[w.cs.length + 1]? = some c' := by
      rw [hcs3]
      have := get_last (w.cs.set i ce ++ [b]) c'
      rwa [List.length_append, List.length_set] at this
    have ka : b.asked = c'.asked := k7.trans q.asked.symm
    have s1 := eff_swapElements g3 g4 ka
    have r4 := r3.ok (o := .swapElements w.cs.length (w.cs.length + 1)) ⟨b, c', g3, g4, ka⟩ s1
    have e4 : (w3.cs.set w.cs.length c').set (w.cs.length + 1) b = w.cs.set i ce ++ [c'] ++ [b] := by
      rw [hcs3]
      have t1 := get_last (w.cs.set i ce) b
      rw [List.length_set] at t1
      rw [set_front t1]
      have t2 := set_last (w.cs.set i ce) b c'
      rw [List.length_set] at t2
      rw [t2]
      have t3 := set_last (w.cs.set i ce ++ [c']) c' b
      rwa [List.length_append, List.length_set] at t3
    obtain ⟨w5, n1, r5, n3, n4, n5, n6, n7⟩ := destroy_last r4 (cs := w.cs.set i ce ++ [c']) e4
    rw [List.length_append, List.length_set] at n1
    refine ⟨w5, ce, c', ?_, r5, k2, q2, n3, ?_, m3, q.head, q.elems, q.count, q.asked, q.load, q.clone, ?_, ?_, ?_, ?_⟩
    · have n1' : World.step ⟨w3.m, (w3.cs.set w.cs.length c').set (w.cs.length + 1) b, w3.hs⟩ (.destroy (w.cs.length + 1)) = .ok (w5, ⟨0, true⟩) := n1
      simp only [World.moveOther, k1, andThen, q1, m1, s1, n1']
    · rw [n4]; show w3.hs = _; rw [m4, q.hs, k4]
    · rw [n5]; show c'.seqs.map (·.map w3.m.val) = _; rw [m5, q.vals, k5]; rfl
    · intro x
      rw [n6]
      show x ∈ w3.m.alloc ∧ _ ↔ _
      rw [m6, q.alloc, k5, hb, k6]
      simp only [Mem.allocate, List.mem_append, List.mem_reverse, List.mem_cons, List.not_mem_nil, or_false]
      constructor
      · rintro ⟨⟨h | h | h | h, g⟩, g'⟩
        · exact Or.inl (Or.inr h)
        · exact Or.inl (Or.inl h)
        · exact absurd h g'
        · exact Or.inr ⟨h, g⟩
      · rintro (h | ⟨h, g⟩)
        · have := fr' x (by simpa using h)
          simp only [List.mem_cons, not_or] at this
          exact ⟨⟨by tauto, fun g => this.2 (sa x g)⟩, this.1⟩
        · exact ⟨⟨by tauto, g⟩, fun g' => fr.2.1 (g' ▸ h)⟩
    · intro x
      rw [n7]
      show x ∈ w3.m.cons ∧ _ ↔ _
      rw [m7, q.cons, k5, hb]
      simp only [Mem.allocate, List.mem_append, List.mem_reverse, List.not_mem_nil, not_false_eq_true, and_true]
      constructor
      · rintro ⟨h | h, g⟩
        · exact Or.inl h
        · exact Or.inr ⟨h, g⟩
      · rintro (h | ⟨h, g⟩)
        · exact ⟨Or.inl h, fun g => fr' x (by simp [h]) (by simp [sa x g])⟩
        · exact ⟨Or.inr h, g⟩
    · intro x hx
      rw [n5]; show w3.m.val x = _
      rw [m5, q.val x (by rw [k5]; simp [Mem.allocate, hx]), k5]; rfl
  · obtain rfl := Option.some.inj (g2.symm.trans h1)
    right
    have r2 := r1.threw l3 q1
    have hv : ∀ x ∈ w.m.alloc, w2.m.val x = w.m.val x := fun x hx => by rw [q7 x (by rw [k5]; simp [Mem.allocate, hx]), k5]; rfl
    by_cases hf : (a.F'.header || a.F'.index) = true
    · left
      obtain ⟨w3, n1, r3, n3, n4, n5, n6, n7⟩ := destroy_last r2 (by rw [q3, k3] : w2.cs = w.cs ++ [b])
      refine ⟨w3, by simp only [World.moveOther, k1, andThen, q1, hf, if_true, n1, andThrow], r3, ?_, n3, by rw [n4, q4, k4], ?_, ?_, fun x hx => by rw [n5]; exact hv x hx⟩
      · rw [Bool.or_eq_true] at hf; tauto
      · intro x
        rw [n6, q5, k5, hb, k6]
        simp only [Mem.allocate, List.mem_cons, List.not_mem_nil, or_false]
        constructor
        · rintro ⟨h | h, g⟩
          · exact absurd h g
          · exact h
        · exact fun h => ⟨Or.inr h, fun g => fr.2.1 (g ▸ h)⟩
      · obtain ⟨l', -⟩ := n7 0
        have e0 : w3.m = { w2.m with alloc := w2.m.alloc.erase b.hd } := by
          obtain ⟨m', g1', g2', -⟩ := destroy_empty r2 (i := w.cs.length) (c := b) (by rw [q3]; exact g1) hb
          have := n1
          simp only [World.step, show w2.cs[w.cs.length]? = some b from by rw [q3]; exact g1] at this
          obtain ⟨m'', g3', g4', g5', g6'⟩ := deleteAll_spec (m := w2.m) (r2.inv.facts (i := w.cs.length) (c := b) (by rw [q3]; exact g1)).2.1
            (r2.inv.count_le_alloc (List.mem_of_getElem? (i := w.cs.length) (by rw [q3]; exact g1))) (r2.inv.count_le_cons (List.mem_of_getElem? (i := w.cs.length) (by rw [q3]; exact g1)))
          have hm : m'' = w2.m := by
            rw [hb] at g5' g6'
            cases m''
            cases hw : w2.m
            rw [hw] at g4' g5' g6'
            simp only [List.diff_nil] at g4' g5' g6'
            subst g4' g5' g6'
            rfl
          subst hm
          simp only [g3', g1'] at this
          obtain ⟨this, -⟩ := Prod.mk.inj (Out.ok.inj this)
          rw [← this]; exact g2'
        rw [e0]; show w2.m.cons = _; rw [q6, k5]; rfl
    · right
      obtain ⟨w3, ce, m1, r3, m2, m3, m4, m5, m6, m7⟩ := clear_at r2 (i := i) (c := c) (by rw [q3]; exact g2)
      have hcs3 : w3.cs = w.cs.set i ce ++ [b] := by rw [m2, q3, k3, set_front hi]
      obtain ⟨w4, n1, r4, n3, n4, n5, n6, n7⟩ := destroy_last r3 hcs3
      rw [List.length_set] at n1
      refine ⟨w4, ce, by simp only [World.moveOther, k1, andThen, q1, hf, if_false, m1, n1, andThrow]; rfl, r4, q2, n3, m3, by rw [n4, m4, q4, k4], ?_, ?_,
        fun x hx => by rw [n5, m5]; exact hv x hx⟩
      · intro x
        rw [n6, m6, q5, k5, hb, k6]
        simp only [Mem.allocate, List.mem_cons, List.not_mem_nil, or_false]
        constructor
        · rintro ⟨⟨h | h, g⟩, g'⟩
          · exact absurd h g'
          · exact ⟨h, g⟩
        · exact fun ⟨h, g⟩ => ⟨⟨Or.inr h, g⟩, fun g' => fr.2.1 (g' ▸ h)⟩
      · intro x
        rw [n7, m7, q6, k5, hb]
        simp [Mem.allocate]

/-- Move assignment with another allocator: the elements of the source `d` (position `j`) are moved to new ones, which the container at `i` gets; the elements it had
are destroyed. -/
theorem moveAssignOther_spec {a : MoveArgs} (r : Reach w) (l : a.Ok w j) (hi : w.cs[i]? = some c) (hj : w.cs[j]? = some d) (ne : i ≠ j) (k : c.kinds = d.kinds) :
    (∃ w' b d', w.moveAssignOther i j a = .ok w' ∧ Reach w' ∧ w'.cs = (w.cs.set j b).set i d' ∧ Drained d b ∧ w'.hs = w.hs ∧ d'.hd = a.hd' ∧ d'.elems = a.ns ∧
      d'.count = d.count ∧ d'.asked = d.asked ∧ d'.seqs.map (·.map w'.m.val) = d.seqs.map (·.map w.m.val) ∧
      (∀ x, x ∈ w'.m.alloc ↔ x ∈ a.hd' :: a.ns ∨ x ∈ w.m.alloc ∧ x ∉ d.elems ∧ x ∉ c.hd :: c.elems) ∧
      (∀ x, x ∈ w'.m.cons ↔ x ∈ a.ns ∨ x ∈ w.m.cons ∧ x ∉ d.elems ∧ x ∉ c.elems) ∧ ∀ x ∈ w.m.alloc, w'.m.val x = w.m.val x) ∨
    (∃ w', w.moveAssignOther i j a = .threw w' ∧ Reach w' ∧ w'.hs = w.hs ∧ (w'.cs = w.cs ∨ ∃ b, Drained d b ∧ w'.cs = w.cs.set j b) ∧
      (∀ x, x ∈ w'.m.cons → x ∈ w.m.cons) ∧ (∀ x ∈ w.m.cons, x ∉ d.elems → x ∈ w'.m.cons) ∧ ∀ x ∈ w.m.alloc, w'.m.val x = w.m.val x) := by
  have l0 := l
  obtain ⟨hc, s, -, sa, sc, z0, h0⟩ := r.inv.facts hi
  rcases moveOther_spec r l hj with ⟨w1, b, d', k1, r1, k2, k3, q⟩ | ⟨w1, k1, r1, k2, k3, k4, k5, k6, k7⟩ | ⟨w1, b, k1, r1, k2, k3, k4, k5, k6, k7, k8⟩
  · left
    have fr : ∀ n ∈ a.hd' :: a.ns, n ∉ w.m.alloc := by
      rcases eff_newLike r.inv l.1 with ⟨w1, c0, b, k1, h0, k2, k3, k4, k5, k6⟩ | ⟨c0, k1, h0, k2⟩
      · obtain ⟨_, _, _, _, f, _⟩ := l.2 _ _ k1
        intro n hn g
        have := (f n hn).2.1
        rw [k5] at this
        exact this (by simp [Mem.allocate, g])
      · exact absurd k2 (by assumption)
    have hi' : (w.cs.set j b)[i]? = some c := by rw [List.getElem?_set_ne (Ne.symm ne)]; exact hi
    have g1 : w1.cs[i]? = some c := by rw [q.cs]; exact get_front hi'
    have g2 : w1.cs[w.cs.length]? = some d' := by
      rw [q.cs]
      have := get_last (w.cs.set j b) d'
      rwa [List.length_set] at this
    have kk : c.kinds = d'.kinds := k.trans (kinds_of_asked q.asked.symm)
    have s1 := eff_swap g1 g2 kk
    have r2 := r1.ok (o := .swap i w.cs.length) ⟨c, d', g1, g2, kk⟩ s1
    have e2 : (w1.cs.set i d').set w.cs.length c = (w.cs.set j b).set i d' ++ [c] := by
      rw [q.cs, set_front hi']
      have := set_last ((w.cs.set j b).set i d') d' c
      rwa [List.length_set, List.length_set] at this
    obtain ⟨w3, n1, r3, n3, n4, n5, n6, n7⟩ := destroy_last r2 e2
    rw [List.length_set, List.length_set] at n1
    refine ⟨w3, b, d', by simp only [World.moveAssignOther, k1, s1, andThen, n1], r3, n3, q.source, by rw [n4]; exact q.hs, q.head, q.elems, q.count, q.asked, ?_, ?_, ?_, ?_⟩
    · rw [n5]; exact q.vals
    · intro x
      rw [n6]
      show x ∈ w1.m.alloc ∧ _ ↔ _
      rw [q.alloc]
      constructor
      · rintro ⟨h | ⟨h, g⟩, g'⟩
        · exact Or.inl h
        · exact Or.inr ⟨h, g, g'⟩
      · rintro (h | ⟨h, g, g'⟩)
        · exact ⟨Or.inl h, fun g => fr x h (r.inv.mem_alloc hc g)⟩
        · exact ⟨Or.inr ⟨h, g⟩, g'⟩
    · intro x
      rw [n7]
      show x ∈ w1.m.cons ∧ _ ↔ _
      rw [q.cons]
      constructor
      · rintro ⟨h | ⟨h, g⟩, g'⟩
        · exact Or.inl h
        · exact Or.inr ⟨h, g, g'⟩
      · rintro (h | ⟨h, g, g'⟩)
        · exact ⟨Or.inl h, fun g => fr x (by simp [h]) (sa x g)⟩
        · exact ⟨Or.inr ⟨h, g⟩, g'⟩
    · intro x hx
      rw [n5]; exact q.val x hx
  · exact Or.inr ⟨w1, by simp only [World.moveAssignOther, k1], r1, k4, Or.inl k3, fun x hx => by rwa [k6] at hx, fun x hx _ => by rwa [k6], k7⟩
  · exact Or.inr ⟨w1, by simp only [World.moveAssignOther, k1], r1, k5, Or.inr ⟨b, k4, k3⟩, fun x hx => ((k7 x).1 hx).1, fun x hx g => (k7 x).2 ⟨hx, g⟩, k8⟩

end MI.Cont
