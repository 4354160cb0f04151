import Verif.Ser.StreamLemmas
import Verif.Cont.PlaceLemmas

/-! The rearrangements read from an archive lead back to the sequence that was saved. -/
namespace MI.Ser
open MI MI.Cont
variable {V : Type}

/-- Two sorted sequences in which equivalent elements come in the same order are equal. -/
theorem sorted_unique {α : Type _} {lt : α → α → Bool} (sw : StrictWeak lt) : ∀ {l l' : List α}, Sorted lt l → Sorted lt l' →
    (∀ y, l.filter (equivOf lt y) = l'.filter (equivOf lt y)) → l = l'
  | [], [], _, _, _ => rfl
  | [], b :: t', _, _, h => by
    have := h b
    simp [equivOf, sw.irrefl] at this
  | a :: t, [], _, _, h => by
    have := h a
    simp [equivOf, sw.irrefl] at this
  | a :: t, b :: t', h1, h2, h => by
    have ea : equivOf lt a a = true := by simp [equivOf, sw.irrefl]
    have eb : equivOf lt b b = true := by simp [equivOf, sw.irrefl]
    have ha : a ∈ b :: t' := by
      have : a ∈ (b :: t').filter (equivOf lt a) := by rw [← h a]; simp [ea]
      exact (List.mem_filter.1 this).1
    have hb : b ∈ a :: t := by
      have : b ∈ (a :: t).filter (equivOf lt b) := by rw [h b]; simp [eb]
      exact (List.mem_filter.1 this).1
    have hab : lt a b = false := by
      rcases List.mem_cons.1 ha with rfl | ha
      · exact sw.irrefl _
      · exact (List.pairwise_cons.1 h2).1 a ha
    have hba : lt b a = false := by
      rcases List.mem_cons.1 hb with rfl | hb
      · exact sw.irrefl _
      · exact (List.pairwise_cons.1 h1).1 b hb
    have eab : equivOf lt a b = true := by simp [equivOf, hab, hba]
    have e := h a
    simp only [List.filter_cons, ea, eab, if_true, List.cons.injEq] at e
    obtain ⟨rfl, -⟩ := e
    have := sorted_unique sw (List.pairwise_cons.1 h1).2 (List.pairwise_cons.1 h2).2 (fun y => by
      have := h y
      simp only [List.filter_cons] at this
      split at this
      · exact (List.cons.inj this).2
      · exact this)
    rw [this]

/-- A common subsequence through a common element. -/
theorem sub_split {α : Type _} {p : α} {B D : List α} : ∀ {A C : List α}, (A ++ p :: B).Sublist (C ++ p :: D) → p ∉ C → p ∉ D → A.Sublist C ∧ B.Sublist D
  | [], [], h, _, _ => ⟨.slnil, by simpa using h⟩
  | a :: A, [], h, _, hD => by
    exfalso
    rw [List.nil_append] at h
    cases h with
    | cons _ h => exact hD (h.subset (by simp))
    | cons_cons _ h => exact hD (h.subset (by simp))
  | [], c :: C, h, hC, hD => by
    rw [List.nil_append, List.cons_append] at h
    cases h with
    | cons _ h => exact ⟨List.nil_sublist _, (sub_split (A := []) h (fun h => hC (List.mem_cons_of_mem _ h)) hD).2⟩
    | cons_cons _ h => exact absurd (by simp) hC
  | a :: A, c :: C, h, hC, hD => by
    rw [List.cons_append, List.cons_append] at h
    cases h with
    | cons _ h =>
      have := sub_split (A := a :: A) h (fun h => hC (List.mem_cons_of_mem _ h)) hD
      exact ⟨this.1.cons _, this.2⟩
    | cons_cons _ h =>
      have := sub_split (A := A) h (fun h => hC (List.mem_cons_of_mem _ h)) hD
      exact ⟨this.1.cons_cons _, this.2⟩

/-- A common subsequence through a cut that separates the elements. -/
theorem sub_cut {α : Type _} {P : α → Prop} {A B s t : List α} (h : (A ++ B).Sublist (s ++ t)) (hA : ∀ a ∈ A, P a) (hB : ∀ a ∈ B, ¬ P a)
    (hs : ∀ a ∈ s, P a) (ht : ∀ a ∈ t, ¬ P a) : A.Sublist s ∧ B.Sublist t := by
  obtain ⟨l1, l2, e, h1, h2⟩ := List.sublist_append_iff.1 h
  rcases List.append_eq_append_iff.1 e with ⟨b, e1, e2⟩ | ⟨b, e1, e2⟩
  · have : b = [] := by
      rcases b with _ | ⟨y, b⟩
      · rfl
      · exact absurd (hs y (h1.subset (by simp [e1]))) (hB y (by simp [e2]))
    subst this
    simp only [List.append_nil, List.nil_append] at e1 e2
    subst e1 e2
    exact ⟨h1, h2⟩
  · have : b = [] := by
      rcases b with _ | ⟨y, b⟩
      · rfl
      · exact absurd (hA y (by simp [e1])) (ht y (h2.subset (by simp [e2])))
    subst this
    simp only [List.append_nil, List.nil_append] at e1 e2
    subst e1 e2
    exact ⟨h1, h2⟩

/-- The elements the script leaves where they are. -/
def kept (l : List (Id × Bool)) : List Id := (l.filter (·.2)).map (·.1)

theorem kept_sublist (l : List (Id × Bool)) : (kept l).Sublist (l.map (·.1)) := List.filter_sublist.map _

/-- One instruction, in the middle of a script: `done` is in place. -/
theorem move_one {cur done U : List Id} {x : Id} (hc : cur.Nodup) (hx : x ∈ cur) (hsub : (done ++ U).Sublist cur) (hxd : x ∉ done) (hxU : x ∉ U) :
    (done ++ x :: U).Sublist (moveAfter cur done.getLast? x) := by
  have hp : ∀ q ∈ done.getLast?, q ∈ cur ∧ q ≠ x := by
    intro q hq
    have hq' : q ∈ done := List.mem_of_getLast? hq
    exact ⟨hsub.subset (by simp [hq']), fun e => hxd (e ▸ hq')⟩
  obtain ⟨u, v, s, t, e, e2, er, e3, -, hs0, hs1⟩ := moveAfter_split hc hx hp 0
  have hsub' : (done ++ U).Sublist (s ++ t) := by
    have := hsub.erase x
    rwa [List.erase_of_not_mem (by simp [hxd, hxU]), er] at this
  rw [e3]
  have hnd : (s ++ t).Nodup := by rw [← er]; exact hc.erase x
  rcases List.eq_nil_or_concat done with rfl | ⟨d0, q, rfl⟩
  · obtain rfl := hs0 (by simp)
    simpa using hsub'
  · obtain ⟨s0, rfl⟩ := hs1 q (by simp)
    have hq := List.nodup_append.1 hnd
    have hq1 : q ∉ s0 := by
      intro h
      exact (List.nodup_append.1 hq.1).2.2 _ h q (by simp) rfl
    have hq2 : q ∉ t := fun h => hq.2.2 q (by simp) q h rfl
    have : (d0 ++ q :: U).Sublist (s0 ++ q :: t) := by simpa using hsub'
    obtain ⟨k1, k2⟩ := sub_split this hq1 hq2
    have : ((d0 ++ [q]) ++ x :: U).Sublist ((s0 ++ [q]) ++ x :: t) := List.Sublist.append (k1.append (.refl _)) (k2.cons_cons _)
    simpa using this

/-- Does the archive have a stream for indices of this kind? -/
def Rearranged : Spec V → Bool
  | .ord u _ => !u
  | .hash _ _ _ => false
  | _ => true

theorem move_step {val : Id → V} {S : Spec V} (hr : Rearranged S = true) (ok : S.Ok) {cur done U rest : List Id} {x : Id} (hc : cur.Nodup)
    (hg : S.Good val cur) (hd : S.Good val (done ++ x :: rest)) (hU : U.Sublist rest) (hx : x ∈ cur) (hsub : (done ++ U).Sublist cur) (hxd : x ∉ done)
    (hxU : x ∉ U) :
    ∃ cur', S.move val cur done.getLast? x = some cur' ∧ cur'.Perm cur ∧ S.Good val cur' ∧ (done ++ x :: U).Sublist cur' := by
  have hp : ∀ q ∈ done.getLast?, q ∈ cur ∧ q ≠ x := by
    intro q hq
    have hq' : q ∈ done := List.mem_of_getLast? hq
    exact ⟨hsub.subset (by simp [hq']), fun e => hxd (e ▸ hq')⟩
  have hm := move_one hc hx hsub hxd hxU
  have hpm : (moveAfter cur done.getLast? x).Perm cur := moveAfter_perm hc hx hp
  cases S with
  | hash c eq hf => simp [Rearranged] at hr
  | seq => exact ⟨_, rfl, hpm, trivial, hm⟩
  | rnd => exact ⟨_, rfl, hpm, trivial, hm⟩
  | ord u lt =>
    obtain rfl : u = false := by simpa [Rearranged] using hr
    have sw : StrictWeak lt := ok
    have hs : Sorted (fun a b => lt (val a) (val b)) cur := hg
    have hD : Sorted (fun a b => lt (val a) (val b)) (done ++ x :: rest) := hd
    obtain ⟨hD1, hD2, hD3⟩ := List.pairwise_append.1 hD
    have hxr := (List.pairwise_cons.1 hD2).1
    -- to the front of the equivalent elements
    have front : (∀ a ∈ done, lt (val a) (val x) = true) → (frontOf val lt cur x).Perm cur ∧ Sorted (fun a b => lt (val a) (val b)) (frontOf val lt cur x) ∧
        (done ++ x :: U).Sublist (frontOf val lt cur x) := by
      intro hda
      obtain ⟨s, t, er, h1, h2, e⟩ := frontOf_split (val := val) sw (x := x) hs
      have hsub' : (done ++ U).Sublist (s ++ t) := by
        have := hsub.erase x
        rwa [List.erase_of_not_mem (by simp [hxd, hxU]), er] at this
      obtain ⟨k1, k2⟩ := sub_cut (P := fun a => lt (val a) (val x) = true) hsub' hda
        (fun a ha => by simpa using hxr a (hU.subset ha)) h1 (fun a ha => by simpa using h2 a ha)
      rw [e]
      refine ⟨?_, ?_, k1.append (k2.cons_cons _)⟩
      · refine List.perm_middle.trans ?_
        rw [← er]
        exact (List.perm_cons_erase hx).symm
      · refine sorted_insert ?_ (fun a ha => sw.asymm (h1 a ha)) h2
        rw [← er]
        exact hs.sublist List.erase_sublist
    cases hl : done.getLast? with
    | none =>
      obtain rfl := List.getLast?_eq_none_iff.1 hl
      obtain ⟨k1, k2, k3⟩ := front (by simp)
      exact ⟨_, rfl, k1, k2, k3⟩
    | some q =>
      have hq : q ∈ done := List.mem_of_getLast? hl
      have hxq : lt (val x) (val q) = false := hD3 q hq x (by simp)
      have hqa : ∀ a ∈ done, lt (val q) (val a) = false := by
        obtain ⟨d0, rfl⟩ : ∃ d0, done = d0 ++ [q] := by
          rcases List.eq_nil_or_concat done with rfl | ⟨d0, q', rfl⟩
          · simp at hl
          · simp only [List.concat_eq_append, List.getLast?_append, List.getLast?_singleton, Option.some_or, Option.some.injEq] at hl
            exact ⟨d0, by simp [hl]⟩
        intro a ha
        rcases List.mem_append.1 ha with ha | ha
        · exact (List.pairwise_append.1 hD1).2.2 a ha q (by simp)
        · obtain rfl : a = q := by simpa using ha
          exact sw.irrefl _
      simp only [Spec.move]
      cases hqx : lt (val q) (val x) with
      | true =>
        obtain ⟨k1, k2, k3⟩ := front (fun a ha => sw.le_lt_trans (hqa a ha) hqx)
        exact ⟨_, rfl, k1, k2, k3⟩
      | false =>
        rw [hl] at hm hpm
        simp only [hxq, Bool.false_eq_true, if_false]
        refine ⟨_, rfl, hpm, ?_, hm⟩
        obtain ⟨u, v, s, t, e, e2, er, e3, -, -, hs1⟩ := moveAfter_split hc hx (p := some q) (fun q' h => hp q' (hl ▸ h)) 0
        obtain ⟨s0, rfl⟩ := hs1 q rfl
        rw [e3]
        have hst : Sorted (fun a b => lt (val a) (val b)) ((s0 ++ [q]) ++ t) := by
          rw [← er]; exact hs.sublist List.erase_sublist
        obtain ⟨z1, z2, z3⟩ := List.pairwise_append.1 hst
        show Sorted _ _
        refine sorted_insert hst ?_ ?_
        · intro a ha
          have : lt (val q) (val a) = false := by
            rcases List.mem_append.1 ha with ha | ha
            · exact (List.pairwise_append.1 z1).2.2 a ha q (by simp)
            · obtain rfl : a = q := by simpa using ha
              exact sw.irrefl _
          exact sw.le_trans this hxq
        · intro a ha
          exact sw.le_trans hqx (z3 q (by simp) a ha)

theorem replay_from {val : Id → V} {S : Spec V} (hr : Rearranged S = true) (ok : S.Ok) : ∀ (l : List (Id × Bool)) (done cur : List Id),
    (done ++ l.map (·.1)).Nodup → cur.Nodup → (∀ x ∈ done ++ l.map (·.1), x ∈ cur) → S.Good val cur → S.Good val (done ++ l.map (·.1)) →
    (done ++ kept l).Sublist cur →
    ∃ cur', S.moves val cur (script done.getLast? l) = (cur', true) ∧ cur'.Perm cur ∧ S.Good val cur' ∧ (done ++ l.map (·.1)).Sublist cur'
  | [], done, cur, _, _, _, hg, _, h => ⟨cur, rfl, .refl _, hg, by simpa [kept] using h⟩
  | (x, true) :: l, done, cur, h1, h2, h3, hg, hd, h4 => by
    have := replay_from hr ok l (done ++ [x]) cur (by simpa using h1) h2 (by simpa using h3) hg (by simpa using hd) (by simpa [kept] using h4)
    simpa [script] using this
  | (x, false) :: l, done, cur, h1, h2, h3, hg, hd, h4 => by
    have hx : x ∈ cur := h3 x (by simp)
    have hxd : x ∉ done := by
      intro h
      exact (List.nodup_append.1 h1).2.2 x h x (by simp) rfl
    have hxU : x ∉ kept l := by
      intro h
      have := (kept_sublist l).subset h
      exact (List.nodup_cons.1 (show (x :: l.map (·.1)).Nodup from (List.nodup_append.1 h1).2.1)).1 this
    obtain ⟨cur1, k1, k2, k3, k4⟩ := move_step hr ok h2 hg (rest := l.map (·.1)) (by simpa using hd) (kept_sublist l) hx (by simpa [kept] using h4) hxd hxU
    obtain ⟨cur', j1, j2, j3, j4⟩ := replay_from hr ok l (done ++ [x]) cur1 (by simpa using h1) (k2.nodup_iff.2 h2)
      (fun y hy => k2.mem_iff.2 (h3 y (by simpa using hy))) k3 (by simpa using hd) (by simpa using k4)
    refine ⟨cur', ?_, j2.trans k2, j3, by simpa using j4⟩
    simp only [script, Bool.false_eq_true, if_false, List.cons_append, List.nil_append, Spec.moves, k1]
    simpa using j1

/-- The elements of a sequence that are equivalent to another one of it. -/
def dups (eqv : Id → Id → Bool) (xs : List Id) : List Id := xs.filter fun x => xs.any fun y => decide (y ≠ x) && eqv x y

theorem dups_class {eqv : Id → Id → Bool} (sy : ∀ x y, eqv x y = eqv y x) (tr : ∀ {x y z}, eqv x y = true → eqv y z = true → eqv x z = true)
    {xs : List Id} (hn : xs.Nodup) (y : Id) (h : 2 ≤ (xs.filter (eqv y)).length) : (dups eqv xs).filter (eqv y) = xs.filter (eqv y) := by
  rw [dups, List.filter_filter]
  refine List.filter_congr fun x hx => ?_
  cases hyx : eqv y x with
  | false => rfl
  | true =>
    simp only [Bool.true_and]
    have hn' : (xs.filter (eqv y)).Nodup := hn.filter _
    have hm : ∀ z, z ∈ xs.filter (eqv y) → z ∈ xs ∧ eqv x z = true := by
      intro z hz
      obtain ⟨h1, h2⟩ := List.mem_filter.1 hz
      exact ⟨h1, tr (by rw [sy]; exact hyx) h2⟩
    rcases e : xs.filter (eqv y) with _ | ⟨a, _ | ⟨b, r⟩⟩
    · simp [e] at h
    · simp [e] at h
    · rw [e] at hm hn'
      have hab : a ≠ b := by
        intro e'; simp [e'] at hn'
      rw [List.any_eq_true]
      by_cases hax : a = x
      · subst hax
        exact ⟨b, (hm b (by simp)).1, by simp [(hm b (by simp)).2, hab.symm]⟩
      · exact ⟨a, (hm a (by simp)).1, by simp [(hm a (by simp)).2, hax]⟩

/-- The elements whose places are saved, of an index whose sequence is `xs`: all, or those with duplicates (ordered indices). -/
def listed (val : Id → V) (xs : List Id) : Spec V → List Id
  | .ord _ lt => dups (fun a b => equivOf lt (val a) (val b)) xs
  | _ => xs

/-- The sequence of an index after the elements of `b` have been inserted in turn. -/
def Poured (val : Id → V) (b cur : List Id) : Spec V → Prop
  | .ord _ lt => StableOf (fun x y => lt (val x) (val y)) b cur
  | .hash _ _ _ => True
  | _ => cur = b

theorem sw_val {lt : V → V → Bool} (sw : StrictWeak lt) (val : Id → V) : StrictWeak (fun a b : Id => lt (val a) (val b)) :=
  ⟨fun _ => sw.irrefl _, fun h1 h2 => sw.trans h1 h2, fun h1 h2 h3 h4 => sw.incomp h1 h2 h3 h4⟩

/-- Loading: an index in which the elements have been inserted in the base order `b`, and where the script saved is followed, has
the sequence saved. -/
theorem restored {val : Id → V} {S : Spec V} (hr : Rearranged S = true) (ok : S.Ok) {X b cur : List Id} {l : List (Id × Bool)} (hb : b.Nodup)
    (hX : X.Perm b) (hc : cur.Perm b) (gX : S.Good val X) (gc : S.Good val cur) (hf : Poured val b cur S) (hl : l.map (·.1) = listed val X S)
    (hk : (kept l).Sublist b) : S.moves val cur (script none l) = (X, true) := by
  have nX : X.Nodup := hX.nodup_iff.2 hb
  have nc : cur.Nodup := hc.nodup_iff.2 hb
  have whole : S.Good val (l.map (·.1)) → (l.map (·.1)).Sublist X → (kept l).Sublist cur → ∃ cur', S.moves val cur (script none l) = (cur', true) ∧
      cur'.Perm cur ∧ S.Good val cur' ∧ (l.map (·.1)).Sublist cur' := by
    intro g1 g2 g3
    have := replay_from hr ok l [] cur (by simpa using nX.sublist g2) nc (fun x hx => hc.mem_iff.2 (hX.mem_iff.1 (g2.subset (by simpa using hx)))) gc
      (by simpa using g1) (by simpa using g3)
    simpa using this
  have keyless : (S = .seq ∨ S = .rnd) → S.moves val cur (script none l) = (X, true) := by
    intro hS
    have hcur : cur = b := by rcases hS with rfl | rfl <;> exact hf
    have hlX : l.map (·.1) = X := by rcases hS with rfl | rfl <;> exact hl
    obtain ⟨cur', e, p, -, q⟩ := whole (by rw [hlX]; exact gX) (by rw [hlX]) (by rw [hcur]; exact hk)
    rw [e]
    rw [hlX] at q
    rw [q.eq_of_length (by rw [p.length_eq, hc.length_eq, hX.length_eq])]
  cases S with
  | hash c eq hf => simp [Rearranged] at hr
  | seq => exact keyless (Or.inl rfl)
  | rnd => exact keyless (Or.inr rfl)
  | ord u lt =>
    obtain rfl : u = false := by simpa [Rearranged] using hr
    have sw' : StrictWeak lt := ok
    have sw := sw_val sw' val
    have gX' : Sorted (fun a b => lt (val a) (val b)) X := gX
    have gc' : Sorted (fun a b => lt (val a) (val b)) cur := gc
    have hl' : l.map (·.1) = dups (equivOf fun a b => lt (val a) (val b)) X := hl
    have hsub : (l.map (·.1)).Sublist X := by rw [hl']; exact List.filter_sublist
    have hk' : (kept l).Sublist cur := by
      have e : cur.filter (fun x => decide (x ∈ kept l)) = kept l := by
        refine sorted_unique sw (gc'.sublist List.filter_sublist) (gX'.sublist ((kept_sublist l).trans hsub)) fun y => ?_
        rw [List.filter_filter, show (fun a => equivOf (fun a b => lt (val a) (val b)) y a && decide (a ∈ kept l)) =
          fun a => decide (a ∈ kept l) && equivOf (fun a b => lt (val a) (val b)) y a from funext fun a => Bool.and_comm _ _, ← List.filter_filter, hf y,
          List.filter_filter, show (fun a => decide (a ∈ kept l) && equivOf (fun a b => lt (val a) (val b)) y a) =
          fun a => equivOf (fun a b => lt (val a) (val b)) y a && decide (a ∈ kept l) from funext fun a => Bool.and_comm _ _, ← List.filter_filter,
          filter_mem_of_sublist hk hb]
      rw [← e]
      exact List.filter_sublist
    obtain ⟨cur', e, p, g, q⟩ := whole (gX'.sublist hsub) hsub hk'
    rw [e]
    have g' : Sorted (fun a b => lt (val a) (val b)) cur' := g
    have : cur' = X := by
      refine sorted_unique sw g' gX' fun y => ?_
      have pm : (cur'.filter (equivOf (fun a b => lt (val a) (val b)) y)).Perm (X.filter (equivOf (fun a b => lt (val a) (val b)) y)) :=
        (p.trans (hc.trans hX.symm)).filter _
      rcases Nat.lt_or_ge (X.filter (equivOf (fun a b => lt (val a) (val b)) y)).length 2 with h2 | h2
      · rcases e2 : X.filter (equivOf (fun a b => lt (val a) (val b)) y) with _ | ⟨a, _ | ⟨b, r⟩⟩
        · rw [e2] at pm; exact pm.eq_nil
        · rw [e2] at pm; exact List.perm_singleton.1 pm
        · exfalso
          rw [e2] at h2
          simp only [List.length_cons] at h2
          omega
      · have hcl := dups_class (eqv := equivOf fun a b => lt (val a) (val b)) (fun x y => StrictWeak.equiv_symm) (fun h1 h2 => sw.equiv_trans h1 h2) nX y h2
        rw [← hcl]
        rw [hl'] at q
        have := q.filter (equivOf (fun a b => lt (val a) (val b)) y)
        refine (this.eq_of_length ?_).symm
        rw [pm.length_eq, hcl]
    rw [this]

end MI.Ser
