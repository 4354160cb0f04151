import Verif.Cont.Place
import Verif.Cont.LayerLemmas
import Verif.Ord.LookupLemmas
import Verif.Rnd.LoadLemmas
/-!
The rearrangers used by loading do what `Spec.moves` says.
-/
namespace MI.Cont
open MI MI.Seq
variable {V : Type}

/-- The position following the last element of `s`, when `x` may be in between. -/
theorem succ_cases {hd x : Id} {u v s t : List Id} (e : u ++ v = s ++ t) :
    ∃ A B, u ++ x :: v = A ++ B ∧ lastOr hd A = lastOr hd s ∧ (s = [] → A = []) ∧
      ((u = s ∧ v = t ∧ hdOr hd B = x) ∨ (hdOr hd B = hdOr hd t)) := by
  rcases List.append_eq_append_iff.1 e with ⟨b, h1, h2⟩ | ⟨b, h1, h2⟩
  · -- s = u ++ b, v = b ++ t
    rcases List.eq_nil_or_concat b with rfl | ⟨b', y, rfl⟩
    · refine ⟨s, x :: t, by simp at h1 h2; subst h1 h2; rfl, rfl, fun h => h, Or.inl ⟨?_, ?_, rfl⟩⟩ <;> simp at h1 h2 <;> simp [h1, h2]
    · refine ⟨u ++ x :: b'.concat y, t, by rw [h2]; simp, ?_, ?_, Or.inr rfl⟩
      · rw [h1]
        have e1 : u ++ x :: b'.concat y = (u ++ x :: b') ++ [y] := by simp
        have e2 : u ++ b'.concat y = (u ++ b') ++ [y] := by simp
        rw [e1, e2]
        simp only [lastOr, List.getLastD_eq_getLast?, List.getLast?_append, List.getLast?_singleton, Option.some_or]
      · rw [h1]; simp
  · -- u = s ++ b, t = b ++ v
    cases b with
    | nil =>
      refine ⟨s, x :: t, by simp at h1 h2; subst h1 h2; rfl, rfl, fun h => h, Or.inl ⟨?_, ?_, rfl⟩⟩ <;> simp at h1 h2 <;> simp [h1, h2]
    | cons y b =>
      refine ⟨s, (y :: b) ++ x :: v, by rw [h1]; simp, rfl, fun h => h, Or.inr (by rw [h2]; rfl)⟩

theorem moveAfter_split {xs : List Id} {p : Option Id} {x : Id} (hn : xs.Nodup) (hx : x ∈ xs) (hp : ∀ q ∈ p, q ∈ xs ∧ q ≠ x) (hd : Id) :
    ∃ u v s t, xs = u ++ x :: v ∧ u ++ v = s ++ t ∧ xs.erase x = s ++ t ∧ moveAfter xs p x = s ++ x :: t ∧ lastOr hd s = p.getD hd ∧
      (p = none → s = []) ∧ (∀ q, p = some q → ∃ s0, s = s0 ++ [q]) := by
  obtain ⟨u, v, rfl⟩ := List.append_of_mem hx
  have er := Rnd.erase_split hn
  cases p with
  | none => exact ⟨u, v, [], u ++ v, rfl, rfl, er, by simp [moveAfter, er], rfl, fun _ => rfl, fun q h => (nomatch h)⟩
  | some q =>
    obtain ⟨hq, hqx⟩ := hp q rfl
    have hq' : q ∈ u ++ v := by
      simp only [List.mem_append, List.mem_cons] at hq ⊢
      rcases hq with h | h | h
      · exact Or.inl h
      · exact absurd h hqx
      · exact Or.inr h
    obtain ⟨s, t, e⟩ := List.append_of_mem hq'
    have hn2 : (u ++ v).Nodup := by
      have := hn.erase x
      rwa [er] at this
    have hqs : q ∉ s := by
      rw [e] at hn2
      intro h
      exact (List.nodup_append.1 hn2).2.2 _ h _ (by simp) rfl
    refine ⟨u, v, s ++ [q], t, rfl, by rw [e]; simp, by rw [er, e]; simp, ?_, by simp [lastOr, List.getLastD_eq_getLast?], fun h => (nomatch h), ?_⟩
    · simp only [moveAfter, er, e]
      rw [Rnd.insertAfter_split hqs]; simp
    · rintro q' h
      obtain rfl := Option.some.inj h
      exact ⟨s, rfl⟩

theorem moveAfter_perm {xs : List Id} {p : Option Id} {x : Id} (hn : xs.Nodup) (hx : x ∈ xs) (hp : ∀ q ∈ p, q ∈ xs ∧ q ≠ x) :
    (moveAfter xs p x).Perm xs := by
  obtain ⟨u, v, s, t, e, e2, -, e3, -⟩ := moveAfter_split hn hx hp 0
  rw [e3, e]
  exact List.perm_middle.trans (by rw [← e2]; exact List.perm_middle.symm)

theorem last_split {hd q : Id} {A : List Id} (h : lastOr hd A = q) (hq : q ≠ hd) : ∃ A0, A = A0 ++ [q] := by
  rcases List.eq_nil_or_concat A with rfl | ⟨A0, y, rfl⟩
  · exact absurd h.symm hq
  · refine ⟨A0, ?_⟩
    have : y = q := by simpa [lastOr, List.getLastD_eq_getLast?] using h
    simp [this]

theorem seqRearranger_spec {h : Seq.Heap} {hd x : Id} {xs : List Id} {p : Option Id} (hf : Fam h [(hd, xs)]) (hx : x ∈ xs)
    (hp : ∀ q ∈ p, q ∈ xs ∧ q ≠ x) : Fam (seqRearranger h hd p x) [(hd, moveAfter xs p x)] := by
  have hnd := (hf.circ (a := hd) (xs := xs) (by simp)).1
  have hn := (List.nodup_cons.1 hnd).2
  obtain ⟨u, v, s, t, rfl, e, -, e3, hl, hs0, -⟩ := moveAfter_split hn hx hp hd
  obtain ⟨A, B, eA, lA, A0, hc⟩ := succ_cases (hd := hd) (x := x) e
  have hnext : h.next (p.getD hd) = hdOr hd B := by
    cases p with
    | none =>
      have := A0 (hs0 rfl)
      subst this
      rw [Option.getD_none, next_hd hf, eA]; rfl
    | some q =>
      have hq : q ≠ hd := by
        rintro rfl
        exact (List.nodup_cons.1 hnd).1 (hp q rfl).1
      rw [Option.getD_some] at hl ⊢
      obtain ⟨A1, rfl⟩ := last_split (lA.trans hl) hq
      rw [eA, List.append_assoc] at hf
      exact next_in hf
  rw [e3]
  simp only [seqRearranger, hnext]
  rcases hc with ⟨rfl, rfl, hB⟩ | hB
  · rw [hB, if_neg (by simp)]
    exact hf
  · have hne : hdOr hd B ≠ x := by
      rw [hB]
      intro hc
      have hm : hdOr hd t ∈ hd :: (u ++ v) := by
        rw [e]
        cases t with
        | nil => simp [hdOr]
        | cons y t => simp [hdOr]
      rw [hc] at hm
      have hxn : x ∉ hd :: (u ++ v) := by
        simp only [List.nodup_cons, List.nodup_append, List.mem_append, List.mem_cons] at hnd
        simp only [List.mem_cons, List.mem_append]
        rintro (h | h | h)
        · exact hnd.1 (Or.inr (Or.inl h.symm))
        · exact hnd.2.2.2 _ h _ (Or.inl rfl) rfl
        · exact hnd.2.2.1.1 h
      exact hxn hm
    rw [if_pos hne, hB]
    exact fam_relink_same hf e

theorem lowerBound_at {val : Id → V} {lt : V → V → Bool} {h : Ord.Heap} {hd : Id} {xs : List Id} {n : Nat} (sw : StrictWeak lt)
    (hr : Ord.Rep h hd xs) (hs : Sorted (fun a b => lt (val a) (val b)) xs) (hn : 2 * Nat.log2 (xs.length + 1) + 2 ≤ n) (x : V) :
    ∃ u v, xs = u ++ v ∧ (∀ a ∈ u, lt (val a) x = true) ∧ (∀ a ∈ v, lt (val a) x = false) ∧
      Ord.lowerBound val lt n h hd x = some (hdOr hd v) := by
  obtain ⟨u, v, rfl, hu, hv⟩ := Ord.mono_split (q := fun a => !lt (val a) x) xs (hs.imp (fun {a b} h1 h2 => by
    simp only [Bool.not_eq_true'] at *
    exact sw.le_trans h2 h1))
  simp only [Bool.not_eq_true', Bool.not_eq_false'] at hu hv
  refine ⟨u, v, rfl, hu, hv, ?_⟩
  unfold Ord.lowerBound Ord.lowerBoundFrom
  exact Ord.bound_on hr hn rfl (fun a ha => by simp [hu a ha]) (fun a ha => by simp [hv a ha])

theorem takeWhile_split {α : Type _} {p : α → Bool} : ∀ {u v : List α}, (∀ a ∈ u, p a = true) → (∀ a ∈ v, p a = false) →
    (u ++ v).takeWhile p = u ∧ (u ++ v).dropWhile p = v
  | [], v, _, hv => by
    cases v with
    | nil => simp
    | cons y v => simp [List.takeWhile, List.dropWhile, hv y (by simp)]
  | y :: u, v, hu, hv => by
    obtain ⟨h1, h2⟩ := takeWhile_split (u := u) (v := v) (fun a ha => hu a (by simp [ha])) hv
    simp [List.takeWhile, List.dropWhile, hu y (by simp), h1, h2]

theorem frontOf_split {val : Id → V} {lt : V → V → Bool} (sw : StrictWeak lt) {xs : List Id} {x : Id}
    (hs : Sorted (fun a b => lt (val a) (val b)) xs) : ∃ s t, xs.erase x = s ++ t ∧ (∀ a ∈ s, lt (val a) (val x) = true) ∧
      (∀ a ∈ t, lt (val a) (val x) = false) ∧ frontOf val lt xs x = s ++ x :: t := by
  have hs' : Sorted (fun a b => lt (val a) (val b)) (xs.erase x) := hs.sublist List.erase_sublist
  obtain ⟨u, v, e, hu, hv⟩ := Ord.mono_split (q := fun a => !lt (val a) (val x)) (xs.erase x) (hs'.imp (fun {a b} h1 h2 => by
    simp only [Bool.not_eq_true'] at *
    exact sw.le_trans h2 h1))
  simp only [Bool.not_eq_true', Bool.not_eq_false'] at hu hv
  refine ⟨u, v, e, hu, hv, ?_⟩
  obtain ⟨h1, h2⟩ := takeWhile_split (p := fun a => lt (val a) (val x)) hu hv
  simp only [frontOf, e, h1, h2]

theorem sorted_insert {val : Id → V} {lt : V → V → Bool} {s t : List Id} {x : Id} (hs : Sorted (fun a b => lt (val a) (val b)) (s ++ t))
    (h1 : ∀ a ∈ s, lt (val x) (val a) = false) (h2 : ∀ a ∈ t, lt (val a) (val x) = false) :
    Sorted (fun a b => lt (val a) (val b)) (s ++ x :: t) := by
  obtain ⟨a1, a2, a3⟩ := List.pairwise_append.1 hs
  refine List.pairwise_append.2 ⟨a1, List.pairwise_cons.2 ⟨h2, a2⟩, ?_⟩
  intro a ha b hb
  rcases List.mem_cons.1 hb with rfl | hb
  · exact h1 a ha
  · exact a3 a ha b hb

/-- Taking out and putting back before a position. -/
theorem ord_move {h : Ord.Heap} {hd x : Id} {u v s t : List Id} {n : Nat} (hr : Ord.Rep h hd (u ++ x :: v)) (e : u ++ v = s ++ t)
    (hn : (u ++ x :: v).length + 3 ≤ n) : ∃ h1 h2, Ord.extract n h hd x = some h1 ∧ Ord.restore n h1 x (hdOr hd t) hd = some h2 ∧
      Ord.Rep h2 hd (s ++ x :: t) := by
  obtain ⟨h1, e1, r1, -⟩ := Ord.rep_extract hr hn
  have hnd := Ord.rep_nodup hr
  have hx0 : x ≠ 0 := fun e => Ord.rep_nz hr (by simp [e])
  have hxn : x ∉ hd :: (u ++ v) := by
    intro hm
    have : (x :: hd :: (u ++ v)).Nodup := by
      refine (List.Perm.nodup_iff ?_).1 hnd
      refine (List.Perm.trans (List.Perm.cons hd ?_) (List.Perm.swap x hd _))
      exact List.perm_middle
    exact (List.nodup_cons.1 this).1 hm
  rw [e] at r1 hxn
  have hlen : (u ++ v).length = (s ++ t).length := by rw [e]
  obtain ⟨h2, e2, r2, -⟩ := Ord.restore_spec r1 hxn hx0 (N := n) (by simp at hn hlen ⊢; omega)
  exact ⟨h1, h2, e1, e2, r2⟩

theorem ordRearranger_spec {val : Id → V} {lt : V → V → Bool} {h : Ord.Heap} {hd x : Id} {xs : List Id} {p : Option Id} {n : Nat}
    (sw : StrictWeak lt) (hr : Ord.Rep h hd xs) (hs : Sorted (fun a b => lt (val a) (val b)) xs) (hx : x ∈ xs)
    (hp : ∀ q ∈ p, q ∈ xs ∧ q ≠ x) (hn : xs.length + 3 ≤ n) (hlog : 2 * Nat.log2 (xs.length + 1) + 2 ≤ n) :
    (∃ h' xs', ordRearranger n hd val lt h p x = .ok h' ∧ (Spec.ord false lt).move val xs p x = some xs' ∧ Ord.Rep h' hd xs' ∧
      Sorted (fun a b => lt (val a) (val b)) xs' ∧ xs'.Perm xs) ∨
    (ordRearranger n hd val lt h p x = .threw h ∧ (Spec.ord false lt).move val xs p x = none) := by
  have hnd := Ord.rep_nodup hr
  have hnx := (List.nodup_cons.1 hnd).2
  have hdx : hd ≠ x := by
    rintro rfl
    exact (List.nodup_cons.1 hnd).1 hx
  -- to the beginning of the equivalent elements
  have front : ∃ h' , (match (match Ord.lowerBound val lt n h hd (val x) with | none => Out.hang | some p => Out.ok p : Out Id) with
      | .ok p =>
        if p ≠ x then
          match Ord.extract n h hd x with
          | none => .hang
          | some h =>
            match Ord.restore n h x p hd with
            | none => .hang
            | some h => .ok h
        else .ok h
      | .threw _ => .threw h
      | .ub => .ub
      | .hang => .hang) = Out.ok h' ∧ Ord.Rep h' hd (frontOf val lt xs x) ∧
      Sorted (fun a b => lt (val a) (val b)) (frontOf val lt xs x) ∧ (frontOf val lt xs x).Perm xs := by
    obtain ⟨a, b, rfl, ha, hb, lb⟩ := lowerBound_at sw hr hs hlog (val x)
    obtain ⟨s, t, e1, e2, e3, e4⟩ := frontOf_split (x := x) sw hs
    have hxa : x ∉ a := fun h => by have := ha x h; rw [sw.irrefl] at this; cases this
    have hxb : x ∈ b := by
      rcases List.mem_append.1 hx with h | h
      · exact absurd h hxa
      · exact h
    obtain ⟨c, d, rfl⟩ := List.append_of_mem hxb
    have hcd : (c ++ x :: d).Nodup := (List.nodup_append.1 hnx).2.1
    have e5 : (a ++ (c ++ x :: d)).erase x = a ++ (c ++ d) := by
      rw [List.erase_append_right _ hxa, Rnd.erase_split hcd]
    -- the split is unique
    obtain ⟨w1, w2⟩ := takeWhile_split (p := fun y => lt (val y) (val x)) (u := s) (v := t) e2 e3
    obtain ⟨w3, w4⟩ := takeWhile_split (p := fun y => lt (val y) (val x)) (u := a) (v := c ++ d) ha
      (fun y hy => hb y (by simp only [List.mem_append, List.mem_cons] at hy ⊢; tauto))
    have hse : s ++ t = a ++ (c ++ d) := e1.symm.trans e5
    have hsa : s = a := by rw [← w1, ← w3, hse]
    have htc : t = c ++ d := by rw [← w2, ← w4, hse]
    subst hsa htc
    rw [e4]
    have hso : Sorted (fun a b => lt (val a) (val b)) (s ++ x :: (c ++ d)) :=
      sorted_insert (by rw [← e1]; exact hs.sublist List.erase_sublist) (fun y hy => sw.asymm (e2 y hy)) e3
    have hpm : (s ++ x :: (c ++ d)).Perm (s ++ (c ++ x :: d)) := List.Perm.append_left _ List.perm_middle.symm
    rw [lb]
    cases c with
    | nil => exact ⟨h, by simp [hdOr], by simpa using hr, hso, hpm⟩
    | cons y c =>
      have hyx : y ≠ x := by
        rintro rfl
        simp at hcd
      obtain ⟨h1, h2, k1, k2, k3⟩ := ord_move (u := s ++ y :: c) (v := d) (s := s) (t := y :: c ++ d) (n := n) (by simpa using hr) (by simp)
        (by simpa using hn)
      refine ⟨h2, ?_, k3, hso, hpm⟩
      have e6 : hdOr hd (y :: c ++ x :: d) = y := rfl
      have e7 : hdOr hd (y :: c ++ d) = y := rfl
      rw [e7] at k2
      simp only [e6, ne_eq, hyx, not_false_eq_true, if_true, k1, k2]
  cases p with
  | none =>
    obtain ⟨h', k1, k2, k3, k4⟩ := front
    exact Or.inl ⟨h', _, k1, rfl, k2, k3, k4⟩
  | some q =>
    obtain ⟨hq, hqx⟩ := hp q rfl
    by_cases hlt : lt (val q) (val x) = true
    · obtain ⟨h', k1, k2, k3, k4⟩ := front
      refine Or.inl ⟨h', _, ?_, by simp only [Spec.move, hlt, if_true], k2, k3, k4⟩
      simp only [ordRearranger, hlt, if_true]
      exact k1
    · by_cases hgt : lt (val x) (val q) = true
      · refine Or.inr ⟨?_, ?_⟩
        · simp only [ordRearranger, hlt, hgt, if_true]; rfl
        · simp only [Spec.move, hlt, hgt, if_true]; rfl
      · refine Or.inl ?_
        have hlt' : lt (val q) (val x) = false := by simpa using hlt
        have hgt' : lt (val x) (val q) = false := by simpa using hgt
        obtain ⟨u, v, s, t, e, e2, e1, e3, hl, -, hsq⟩ := moveAfter_split hnx hx hp hd
        obtain ⟨s0, hs0⟩ := hsq q rfl
        obtain ⟨A, B, eA, lA, -, hc⟩ := succ_cases (hd := hd) (x := x) e2
        have hqh : q ≠ hd := by
          rintro rfl
          exact (List.nodup_cons.1 hnd).1 hq
        obtain ⟨A1, rfl⟩ := last_split (lA.trans hl) (by simpa using hqh)
        simp only [Option.getD_some] at eA
        have hinc : Ord.increment h n q = some (hdOr hd B) := by
          rw [e, eA, List.append_assoc] at hr
          refine Ord.increment_spec hr ?_
          rw [e, eA, List.append_assoc] at hn
          exact hn
        have hso : Sorted (fun a b => lt (val a) (val b)) (s ++ x :: t) := by
          have hst : Sorted (fun a b => lt (val a) (val b)) (s ++ t) := by rw [← e1]; exact hs.sublist List.erase_sublist
          rw [hs0] at hst ⊢
          have hst' := hst
          rw [List.append_assoc] at hst'
          obtain ⟨p1, p2, p3⟩ := List.pairwise_append.1 hst'
          refine sorted_insert hst ?_ ?_
          · intro a ha
            rcases List.mem_append.1 ha with ha | ha
            · exact sw.le_trans (p3 a ha q (by simp)) hgt'
            · simp only [List.mem_singleton] at ha
              subst ha; exact hgt'
          · intro a ha
            exact sw.le_trans hlt' ((List.pairwise_cons.1 p2).1 a ha)
        have hmv : (Spec.ord false lt).move val xs (some q) x = some (s ++ x :: t) := by
          simp only [Spec.move, hlt', hgt', e3]; rfl
        have hpm : (s ++ x :: t).Perm xs := by
          rw [e]
          exact List.perm_middle.trans (by rw [← e2]; exact List.perm_middle.symm)
        rcases hc with ⟨rfl, rfl, hB⟩ | hB
        · refine ⟨h, _, ?_, hmv, by rw [← e]; exact hr, hso, hpm⟩
          simp only [ordRearranger, hlt', hgt', hinc, hB]
          simp
        · have hne : hdOr hd t ≠ x := by
            have hxn : x ∉ s ++ t := by
              rw [← e1]
              exact fun h => (hnx.mem_erase_iff.1 h).1 rfl
            cases t with
            | nil => exact hdx
            | cons y t =>
              intro h
              have h : y = x := h
              exact hxn (by simp [h])
          rw [e] at hr hn
          obtain ⟨h1, h2, k1, k2, k3⟩ := ord_move hr e2 hn
          refine ⟨h2, _, ?_, hmv, k3, hso, hpm⟩
          simp only [ordRearranger, hlt', hgt', hinc, hB]
          simp only [Bool.false_eq_true, if_false, ne_eq, hne, not_false_eq_true, if_true, k1, k2]

theorem ordPlace_spec {val : Id → V} {lt : V → V → Bool} {hd : Id} {n : Nat} (sw : StrictWeak lt) : ∀ (ins : List (Option Id × Id)) {h : Ord.Heap}
    {xs : List Id}, Ord.Rep h hd xs → Sorted (fun a b => lt (val a) (val b)) xs → (∀ i ∈ ins, i.2 ∈ xs ∧ ∀ q ∈ i.1, q ∈ xs ∧ q ≠ i.2) →
    xs.length + 3 ≤ n → 2 * Nat.log2 (xs.length + 1) + 2 ≤ n →
    ∃ h', Ord.Rep h' hd ((Spec.ord false lt).moves val xs ins).1 ∧ Sorted (fun a b => lt (val a) (val b)) ((Spec.ord false lt).moves val xs ins).1 ∧
      ((Spec.ord false lt).moves val xs ins).1.Perm xs ∧
      ordPlace n hd val lt h ins = if ((Spec.ord false lt).moves val xs ins).2 then .ok h' else .threw h'
  | [], h, xs, hr, hs, _, _, _ => ⟨h, hr, hs, .refl _, rfl⟩
  | (p, x) :: ins, h, xs, hr, hs, hi, hn, hl => by
    obtain ⟨hx, hp⟩ := hi (p, x) (by simp)
    rcases ordRearranger_spec sw hr hs hx hp hn hl with ⟨h1, ys, k1, k2, k3, k4, k5⟩ | ⟨k1, k2⟩
    · obtain ⟨h2, r1, r2, r3, r4⟩ := ordPlace_spec (n := n) sw ins k3 k4
        (fun i hii => ⟨k5.mem_iff.2 (hi i (by simp [hii])).1, fun q hq => ⟨k5.mem_iff.2 ((hi i (by simp [hii])).2 q hq).1, ((hi i (by simp [hii])).2 q hq).2⟩⟩)
        (by rw [k5.length_eq]; exact hn) (by rw [k5.length_eq]; exact hl)
      refine ⟨h2, ?_⟩
      simp only [Spec.moves, k2, ordPlace, k1]
      exact ⟨r1, r2, r3.trans k5, r4⟩
    · refine ⟨h, ?_⟩
      simp only [Spec.moves, k2, ordPlace, k1]
      exact ⟨hr, hs, .refl _, rfl⟩

theorem seqPlace_spec {hd : Id} (val : Id → V) : ∀ (ins : List (Option Id × Id)) {h : Seq.Heap} {xs : List Id}, Fam h [(hd, xs)] →
    (∀ i ∈ ins, i.2 ∈ xs ∧ ∀ q ∈ i.1, q ∈ xs ∧ q ≠ i.2) →
    Fam (ins.foldl (fun h i => seqRearranger h hd i.1 i.2) h) [(hd, ((Spec.seq : Spec V).moves val xs ins).1)] ∧
      ((Spec.seq : Spec V).moves val xs ins).1.Perm xs ∧ ((Spec.seq : Spec V).moves val xs ins).2 = true
  | [], h, xs, hf, _ => ⟨hf, .refl _, rfl⟩
  | (p, x) :: ins, h, xs, hf, hi => by
    obtain ⟨hx, hp⟩ := hi (p, x) (by simp)
    have hn := (List.nodup_cons.1 (hf.circ (a := hd) (xs := xs) (by simp)).1).2
    have pm := moveAfter_perm hn hx hp
    obtain ⟨r1, r2, r3⟩ := seqPlace_spec val ins (seqRearranger_spec hf hx hp)
      (fun i hii => ⟨pm.mem_iff.2 (hi i (by simp [hii])).1, fun q hq => ⟨pm.mem_iff.2 ((hi i (by simp [hii])).2 q hq).1, ((hi i (by simp [hii])).2 q hq).2⟩⟩)
    exact ⟨r1, r2.trans pm, r3⟩

theorem moves_fold (val : Id → V) : ∀ (ins : List (Option Id × Id)) (xs : List Id),
    (Spec.rnd : Spec V).moves val xs ins = (ins.foldl (fun l mv => moveAfter l mv.1 mv.2) xs, true)
  | [], _ => rfl
  | (p, x) :: ins, xs => moves_fold val ins (moveAfter xs p x)

theorem foldl_perm : ∀ (ins : List (Option Id × Id)) {xs : List Id}, xs.Nodup → (∀ i ∈ ins, i.2 ∈ xs ∧ ∀ q ∈ i.1, q ∈ xs ∧ q ≠ i.2) →
    (ins.foldl (fun l mv => moveAfter l mv.1 mv.2) xs).Perm xs
  | [], _, _, _ => .refl _
  | (p, x) :: ins, xs, hn, hi => by
    obtain ⟨hx, hp⟩ := hi (p, x) (by simp)
    have pm := moveAfter_perm hn hx hp
    exact (foldl_perm ins (pm.nodup_iff.2 hn)
      (fun i hii => ⟨pm.mem_iff.2 (hi i (by simp [hii])).1, fun q hq => ⟨pm.mem_iff.2 ((hi i (by simp [hii])).2 q hq).1, ((hi i (by simp [hii])).2 q hq).2⟩⟩)).trans pm

theorem moves_still (val : Id → V) (S : Spec V) (h : ∀ xs p x, S.move val xs p x = some xs) : ∀ (ins : List (Option Id × Id)) (xs : List Id),
    S.moves val xs ins = (xs, true)
  | [], _ => rfl
  | (p, x) :: ins, xs => by simp only [Spec.moves, h, moves_still val S h ins xs]

theorem log_budget4 (n : Nat) : 2 * Nat.log2 (n + 1) + 2 ≤ n + 4 := by
  have h0 : ∀ k, 2 * k ≤ 2 ^ k + 1 := fun k => by
    induction k with
    | zero => simp
    | succ k ih =>
      rcases Nat.eq_zero_or_pos k with rfl | hk
      · simp
      · have : 2 ^ 1 ≤ 2 ^ k := Nat.pow_le_pow_right (by omega) hk
        rw [Nat.pow_succ]; omega
  have h1 := h0 (Nat.log2 (n + 1))
  have h2 := Nat.log2_self_le (n := n + 1) (by omega)
  omega

/-- What `load_` does to one index, given the instructions. -/
theorem place_spec {L : Layer V} {val : Id → V} {hd : Id} {xs : List Id} {n : Nat} {fail : Bool} {ins : List (Option Id × Id)} (ok : L.spec.Ok)
    (w : L.Holds val hd xs) (hi : ∀ i ∈ ins, i.2 ∈ xs ∧ ∀ q ∈ i.1, q ∈ xs ∧ q ≠ i.2) (hn : xs.length + 3 ≤ n)
    (hl : 2 * Nat.log2 (xs.length + 1) + 2 ≤ n) :
    ∃ L' xs', L'.spec = L.spec ∧ L'.Holds val hd xs' ∧ xs'.Perm xs ∧ (∀ z, L.Avoids z → L'.Avoids z) ∧
      ((L.place n hd val fail ins = .ok L' ∧ L.spec.moves val xs ins = (xs', true)) ∨
       (L.place n hd val fail ins = .threw L' ∧ (L.spec.moves val xs ins = (xs', false) ∨ (xs' = xs ∧ fail = true)))) := by
  cases L with
  | ord u lt h =>
    cases u with
    | true => exact ⟨_, xs, rfl, w, .refl _, fun _ h => h, Or.inl ⟨rfl, moves_still _ _ (fun _ _ _ => rfl) _ _⟩⟩
    | false =>
      obtain ⟨hr, hs⟩ := w
      obtain ⟨h', r1, r2, r3, r4⟩ := ordPlace_spec (n := n) ok ins hr hs hi hn hl
      refine ⟨.ord false lt h', ((Spec.ord false lt).moves val xs ins).1, rfl, ⟨r1, r2⟩, r3, fun _ h => h, ?_⟩
      cases hm : ((Spec.ord false lt).moves val xs ins).2 with
      | true =>
        rw [hm] at r4
        exact Or.inl ⟨by simp only [Layer.place, r4, if_true], Prod.ext rfl hm⟩
      | false =>
        rw [hm] at r4
        exact Or.inr ⟨by simp only [Layer.place, r4, Bool.false_eq_true, if_false], Or.inl (Prod.ext rfl hm)⟩
  | hash => exact ⟨_, xs, rfl, w, .refl _, fun _ h => h, Or.inl ⟨rfl, moves_still _ _ (fun _ _ _ => rfl) _ _⟩⟩
  | seq h =>
    obtain ⟨r1, r2, r3⟩ := seqPlace_spec val ins (show Fam h [(hd, xs)] from w) hi
    exact ⟨.seq (ins.foldl (fun h (i : Option Id × Id) => seqRearranger h hd i.1 i.2) h), ((Spec.seq : Spec V).moves val xs ins).1, rfl, r1, r2, fun _ h => h, Or.inl ⟨rfl, Prod.ext rfl r3⟩⟩
  | rnd s =>
    by_cases hf : fail = true ∧ ins ≠ []
    · exact ⟨.rnd s, xs, rfl, w, .refl _, fun _ h => h, Or.inr ⟨by simp only [Layer.place, if_pos hf], Or.inr ⟨rfl, hf.1⟩⟩⟩
    · have hnd : xs.Nodup := (List.nodup_cons.1 (Layer.Holds.nodup (L := .rnd s) w)).2
      refine ⟨.rnd (Rnd.load s ins), _, rfl, Rnd.rep_load w ins hi, foldl_perm ins hnd hi, fun _ h => h, Or.inl ⟨by simp only [Layer.place, if_neg hf], moves_fold _ _ _⟩⟩

end MI.Cont
