import Verif.Safe.Checks
import Verif.Safe.ChecksSpec
import Verif.Safe.Reach
import Verif.Cont.ApiLemmas
import Verif.Cont.ApiLemmas2
/-!
Lemmas about the checks of safe mode.
-/
set_option linter.unusedVariables false
namespace MI.Cont
variable {V : Type}

theorem Layer.prev_spec {L : Layer V} {val : Id → V} {hd x : Id} {u v : List Id} {n : Nat} (w : L.Holds val hd (u ++ x :: v)) (hn : (u ++ x :: v).length + 3 ≤ n)
    (nh : ∀ g e hf, L.spec ≠ .hash g e hf) : L.prev n (v.headD hd) = some x := by
  cases L with
  | ord b lt h =>
    cases v with
    | nil =>
      have := Ord.decrement_end (N := n) w.1 (by simp)
      simpa [Layer.prev] using this
    | cons y v =>
      have := Ord.decrement_spec (N := n) (u := u ++ [x]) (x := y) (v := v) (by simpa using w.1) (by simp) (by simpa using hn)
      simpa [Layer.prev] using this
  | hash c eq hf pol ml h a => exact absurd rfl (nh _ _ _)
  | seq h =>
    have := (Seq.seg_split (h := h) (a := hd) (u := u ++ [x]) (v := v) (by simpa using (Seq.Fam.circ w (a := hd) (xs := u ++ x :: v) (by simp)).2)).2
    simpa [Layer.prev, Seq.Heap.decrement, Seq.lastOr, hdOr] using this
  | rnd s => exact congrArg some (Rnd.rep_decrement w)

theorem Layer.distance_spec {L : Layer V} {val : Id → V} {hd : Id} {u v u' v' : List Id} (w : L.Holds val hd (u ++ v)) (e : u ++ v = u' ++ v') (r : L.spec = .rnd) :
    L.distance (v.headD hd) (v'.headD hd) = some ((u'.length : Int) - u.length) := by
  cases L with
  | rnd s =>
    have w' : Rnd.Rep s hd (u' ++ v') := by rw [← e]; exact w
    have h1 := (Rnd.Rep.up_hdOr (u := u) (v := v) w).1
    have h2 := (Rnd.Rep.up_hdOr w').1
    unfold hdOr at h1 h2
    simp only [Layer.distance, Rnd.distance, h1, h2]
  | _ => exact nomatch r

theorem Layer.advance_spec {L : Layer V} {val : Id → V} {hd : Id} {u v u' v' : List Id} {d : Int} (w : L.Holds val hd (u ++ v)) (e : u ++ v = u' ++ v') (r : L.spec = .rnd)
    (hd' : (u'.length : Int) = u.length + d) : L.advance (v.headD hd) d = some (v'.headD hd) := by
  cases L with
  | rnd s =>
    have w' : Rnd.Rep s hd (u' ++ v') := by rw [← e]; exact w
    have h1 := (Rnd.Rep.up_hdOr (u := u) (v := v) w).1
    have h2 := (Rnd.Rep.up_hdOr w').2
    unfold hdOr at h1 h2
    simp only [Layer.advance, Rnd.advance, h1, ← hd', Int.toNat_natCast, h2]
  | _ => exact nomatch r

end MI.Cont

namespace MI.Safe
open MI MI.Cont
variable {V : Type} {s : State V}

theorem locate_none {a : Nat} : ∀ {sid : List (List Nat)}, a ∉ sid.flatten → locate a sid = none
  | [], _ => rfl
  | r :: rs, h => by
    simp only [List.flatten_cons, List.mem_append, not_or] at h
    unfold locate
    rw [List.idxOf?_eq_none_iff.2 h.1]
    simp only
    rw [locate_none h.2]; rfl

theorem locate_spec {a : Nat} : ∀ {sid : List (List Nat)} {i k : Nat}, sid.flatten.Nodup → (sid.getD i [])[k]? = some a → locate a sid = some (i, k)
  | [], i, k, _, h => by simp at h
  | r :: rs, 0, k, nd, h => by
    simp only [List.getD_cons_zero] at h
    simp only [List.flatten_cons, List.nodup_append] at nd
    unfold locate
    have hk := List.getElem?_eq_some_iff.1 h
    obtain ⟨hk, e⟩ := hk
    have : r.idxOf? a = some k := by
      rw [List.idxOf?_eq_some_iff]
      refine ⟨hk, e, fun j hj => ?_⟩
      intro q
      have := (List.Nodup.getElem_inj_iff nd.1 (hi := by omega) (hj := hk)).1 (q.trans e.symm)
      omega
    rw [this]
  | r :: rs, i + 1, k, nd, h => by
    simp only [List.getD_cons_succ] at h
    simp only [List.flatten_cons, List.nodup_append] at nd
    unfold locate
    have hm : a ∈ rs.flatten := by
      rw [List.getD_eq_getElem?_getD] at h
      cases e : rs[i]? with
      | none => rw [e] at h; simp at h
      | some l => rw [e] at h; exact List.mem_flatten.2 ⟨l, List.mem_of_getElem? e, List.mem_of_getElem? h⟩
    rw [List.idxOf?_eq_none_iff.2 fun q => nd.2.2 a q a hm rfl]
    simp only
    rw [locate_spec nd.2.1 h]; rfl

theorem stands_located {it i k : Nat} {u v : List Id} (I : SInv s) (h : s.Stands it i k u v) : Located s.w s.sid s.reg it i k := by
  obtain ⟨c, h1, h2, h3, h4⟩ := h
  obtain ⟨L, -, -, p, -⟩ := I.inv.seq h1 h3
  refine ⟨c, h1, h2, ?_⟩
  unfold Has
  rw [h4]
  cases v with
  | nil => simp
  | cons x v => exact List.mem_cons_of_mem _ (p.mem_iff.1 (by simp))

theorem located_stands {it i k : Nat} (I : SInv s) (h : Located s.w s.sid s.reg it i k) : ∃ u v, s.Stands it i k u v := by
  obtain ⟨c, h1, h2, h3⟩ := h
  have hk : k < c.ls.length := by rw [← I.shape.row i c h1]; exact (List.getElem?_eq_some_iff.1 h2).1
  obtain ⟨xs, hx⟩ : ∃ xs, c.seqs[k]? = some xs := by
    refine ⟨c.seqs[k]'(by simpa [Container.seqs] using hk), List.getElem?_eq_getElem _⟩
  obtain ⟨L, -, -, p, -⟩ := I.inv.seq h1 hx
  rcases List.mem_cons.1 h3 with e | e
  · exact ⟨xs, [], c, h1, h2, by simpa using hx, by simpa using e⟩
  · obtain ⟨u, v, rfl⟩ := List.append_of_mem (p.mem_iff.2 e)
    exact ⟨u, s.reg.node it :: v, c, h1, h2, hx, rfl⟩

theorem stands_owner {it i k : Nat} {u v : List Id} (I : SInv s) (h : s.Stands it i k u v) : s.owner it = some (i, k) := by
  obtain ⟨c, h1, h2, h3, h4⟩ := h
  exact locate_spec I.shape.nodup h2

theorem stands_valid {it i k : Nat} {u v : List Id} (I : SInv s) (h : s.Stands it i k u v) : s.valid it = true :=
  decide_eq_true ((stands_located I h).ne I.shape)

/-- What is known where an iterator stands. -/
theorem stands_view {it i k : Nat} {u v : List Id} (I : SInv s) (h : s.Stands it i k u v) : ∃ c L, s.w.cs[i]? = some c ∧ c.ls[k]? = some L ∧
    s.view it = some (c, L) ∧ L.Holds s.w.m.val c.hd (u ++ v) ∧ (u ++ v).length + 3 ≤ c.budget ∧ (c.hd :: (u ++ v)).Nodup ∧ s.reg.node it = v.headD c.hd ∧
    c.seqs[k]? = some (u ++ v) := by
  have ho := stands_owner I h
  obtain ⟨c, h1, h2, h3, h4⟩ := h
  obtain ⟨L, hL, a, -, b, -⟩ := I.inv.seq h1 h3
  refine ⟨c, L, h1, hL, ?_, a, b, I.inv.seq_nodup h1 h3, h4, h3⟩
  simp [State.view, ho, h1, hL]

theorem stands_unique {it i k j l : Nat} {u v u' v' : List Id} (I : SInv s) (h : s.Stands it i k u v) (h' : s.Stands it j l u' v') :
    i = j ∧ k = l ∧ u = u' ∧ v = v' := by
  have e := (stands_owner I h).symm.trans (stands_owner I h')
  simp only [Option.some.injEq, Prod.mk.injEq] at e
  obtain ⟨rfl, rfl⟩ := e
  obtain ⟨c, L, a1, -, -, -, -, nd, n1, q1⟩ := stands_view I h
  obtain ⟨c', L', a2, -, -, -, -, -, n2, q2⟩ := stands_view I h'
  obtain rfl := Option.some.inj (a1.symm.trans a2)
  have e := Option.some.inj (q1.symm.trans q2)
  refine ⟨rfl, rfl, ?_⟩
  rw [List.nodup_cons] at nd
  have : ∀ {a b c d : List Id} {z : Id}, z ∉ a ++ b → (a ++ b).Nodup → a ++ b = c ++ d → b.headD z = d.headD z → a.length ≤ c.length → a = c ∧ b = d := by
    intro a b p d z hz hn he hh hl
    rcases List.append_eq_append_iff.1 he with ⟨m, rfl, rfl⟩ | ⟨m, rfl, rfl⟩
    · cases m with
      | nil => simp
      | cons y m =>
        exfalso
        simp only [List.cons_append, List.headD_cons] at hh
        cases d with
        | nil => simp at hh; subst hh; simp at hz
        | cons y' d =>
          simp only [List.headD_cons] at hh
          subst hh
          have hn' := (List.nodup_append.1 hn).2.1
          simp at hn'
    · have : m = [] := by simp only [List.length_append] at hl; exact List.length_eq_zero_iff.1 (by omega)
      subst this; simp
  rcases Nat.le_total u.length u'.length with hl | hl
  · exact this nd.1 nd.2 e (n1.symm.trans n2) hl
  · have := this (by rw [← e]; exact nd.1) (by rw [← e]; exact nd.2) e.symm (n2.symm.trans n1) hl
    exact ⟨this.1.symm, this.2.symm⟩

theorem checked_cases {it : Nat} (I : SInv s) (hc : s.Checked it) : (s.Invalid it ∧ s.valid it = false) ∨ ∃ i k u v, s.Stands it i k u v := by
  by_cases e : s.reg.cont it = 0
  · left
    refine ⟨?_, by simp [State.valid, e]⟩
    unfold State.Invalid Reg.checkValid
    simp [e, hc.2]
  · right
    obtain ⟨i, k, L⟩ := I.loc it hc.1 e
    obtain ⟨u, v, h⟩ := located_stands I L
    exact ⟨i, k, u, v, h⟩

theorem stands_not_invalid {it i k : Nat} {u v : List Id} (I : SInv s) (h : s.Stands it i k u v) : s.reg.checkValid it = true := by
  have := stands_valid I h
  unfold Reg.checkValid
  simp only [State.valid, decide_eq_true_eq] at this
  simp [this]

theorem invalid_not_stands {it i k : Nat} {u v : List Id} (I : SInv s) (hv : s.valid it = false) : ¬ s.Stands it i k u v := fun h => by
  rw [stands_valid I h] at hv; exact nomatch hv

/-! ## The loops -/

theorem rangeLoop_spec {L : Layer V} {val : Id → V} {hd y : Id} {n : Nat} : ∀ {v : List Id} {m : Nat} {u : List Id}, L.Holds val hd (u ++ v) → (u ++ v).length + 3 ≤ n →
    v.length < m → rangeLoop n L hd y m (v.headD hd) = some (decide (y ∈ v))
  | [], m, u, w, hn, hm => by
    obtain ⟨m, rfl⟩ : ∃ k, m = k + 1 := ⟨m - 1, by simp at hm; omega⟩
    simp [rangeLoop]
  | x :: v, m, u, w, hn, hm => by
    obtain ⟨m, rfl⟩ : ∃ k, m = k + 1 := ⟨m - 1, by simp at hm; omega⟩
    have hx : x ≠ hd := by
      rintro rfl
      have := w.nodup
      simp at this
    show rangeLoop n L hd y (m + 1) x = _
    unfold rangeLoop
    rw [if_neg hx]
    by_cases e : x = y
    · subst e; simp
    · rw [if_neg e, Layer.next_spec w hn]
      have := rangeLoop_spec (y := y) (v := v) (m := m) (u := u ++ [x]) (by simpa using w) (by simpa using hn) (by simpa using hm)
      unfold hdOr
      simp only [this]
      simp [Ne.symm e]

/-- The range ends at `y`. -/
theorem outsideLoop_spec {L : Layer V} {val : Id → V} {hd z : Id} {n : Nat} {v : List Id} : ∀ {b : List Id} {m : Nat} {u : List Id} {found : Bool},
    L.Holds val hd (u ++ (b ++ v)) → (u ++ (b ++ v)).length + 3 ≤ n → b.length < m →
    outsideLoop n L hd (v.headD hd) z m ((b ++ v).headD hd) found = some (v.headD hd, found || decide (z ∈ b))
  | [], m, u, found, w, hn, hm => by
    obtain ⟨m, rfl⟩ : ∃ k, m = k + 1 := ⟨m - 1, by simp at hm; omega⟩
    simp [outsideLoop]
  | x :: b, m, u, found, w, hn, hm => by
    obtain ⟨m, rfl⟩ : ∃ k, m = k + 1 := ⟨m - 1, by simp at hm; omega⟩
    have nd := w.nodup
    have hx : x ≠ hd := by
      rintro rfl
      simp at nd
    have hx2 : x ≠ v.headD hd := by
      cases v with
      | nil => simpa using hx
      | cons y v =>
        rintro rfl
        have := (List.nodup_append.1 (List.nodup_cons.1 nd).2).2.1
        simp at this
    unfold outsideLoop
    simp only [List.cons_append, List.headD_cons, hx, hx2, if_false]
    have hnx := Layer.next_spec (L := L) (val := val) (hd := hd) (x := x) (u := u) (v := b ++ v) (by simpa using w) (by simpa using hn)
    rw [hnx]
    unfold hdOr
    simp only
    rw [outsideLoop_spec (u := u ++ [x]) (b := b) (m := m) (by simpa using w) (by simpa using hn) (by simpa using hm)]
    by_cases e : x = z
    · subst e; simp
    · simp [e, Ne.symm e]

/-- There is no `y` in the range: the loop gets to the end. -/
theorem outsideLoop_miss {L : Layer V} {val : Id → V} {hd y z : Id} {n : Nat} : ∀ {v : List Id} {m : Nat} {u : List Id} {found : Bool},
    L.Holds val hd (u ++ v) → (u ++ v).length + 3 ≤ n → v.length < m → y ∉ v →
    ∃ f, outsideLoop n L hd y z m (v.headD hd) found = some (hd, f)
  | [], m, u, found, w, hn, hm, hy => by
    obtain ⟨m, rfl⟩ : ∃ k, m = k + 1 := ⟨m - 1, by simp at hm; omega⟩
    simp [outsideLoop]
  | x :: v, m, u, found, w, hn, hm, hy => by
    obtain ⟨m, rfl⟩ : ∃ k, m = k + 1 := ⟨m - 1, by simp at hm; omega⟩
    simp only [List.mem_cons, not_or] at hy
    unfold outsideLoop
    have hx : x ≠ hd := by
      rintro rfl
      have := w.nodup
      simp at this
    simp only [List.headD_cons, hx, Ne.symm hy.1, if_false]
    rw [Layer.next_spec w hn]
    exact outsideLoop_miss (u := u ++ [x]) (by simpa using w) (by simpa using hn) (by simpa using hm) hy.2

/-! ## The checks, where the iterators stand -/

theorem headD_ne {v : List Id} {hd : Id} {u : List Id} (nd : (hd :: (u ++ v)).Nodup) : v.headD hd ≠ hd ↔ v ≠ [] := by
  cases v with
  | nil => simp
  | cons x v =>
    simp only [List.headD_cons, ne_eq, reduceCtorEq, not_false_eq_true, iff_true]
    rintro rfl
    simp at nd

theorem checkDeref_stands {it i k : Nat} {u v : List Id} (I : SInv s) (hc : s.Checked it) (h : s.Stands it i k u v) : s.checkDeref it = some (decide (v ≠ [])) := by
  obtain ⟨c, L, -, -, hv, -, -, nd, hx, -⟩ := stands_view I h
  unfold State.checkDeref
  rw [if_pos (stands_valid I h), hv, hc.2, hx]
  simp only [Option.map_some, Bool.or_false, Option.some.injEq]
  exact decide_eq_decide.2 (headD_ne nd)

theorem checkDecr_stands {it i k : Nat} {u v : List Id} (I : SInv s) (hc : s.Checked it) (h : s.Stands it i k u v) : s.checkDecr it = some (decide (u ≠ [])) := by
  obtain ⟨c, L, -, -, hv, hL, -, nd, hx, -⟩ := stands_view I h
  unfold State.checkDecr
  rw [if_pos (stands_valid I h), hv, hc.2, hx]
  simp only [Option.map_some, Bool.or_false, Option.some.injEq]
  refine decide_eq_decide.2 ?_
  rw [Layer.first_spec hL]
  unfold hdOr
  cases u with
  | nil => simp
  | cons y u =>
    simp only [List.cons_append, List.headD_cons, ne_eq, reduceCtorEq, not_false_eq_true, iff_true]
    intro e
    cases v with
    | nil => simp only [List.headD_nil] at e; subst e; simp at nd
    | cons x v => simp only [List.headD_cons] at e; subst e; simp at nd

theorem checkOwner_stands {it i k j l : Nat} {u v : List Id} (I : SInv s) (hc : s.Checked it) (h : s.Stands it i k u v) :
    s.checkOwner it j l = some (decide (i = j ∧ k = l)) := by
  unfold State.checkOwner
  rw [if_pos (stands_valid I h), stands_owner I h, hc.2]
  simp

theorem checkBelongs_stands {it i k j : Nat} {u v : List Id} (I : SInv s) (hc : s.Checked it) (h : s.Stands it i k u v) (hj : j < s.w.cs.length) :
    s.checkBelongs it j = some (decide (i = j)) := by
  obtain ⟨c, L, h1, -, hv, -⟩ := stands_view I h
  unfold State.checkBelongs
  obtain ⟨d, hd⟩ : ∃ d, s.w.cs[j]? = some d := ⟨_, List.getElem?_eq_getElem hj⟩
  rw [if_pos (stands_valid I h), hv, hc.2, hd]
  simp only [Bool.or_false, Option.some.injEq]
  refine decide_eq_decide.2 ⟨fun e => ?_, fun e => ?_⟩
  · exact Safe.owner I.inv h1 hd (z := c.hd) (by unfold Has; simp) (by unfold Has; simp [e])
  · subst e; rw [h1] at hd; rw [Option.some.inj hd]

theorem checkSame_stands {a b i k j l : Nat} {u v u' v' : List Id} (I : SInv s) (ha : s.Checked a) (hb : s.Checked b) (h : s.Stands a i k u v) (h' : s.Stands b j l u' v') :
    s.checkSame a b = some (decide (i = j ∧ k = l)) := by
  unfold State.checkSame
  rw [if_pos (by rw [stands_valid I h, stands_valid I h']; rfl), stands_owner I h, stands_owner I h', ha.2, hb.2]
  simp

/-- Two iterators of one index: one of them is before the other or where it is. -/
theorem two_cases {a b i k : Nat} {u v u' v' : List Id} (I : SInv s) (h : s.Stands a i k u v) (h' : s.Stands b i k u' v') :
    u ++ v = u' ++ v' ∧ ((∃ m, u' = u ++ m ∧ v = m ++ v') ∨ ∃ m, m ≠ [] ∧ u = u' ++ m ∧ v' = m ++ v) := by
  obtain ⟨c, L, a1, -, -, -, -, nd, n1, q1⟩ := stands_view I h
  obtain ⟨c', L', a2, -, -, -, -, -, n2, q2⟩ := stands_view I h'
  obtain rfl := Option.some.inj (a1.symm.trans a2)
  have e := Option.some.inj (q1.symm.trans q2)
  refine ⟨e, ?_⟩
  rcases List.append_eq_append_iff.1 e with ⟨m, e1, e2⟩ | ⟨m, e1, e2⟩
  · exact Or.inl ⟨m, e1, e2⟩
  · by_cases q : m = []
    · subst q; exact Or.inl ⟨[], by simpa using e1.symm, by simpa using e2.symm⟩
    · exact Or.inr ⟨m, q, e1, e2⟩

theorem checkRange_stands {a b i k : Nat} {u v u' v' : List Id} (I : SInv s) (ha : s.Checked a) (hb : s.Checked b) (h : s.Stands a i k u v) (h' : s.Stands b i k u' v') :
    s.checkRange a b = some (decide (u.length ≤ u'.length)) := by
  obtain ⟨e, hm⟩ := two_cases I h h'
  obtain ⟨c, L, a1, -, hv, hL, hn, nd, n1, q1⟩ := stands_view I h
  obtain ⟨c', L', a2, -, -, -, -, nd', n2, q2⟩ := stands_view I h'
  obtain rfl := Option.some.inj (a1.symm.trans a2)
  unfold State.checkRange
  rw [checkSame_stands I ha hb h h']
  simp only [true_and, decide_true, stands_valid I h, if_true, hv]
  by_cases q : v' = []
  · rw [if_pos (by rw [n2, q]; rfl)]
    have := congrArg List.length e
    rw [q] at this
    simp only [List.length_append, List.length_nil, Nat.add_zero] at this
    simp; omega
  · rw [if_neg (by rw [n2]; exact (headD_ne nd').2 q), n1, rangeLoop_spec hL hn (by simp only [List.length_append] at hn; omega)]
    simp only [Option.some.injEq]
    refine decide_eq_decide.2 ?_
    rw [n2]
    rcases hm with ⟨m, e1, e2⟩ | ⟨m, hm, e1, e2⟩
    · have h1 : v'.headD c.hd ∈ v := by
        cases v' with
        | nil => exact absurd rfl q
        | cons x v' => rw [e2]; simp
      simp only [h1, true_iff]
      rw [e1]; simp
    · have h1 : v'.headD c.hd ∉ v := by
        cases m with
        | nil => exact absurd rfl hm
        | cons x m =>
          rw [e2]
          rw [List.nodup_cons, e1] at nd
          have := nd.2
          rw [List.append_assoc, List.cons_append, List.nodup_append] at this
          simp only [List.cons_append, List.headD_cons]
          have := (List.nodup_cons.1 this.2.1).1
          simp only [List.mem_append, not_or] at this
          exact this.2
      simp only [h1, false_iff, not_le]
      rw [e1]
      have : 0 < m.length := List.length_pos_iff.2 hm
      simp; omega

/-- The loop and the test after it. -/
theorem outside_stands {a b i k : Nat} {u v u' v' : List Id} {z : Id} (I : SInv s) (h : s.Stands a i k u v) (h' : s.Stands b i k u' v') : ∃ c L, s.view a = some (c, L) ∧
    s.w.cs[i]? = some c ∧
    ∃ first found, outsideLoop c.budget L c.hd (s.reg.node b) z c.budget (s.reg.node a) false = some (first, found) ∧
      ((first = s.reg.node b ∧ found = false) ↔ ∃ m, u' = u ++ m ∧ v = m ++ v' ∧ z ∉ m) := by
  obtain ⟨e, hm⟩ := two_cases I h h'
  obtain ⟨c, L, a1, -, hv, hL, hn, nd, n1, q1⟩ := stands_view I h
  obtain ⟨c', L', a2, -, -, -, -, nd', n2, q2⟩ := stands_view I h'
  obtain rfl := Option.some.inj (a1.symm.trans a2)
  refine ⟨c, L, hv, a1, ?_⟩
  rcases hm with ⟨m, e1, e2⟩ | ⟨m, hm, e1, e2⟩
  · rw [n1, n2, e2, outsideLoop_spec (u := u) (by rw [← e2]; exact hL) (by rw [← e2]; exact hn) (by rw [e2] at hn; simp only [List.length_append] at hn; omega)]
    refine ⟨_, _, rfl, ?_⟩
    simp only [true_and, Bool.false_or, decide_eq_false_iff_not]
    constructor
    · intro q; exact ⟨m, e1, rfl, q⟩
    · rintro ⟨m', -, q2, q3⟩
      rwa [← List.append_cancel_right q2] at q3
  · have h1 : v'.headD c.hd ∉ v ∧ v'.headD c.hd ≠ c.hd := by
      cases m with
      | nil => exact absurd rfl hm
      | cons x m =>
        rw [e2]
        rw [List.nodup_cons, e1] at nd
        have := nd.2
        rw [List.append_assoc, List.cons_append, List.nodup_append] at this
        simp only [List.cons_append, List.headD_cons]
        have := (List.nodup_cons.1 this.2.1).1
        simp only [List.mem_append, not_or] at this
        refine ⟨this.2, ?_⟩
        rintro rfl
        exact nd.1 (by simp)
    obtain ⟨f, hf⟩ := outsideLoop_miss (z := z) (found := false) (m := c.budget) hL hn (by simp only [List.length_append] at hn; omega) h1.1
    rw [n1, n2, hf]
    refine ⟨_, _, rfl, ?_⟩
    constructor
    · rintro ⟨q, -⟩; exact absurd q.symm h1.2
    · rintro ⟨m', q1, -, -⟩
      have : 0 < m.length := List.length_pos_iff.2 hm
      have := congrArg List.length q1
      rw [e1] at this
      simp only [List.length_append] at this; omega

theorem checkOutside_stands {it a b i k : Nat} {u v u' v' : List Id} (I : SInv s) (ha : s.Checked a) (hb : s.Checked b)
    (h : s.Stands a i k u v) (h' : s.Stands b i k u' v') : ∃ r, s.checkOutside it a b = some r ∧
      (r = true ↔ ∃ m, u' = u ++ m ∧ v = m ++ v' ∧ s.reg.node it ∉ m) := by
  obtain ⟨c, L, hv, -, first, found, e, hr⟩ := outside_stands (z := s.reg.node it) I h h'
  unfold State.checkOutside
  rw [checkSame_stands I ha hb h h']
  simp only [true_and, decide_true, stands_valid I h, if_true, hv, e]
  by_cases q : first = s.reg.node b
  · rw [if_neg (by simpa using q)]
    refine ⟨_, rfl, ?_⟩
    rw [← hr]
    simp [q]
  · rw [if_pos q]
    refine ⟨_, rfl, ?_⟩
    rw [← hr]
    simp [q]

theorem checkOutside2_stands {it a b i k j l : Nat} {u v u' v' p q : List Id} (I : SInv s) (h0 : s.Stands it j l p q)
    (h : s.Stands a i k u v) (h' : s.Stands b i k u' v') : ∃ r, s.checkOutside2 it a b = some r ∧
      (r = true ↔ q = [] ∨ ∃ m, u' = u ++ m ∧ v = m ++ v' ∧ s.reg.node it ∉ m) := by
  obtain ⟨d, M, -, -, hv0, -, -, nd0, n0, -⟩ := stands_view I h0
  obtain ⟨c, L, hv, -, first, found, e, hr⟩ := outside_stands (z := s.reg.node it) I h h'
  unfold State.checkOutside2
  simp only [stands_valid I h0, stands_valid I h, if_true, hv0, hv, e, and_true]
  by_cases hq : q = []
  · rw [if_neg (by rw [n0, hq]; simp)]
    exact ⟨true, rfl, by simp [hq]⟩
  · rw [if_pos (by rw [n0]; exact (headD_ne nd0).2 hq)]
    by_cases q : first = s.reg.node b
    · rw [if_neg (by simpa using q)]
      refine ⟨_, rfl, ?_⟩
      rw [← hr]
      simp [q, hq]
    · rw [if_pos q]
      refine ⟨_, rfl, ?_⟩
      rw [← hr]
      simp [q, hq]

theorem checkBounds_stands {it i k : Nat} {u v : List Id} {d : Int} {c : Container V} (I : SInv s) (hc : s.Checked it) (h : s.Stands it i k u v)
    (hi : s.w.cs[i]? = some c) (hS : c.asked[k]? = some .rnd) : s.checkBounds it d = some (decide (-(u.length : Int) ≤ d ∧ d ≤ v.length)) := by
  obtain ⟨c', L, h1, hk, hv, hL, -, nd, hx, -⟩ := stands_view I h
  obtain rfl := Option.some.inj (hi.symm.trans h1)
  have hr : L.spec = .rnd := by
    unfold Container.asked at hS
    rw [List.getElem?_map, hk] at hS
    exact Option.some.inj hS
  unfold State.checkBounds
  rw [hc.2, stands_valid I h, hv]
  simp only [Bool.false_eq_true, if_false, not_true_eq_false]
  have e1 := Layer.distance_spec (u := u) (v := v) (u' := u ++ v) (v' := []) hL (by simp) hr
  have e2 := Layer.distance_spec (u := u) (v := v) (u' := []) (v' := u ++ v) hL (by simp) hr
  rw [Layer.first_spec hL, hx]
  unfold hdOr
  simp only [List.headD_nil] at e1
  rw [e1, e2]
  simp only [List.length_append, List.length_nil, Option.map_some]
  split
  · simp only [Option.some.injEq]
    refine decide_eq_decide.2 ?_
    push_cast
    omega
  · simp only [Option.some.injEq]
    refine decide_eq_decide.2 ?_
    push_cast
    omega

theorem asked_get {c : Container V} {k : Nat} {L : Layer V} {S : Spec V} (hL : c.ls[k]? = some L) (hS : c.asked[k]? = some S) : L.spec = S := by
  unfold Container.asked at hS
  rw [List.getElem?_map, hL] at hS
  exact Option.some.inj hS

end MI.Safe
