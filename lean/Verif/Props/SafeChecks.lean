import Verif.Safe.ChecksLemmas
import Verif.Safe.Example
import Verif.Props.Safe
/-!
# C57: the checks of safe mode

`State.Stands` (`Verif/Safe/ChecksSpec.lean`) says where an iterator is: in which index of which container, and between which elements. The model of the checks
is in `Verif/Safe/Checks.lean`.
-/
set_option linter.unusedVariables false
namespace MI.Safe
open MI MI.Cont
variable {V : Type} {s : State V}

namespace Ex
/-- Iterators of the example state: 102 stands at the second element of the random access index of container 0, 101 and 103 at the two elements of the ordered
index, 104 at the end of the sequenced index; 105 at the element of the sequenced index of container 1. -/
theorem at101 : s3.Stands 101 0 0 [] [12, 11] := ⟨_, rfl, by decide +kernel⟩
theorem at102 : s3.Stands 102 0 3 [11] [12] := ⟨_, rfl, by decide +kernel⟩
theorem at103 : s3.Stands 103 0 0 [12] [11] := ⟨_, rfl, by decide +kernel⟩
theorem at104 : s3.Stands 104 0 2 [11, 12] [] := ⟨_, rfl, by decide +kernel⟩
theorem at105 : s3.Stands 105 1 2 [] [16] := ⟨_, rfl, by decide +kernel⟩
theorem bad107 : s3.Invalid 107 := by decide +kernel
theorem ck {it : Nat} (h : it ∈ [101, 102, 103, 104, 105, 106, 107]) : s3.Checked it := s3_checked it h
end Ex
open Ex


/-- C57: an iterator that was not loaded from an archive either is reported invalid or stands at a place of some index, exactly one. -/
theorem C57_place (r : SReach s) {it : Nat} (hc : s.Checked it) :
    (s.Invalid it ∧ ¬ ∃ i k u v, s.Stands it i k u v) ∨ (¬ s.Invalid it ∧ ∃ i k u v, s.Stands it i k u v ∧
      ∀ i' k' u' v', s.Stands it i' k' u' v' → i' = i ∧ k' = k ∧ u' = u ∧ v' = v) := by
  rcases checked_cases r.sinv hc with ⟨h1, h2⟩ | ⟨i, k, u, v, h⟩
  · exact Or.inl ⟨h1, fun ⟨i, k, u, v, h⟩ => invalid_not_stands r.sinv h2 h⟩
  · refine Or.inr ⟨fun q => ?_, i, k, u, v, h, fun i' k' u' v' h' => stands_unique r.sinv h' h⟩
    unfold State.Invalid at q
    rw [stands_not_invalid r.sinv h] at q
    exact nomatch q

example : ¬ s3.Invalid 103 ∧ ∀ i k u v, s3.Stands 103 i k u v → i = 0 ∧ k = 0 ∧ u = [12] ∧ v = [11] := by
  rcases C57_place s3_reach (ck (it := 103) (by decide)) with ⟨-, h⟩ | ⟨h, i, k, u, v, h1, h2⟩
  · exact absurd ⟨_, _, _, _, at103⟩ h
  · obtain ⟨rfl, rfl, rfl, rfl⟩ := h2 _ _ _ _ at103
    exact ⟨h, h2⟩

theorem not_stands (r : SReach s) {it : Nat} (hc : s.Checked it) (hi : s.Invalid it) {i k : Nat} {u v : List Id} : ¬ s.Stands it i k u v := fun h => by
  rcases C57_place r hc with ⟨-, q⟩ | ⟨q, -⟩
  · exact q ⟨i, k, u, v, h⟩
  · exact q hi

/-- C57: `*it` reports an error exactly if the iterator is invalid or the end iterator; otherwise it gives the element the iterator stands at. -/
theorem C57_deref (r : SReach s) {it : Nat} (hc : s.Checked it) :
    (s.Invalid it → s.deref it = some (.error .invalidIterator)) ∧
    ∀ i k u v, s.Stands it i k u v → s.deref it = some (match v with | [] => .error .notDereferenceable | x :: _ => .ok (s.w.m.val x)) := by
  refine ⟨fun h => ?_, fun i k u v h => ?_⟩
  · unfold State.Invalid at h
    simp [State.deref, State.guard, State.holds, h, Check.err]
  · obtain ⟨c, L, -, -, -, -, -, -, hx, -⟩ := stands_view r.sinv h
    cases v with
    | nil => simp [State.deref, State.guard, State.holds, stands_not_invalid r.sinv h, checkDeref_stands r.sinv hc h, Check.err]
    | cons x v =>
      simp only [List.headD_cons] at hx
      simp [State.deref, State.guard, State.holds, stands_not_invalid r.sinv h, checkDeref_stands r.sinv hc h, hx]

example : s3.deref 107 = some (.error .invalidIterator) ∧ s3.deref 104 = some (.error .notDereferenceable) ∧ s3.deref 101 = some (.ok (s3.w.m.val 12)) ∧
    s3.w.m.val 12 = (1, 5) :=
  ⟨(C57_deref s3_reach (ck (it := 107) (by decide))).1 bad107, (C57_deref s3_reach (ck (it := 104) (by decide))).2 _ _ _ _ at104, (C57_deref s3_reach (ck (it := 101) (by decide))).2 _ _ _ _ at101, by decide +kernel⟩

/-- The state after an iterator has moved is one the program can be in. -/
theorem goTo_reach (r : SReach s) {it i k : Nat} {u v u' v' : List Id} {c : Container V} (hc : s.Checked it) (h : s.Stands it i k u v) (hi : s.w.cs[i]? = some c)
    (e : u ++ v = u' ++ v') : Moved s (s.goTo it (v'.headD c.hd)) it ∧ (s.goTo it (v'.headD c.hd)).Stands it i k u' v' ∧ SReach (s.goTo it (v'.headD c.hd)) := by
  have hL := stands_located r.sinv h
  obtain ⟨c', a1, a2, a3, a4⟩ := h
  obtain rfl := Option.some.inj (hi.symm.trans a1)
  refine ⟨⟨rfl, rfl, rfl, rfl, rfl, fun y hy => upd_other _ _ hy⟩, ⟨c, hi, a2, by rw [← e]; exact a3, upd_same _ _ _⟩, ?_⟩
  refine .step (o := .it (.move it (v'.headD c.hd))) r ⟨hc.1, i, k, c, hi, a2, ?_⟩ (Or.inl rfl)
  obtain ⟨L, -, -, p, -⟩ := r.sinv.inv.seq hi a3
  cases v' with
  | nil => simp
  | cons x v' => exact List.mem_cons_of_mem _ (p.mem_iff.1 (by rw [e]; simp))

/-- C57: `++it` reports an error exactly if the iterator is invalid or the end iterator; otherwise the iterator is then past the element it was at, and nothing
else has changed. -/
theorem C57_increment (r : SReach s) {it : Nat} (hc : s.Checked it) :
    (s.Invalid it → s.incr it = some (.error .invalidIterator)) ∧
    (∀ i k u, s.Stands it i k u [] → s.incr it = some (.error .notIncrementable)) ∧
    ∀ i k u x v, s.Stands it i k u (x :: v) → ∃ s', s.incr it = some (.ok s') ∧ s'.Stands it i k (u ++ [x]) v ∧ Moved s s' it ∧ SReach s' := by
  refine ⟨fun h => ?_, fun i k u h => ?_, fun i k u x v h => ?_⟩
  · unfold State.Invalid at h
    simp [State.incr, State.guard, State.holds, h, Check.err]
  · simp [State.incr, State.guard, State.holds, stands_not_invalid r.sinv h, checkDeref_stands r.sinv hc h, Check.err]
  · obtain ⟨c, L, hi, -, hv, hL, hn, -, hx, -⟩ := stands_view r.sinv h
    obtain ⟨q1, q2, q3⟩ := goTo_reach (u' := u ++ [x]) (v' := v) r hc h hi (by simp)
    refine ⟨_, ?_, q2, q1, q3⟩
    simp only [List.headD_cons] at hx
    have := Layer.next_spec hL hn
    unfold hdOr at this
    simp [State.incr, State.guard, State.holds, stands_not_invalid r.sinv h, checkDeref_stands r.sinv hc h, hv, hx, this]

example : s3.incr 104 = some (.error .notIncrementable) ∧ ∃ s', s3.incr 101 = some (.ok s') ∧ s'.Stands 101 0 0 [12] [11] :=
  ⟨(C57_increment s3_reach (ck (it := 104) (by decide))).2.1 _ _ _ at104, by
    obtain ⟨s', h1, h2, -⟩ := (C57_increment s3_reach (ck (it := 101) (by decide))).2.2 _ _ _ _ _ at101
    exact ⟨s', h1, h2⟩⟩

/-- C57: `--it` (not for hashed indices) reports an error exactly if the iterator is invalid or at the beginning; otherwise the iterator is then at the element
before the one it was at, and nothing else has changed. -/
theorem C57_decrement (r : SReach s) {it : Nat} (hc : s.Checked it) :
    (s.Invalid it → s.decr it = some (.error .invalidIterator)) ∧
    (∀ i k v, s.Stands it i k [] v → s.decr it = some (.error .notDecrementable)) ∧
    ∀ i k u x v c S, s.Stands it i k (u ++ [x]) v → s.w.cs[i]? = some c → c.asked[k]? = some S → (∀ g e f, S ≠ .hash g e f) →
      ∃ s', s.decr it = some (.ok s') ∧ s'.Stands it i k u (x :: v) ∧ Moved s s' it ∧ SReach s' := by
  refine ⟨fun h => ?_, fun i k u h => ?_, fun i k u x v c S h hi hS nh => ?_⟩
  · unfold State.Invalid at h
    simp [State.decr, State.guard, State.holds, h, Check.err]
  · simp [State.decr, State.guard, State.holds, stands_not_invalid r.sinv h, checkDecr_stands r.sinv hc h, Check.err]
  · obtain ⟨c', L, hi', hk, hv, hL, hn, -, hx, -⟩ := stands_view r.sinv h
    obtain rfl := Option.some.inj (hi.symm.trans hi')
    obtain ⟨q1, q2, q3⟩ := goTo_reach (u' := u) (v' := x :: v) r hc h hi (by simp)
    refine ⟨_, ?_, q2, q1, q3⟩
    have := Layer.prev_spec (L := L) (x := x) (u := u) (v := v) (n := c.budget) (by simpa using hL) (by simpa using hn)
      (by rw [asked_get hk hS]; exact nh)
    simp only [List.headD_cons]
    simp only [State.decr, State.guard, State.holds, stands_not_invalid r.sinv h, checkDecr_stands r.sinv hc h, hv, hx, this]
    simp

example : s3.decr 101 = some (.error .notDecrementable) ∧ ∃ s', s3.decr 104 = some (.ok s') ∧ s'.Stands 104 0 2 [11] [12] :=
  ⟨(C57_decrement s3_reach (ck (it := 101) (by decide))).2.1 _ _ _ at101, by
    obtain ⟨s', h1, h2, -⟩ := (C57_decrement s3_reach (ck (it := 104) (by decide))).2.2 0 2 [11] 12 [] _ .seq at104 rfl rfl (fun _ _ _ h => nomatch h)
    exact ⟨s', h1, h2⟩⟩

/-- C57: `it+=d` for an iterator of a random access index reports an error exactly if the iterator is invalid or would get before the beginning or past the end;
otherwise the iterator then stands `d` elements further on (back, if negative), and nothing else has changed. -/
theorem C57_advance (r : SReach s) {it : Nat} {d : Int} (hc : s.Checked it) :
    (s.Invalid it → s.advance it d = some (.error .invalidIterator)) ∧
    ∀ i k u v c, s.Stands it i k u v → s.w.cs[i]? = some c → c.asked[k]? = some .rnd →
      (¬ (-(u.length : Int) ≤ d ∧ d ≤ v.length) → s.advance it d = some (.error .outOfBounds)) ∧
      (-(u.length : Int) ≤ d ∧ d ≤ v.length → ∃ s' u' v', s.advance it d = some (.ok s') ∧ u' ++ v' = u ++ v ∧ (u'.length : Int) = u.length + d ∧
        s'.Stands it i k u' v' ∧ Moved s s' it ∧ SReach s') := by
  refine ⟨fun h => ?_, fun i k u v c h hi hS => ⟨fun hb => ?_, fun hb => ?_⟩⟩
  · unfold State.Invalid at h
    simp [State.advance, State.guard, State.holds, h, Check.err]
  · simp only [State.advance, State.guard, State.holds, stands_not_invalid r.sinv h, checkBounds_stands r.sinv hc h hi hS, Check.err, decide_eq_false hb]
  · obtain ⟨c', L, hi', hk, hv, hL, hn, -, hx, -⟩ := stands_view r.sinv h
    obtain rfl := Option.some.inj (hi.symm.trans hi')
    have e : u ++ v = (u ++ v).take ((u.length : Int) + d).toNat ++ (u ++ v).drop ((u.length : Int) + d).toNat := (List.take_append_drop _ _).symm
    have hl : (((u ++ v).take ((u.length : Int) + d).toNat).length : Int) = u.length + d := by
      rw [List.length_take, List.length_append]
      omega
    obtain ⟨q1, q2, q3⟩ := goTo_reach r hc h hi e
    refine ⟨_, _, _, ?_, e.symm, hl, q2, q1, q3⟩
    have := Layer.advance_spec hL e (asked_get hk hS) hl
    simp only [State.advance, State.guard, State.holds, stands_not_invalid r.sinv h, checkBounds_stands r.sinv hc h hi hS, decide_eq_true hb, hv, hx, this]
    simp

example : s3.advance 102 2 = some (.error .outOfBounds) ∧ s3.advance 102 (-2) = some (.error .outOfBounds) ∧ ∃ s' u v, s3.advance 102 (-1) = some (.ok s') ∧
    s'.Stands 102 0 3 u v ∧ u.length = 0 :=
  ⟨((C57_advance s3_reach (ck (it := 102) (by decide))).2 _ _ _ _ _ at102 rfl rfl).1 (by decide), ((C57_advance s3_reach (ck (it := 102) (by decide))).2 _ _ _ _ _ at102 rfl rfl).1 (by decide), by
    obtain ⟨s', u, v, h1, h2, h3, h4, -⟩ := ((C57_advance (d := -1) s3_reach (ck (it := 102) (by decide))).2 _ _ _ _ _ at102 rfl rfl).2 (by decide)
    refine ⟨s', u, v, h1, h4, ?_⟩
    simp at h3
    simp [h3]⟩

/-- C57: comparing two iterators reports an error exactly if one of them is invalid or they belong to different indices; otherwise the result tells whether they
stand at the same place. -/
theorem C57_equal (r : SReach s) {a b : Nat} (ha : s.Checked a) (hb : s.Checked b) :
    (s.Invalid a ∨ s.Invalid b → s.equal a b = some (.error .invalidIterator)) ∧
    ∀ i k j l u v u' v', s.Stands a i k u v → s.Stands b j l u' v' →
      s.equal a b = some (if i = j ∧ k = l then .ok (decide (u.length = u'.length)) else .error .notSameOwner) := by
  refine ⟨fun h => ?_, fun i k j l u v u' v' h h' => ?_⟩
  · rcases C57_place r ha with ⟨q, -⟩ | ⟨q, i, k, u, v, h1, -⟩
    · unfold State.Invalid at q
      simp [State.equal, State.guard, State.holds, q, Check.err]
    · have h2 : s.Invalid b := h.resolve_left q
      unfold State.Invalid at h2
      simp [State.equal, State.guard, State.holds, stands_not_invalid r.sinv h1, h2, Check.err]
  · simp only [State.equal, State.guard, State.holds, stands_not_invalid r.sinv h, stands_not_invalid r.sinv h', checkSame_stands r.sinv ha hb h h', Check.err]
    by_cases e : i = j ∧ k = l
    · rw [if_pos e, decide_eq_true e]
      simp only [Option.some.injEq, Except.ok.injEq]
      obtain ⟨rfl, rfl⟩ := e
      refine decide_eq_decide.2 ?_
      obtain ⟨e, hm⟩ := two_cases r.sinv h h'
      obtain ⟨c, L, a1, -, -, -, -, nd, n1, q1⟩ := stands_view r.sinv h
      obtain ⟨c', L', a2, -, -, -, -, nd', n2, q2⟩ := stands_view r.sinv h'
      obtain rfl := Option.some.inj (a1.symm.trans a2)
      rw [n1, n2]
      constructor
      · intro q
        have : s.Stands a i k u' v' := ⟨c, a1, by obtain ⟨_, _, x, _⟩ := h; exact x, q2, n1.trans q⟩
        rw [(stands_unique r.sinv h this).2.2.1]
      · intro q
        rw [(List.append_inj e q).2]
    · rw [if_neg e, decide_eq_false e]

example : s3.equal 101 103 = some (.ok false) ∧ s3.equal 101 102 = some (.error .notSameOwner) ∧ s3.equal 101 107 = some (.error .invalidIterator) :=
  ⟨(C57_equal s3_reach (ck (it := 101) (by decide)) (ck (it := 103) (by decide))).2 _ _ _ _ _ _ _ _ at101 at103, (C57_equal s3_reach (ck (it := 101) (by decide)) (ck (it := 102) (by decide))).2 _ _ _ _ _ _ _ _ at101 at102,
    (C57_equal s3_reach (ck (it := 101) (by decide)) (ck (it := 107) (by decide))).1 (Or.inr bad107)⟩

/-- C57: `b-a` for iterators of random access indices. -/
theorem C57_minus (r : SReach s) {a b : Nat} (ha : s.Checked a) (hb : s.Checked b) :
    (s.Invalid a ∨ s.Invalid b → s.minus a b = some (.error .invalidIterator)) ∧
    ∀ i k j l u v u' v' c, s.Stands a i k u v → s.Stands b j l u' v' → s.w.cs[i]? = some c → c.asked[k]? = some .rnd →
      s.minus a b = some (if i = j ∧ k = l then .ok ((u'.length : Int) - u.length) else .error .notSameOwner) := by
  refine ⟨fun h => ?_, fun i k j l u v u' v' c h h' hi hS => ?_⟩
  · rcases C57_place r ha with ⟨q, -⟩ | ⟨q, i, k, u, v, h1, -⟩
    · unfold State.Invalid at q
      simp [State.minus, State.guard, State.holds, q, Check.err]
    · have h2 : s.Invalid b := h.resolve_left q
      unfold State.Invalid at h2
      simp [State.minus, State.guard, State.holds, stands_not_invalid r.sinv h1, h2, Check.err]
  · simp only [State.minus, State.guard, State.holds, stands_not_invalid r.sinv h, stands_not_invalid r.sinv h', checkSame_stands r.sinv ha hb h h', Check.err]
    by_cases e : i = j ∧ k = l
    · rw [if_pos e, decide_eq_true e]
      obtain ⟨rfl, rfl⟩ := e
      obtain ⟨e, hm⟩ := two_cases r.sinv h h'
      obtain ⟨c1, L, a1, hk, hv, hL, -, -, n1, -⟩ := stands_view r.sinv h
      obtain ⟨c2, L', a2, -, -, -, -, -, n2, -⟩ := stands_view r.sinv h'
      obtain rfl := Option.some.inj (hi.symm.trans a1)
      obtain rfl := Option.some.inj (hi.symm.trans a2)
      simp only [hv, n1, n2, Layer.distance_spec hL e (asked_get hk hS), Option.map_some]
    · rw [if_neg e, decide_eq_false e]

example : s3.minus 102 102 = some (.ok 0) ∧ s3.minus 102 105 = some (.error .notSameOwner) :=
  ⟨(C57_minus s3_reach (ck (it := 102) (by decide)) (ck (it := 102) (by decide))).2 _ _ _ _ _ _ _ _ _ at102 at102 rfl rfl, (C57_minus s3_reach (ck (it := 102) (by decide)) (ck (it := 105) (by decide))).2 _ _ _ _ _ _ _ _ _ at102 at105 rfl rfl⟩

/-! ## Arguments of member functions -/

/-- C57: an iterator given to a member function of index `k` of container `i` that needs an element (`erase`, `extract`, `replace`, `modify`) passes the checks
exactly if it refers to an element of that container and belongs to that index. -/
theorem C57_element (r : SReach s) {it i k : Nat} (hc : s.Checked it) :
    ∃ o, s.guard (elementGuard it i k) = some o ∧ (o = none ↔ ∃ u x v, s.Stands it i k u (x :: v)) := by
  rcases C57_place r hc with ⟨h, -⟩ | ⟨-, j, l, u, v, h, hu⟩
  · refine ⟨some .invalidIterator, ?_, ?_⟩
    · have q := h
      unfold State.Invalid at q
      simp [elementGuard, State.guard, State.holds, q, Check.err]
    · simp only [reduceCtorEq, false_iff]
      rintro ⟨u, x, v, q⟩
      exact not_stands r hc h q
  · simp only [elementGuard, State.guard, State.holds, stands_not_invalid r.sinv h, checkDeref_stands r.sinv hc h, checkOwner_stands r.sinv hc h, Check.err]
    cases v with
    | nil =>
      refine ⟨some .notDereferenceable, by simp, ?_⟩
      simp only [reduceCtorEq, false_iff]
      rintro ⟨u', x, v, q⟩
      exact nomatch (hu _ _ _ _ q).2.2.2
    | cons x v =>
      by_cases e : j = i ∧ l = k
      · refine ⟨none, by simp [e], ?_⟩
        obtain ⟨rfl, rfl⟩ := e
        exact ⟨fun _ => ⟨u, x, v, h⟩, fun _ => rfl⟩
      · refine ⟨some .notOwner, by simp [decide_eq_false e], ?_⟩
        simp only [reduceCtorEq, false_iff]
        rintro ⟨u', x', v', q⟩
        have := hu _ _ _ _ q
        exact e ⟨this.1.symm, this.2.1.symm⟩

example : s3.guard (elementGuard 101 0 0) = some none ∧ s3.guard (elementGuard 104 0 2) ≠ some none ∧ s3.guard (elementGuard 105 0 2) ≠ some none := by
  refine ⟨?_, fun h => ?_, fun h => ?_⟩
  · obtain ⟨o, h1, h2⟩ := C57_element (i := 0) (k := 0) s3_reach (ck (it := 101) (by decide))
    rw [h1, h2.2 ⟨_, _, _, at101⟩]
  · obtain ⟨o, h1, h2⟩ := C57_element (i := 0) (k := 2) s3_reach (ck (it := 104) (by decide))
    obtain ⟨u, x, v, q⟩ := h2.1 (Option.some.inj (h1.symm.trans h))
    exact nomatch (stands_unique s3_reach.sinv q at104).2.2.2
  · obtain ⟨o, h1, h2⟩ := C57_element (i := 0) (k := 2) s3_reach (ck (it := 105) (by decide))
    obtain ⟨u, x, v, q⟩ := h2.1 (Option.some.inj (h1.symm.trans h))
    exact nomatch (stands_unique s3_reach.sinv q at105).1

/-- C57: a position or hint passes the checks exactly if it belongs to the index. -/
theorem C57_position (r : SReach s) {it i k : Nat} (hc : s.Checked it) :
    ∃ o, s.guard (positionGuard it i k) = some o ∧ (o = none ↔ ∃ u v, s.Stands it i k u v) := by
  rcases C57_place r hc with ⟨h, -⟩ | ⟨-, j, l, u, v, h, hu⟩
  · refine ⟨some .invalidIterator, ?_, ?_⟩
    · have q := h
      unfold State.Invalid at q
      simp [positionGuard, State.guard, State.holds, q, Check.err]
    · simp only [reduceCtorEq, false_iff]
      rintro ⟨u, v, q⟩
      exact not_stands r hc h q
  · simp only [positionGuard, State.guard, State.holds, stands_not_invalid r.sinv h, checkOwner_stands r.sinv hc h, Check.err]
    by_cases e : j = i ∧ l = k
    · refine ⟨none, by simp [e], ?_⟩
      obtain ⟨rfl, rfl⟩ := e
      exact ⟨fun _ => ⟨u, v, h⟩, fun _ => rfl⟩
    · refine ⟨some .notOwner, by simp [decide_eq_false e], ?_⟩
      simp only [reduceCtorEq, false_iff]
      rintro ⟨u', v', q⟩
      have := hu _ _ _ _ q
      exact e ⟨this.1.symm, this.2.1.symm⟩

example : s3.guard (positionGuard 104 0 2) = some none := by
  obtain ⟨o, h1, h2⟩ := C57_position (i := 0) (k := 2) s3_reach (ck (it := 104) (by decide))
  rw [h1, h2.2 ⟨_, _, at104⟩]

/-- Checks made one after the other. -/
theorem guard_append (ks ls : List Check) : s.guard (ks ++ ls) = match s.guard ks with | some none => s.guard ls | o => o := by
  induction ks with
  | nil => simp [State.guard]
  | cons k ks ih =>
    simp only [List.cons_append, State.guard]
    cases s.holds k with
    | none => rfl
    | some b =>
      cases b with
      | false => rfl
      | true => simp only [ih]

/-- The checks of two iterators that belong to index `k` of container `i`. -/
theorem pair_guard (r : SReach s) {a b i k : Nat} (ha : s.Checked a) (hb : s.Checked b) :
    ∃ o, s.guard [.valid a, .valid b, .owner a i k, .owner b i k] = some o ∧ (o = none ↔ (∃ u v, s.Stands a i k u v) ∧ ∃ u v, s.Stands b i k u v) := by
  rcases C57_place r ha with ⟨h, -⟩ | ⟨-, j, l, u, v, h, hu⟩
  · refine ⟨some .invalidIterator, ?_, ?_⟩
    · have q := h
      unfold State.Invalid at q
      simp [State.guard, State.holds, q, Check.err]
    · simp only [reduceCtorEq, false_iff]
      rintro ⟨⟨u, v, q⟩, -⟩
      exact not_stands r ha h q
  · rcases C57_place r hb with ⟨h', -⟩ | ⟨-, j', l', u', v', h', hu'⟩
    · refine ⟨some .invalidIterator, ?_, ?_⟩
      · have q := h'
        unfold State.Invalid at q
        simp [State.guard, State.holds, stands_not_invalid r.sinv h, q, Check.err]
      · simp only [reduceCtorEq, false_iff]
        rintro ⟨-, u, v, q⟩
        exact not_stands r hb h' q
    · simp only [State.guard, State.holds, stands_not_invalid r.sinv h, stands_not_invalid r.sinv h', checkOwner_stands r.sinv ha h, checkOwner_stands r.sinv hb h',
        Check.err]
      by_cases e : j = i ∧ l = k
      · by_cases e' : j' = i ∧ l' = k
        · refine ⟨none, by simp [e, e'], ?_⟩
          obtain ⟨rfl, rfl⟩ := e
          obtain ⟨rfl, rfl⟩ := e'
          exact ⟨fun _ => ⟨⟨u, v, h⟩, u', v', h'⟩, fun _ => rfl⟩
        · refine ⟨some .notOwner, by simp [e, decide_eq_false e'], ?_⟩
          simp only [reduceCtorEq, false_iff]
          rintro ⟨-, u', v', q⟩
          have := hu' _ _ _ _ q
          exact e' ⟨this.1.symm, this.2.1.symm⟩
      · refine ⟨some .notOwner, by simp [decide_eq_false e], ?_⟩
        simp only [reduceCtorEq, false_iff]
        rintro ⟨⟨u', v', q⟩, -⟩
        have := hu _ _ _ _ q
        exact e ⟨this.1.symm, this.2.1.symm⟩

/-- C57: two iterators given as a range to a member function of index `k` of container `i` pass the checks exactly if they belong to that index and the second is
reached from the first, or is where the first is. -/
theorem C57_range (r : SReach s) {a b i k : Nat} (ha : s.Checked a) (hb : s.Checked b) :
    ∃ o, s.guard (rangeGuard a b i k) = some o ∧ (o = none ↔ ∃ u m v, s.Stands a i k u (m ++ v) ∧ s.Stands b i k (u ++ m) v) := by
  obtain ⟨o, h1, h2⟩ := pair_guard (i := i) (k := k) r ha hb
  have e : rangeGuard a b i k = [.valid a, .valid b, .owner a i k, .owner b i k] ++ [.range a b] := rfl
  rw [e, guard_append, h1]
  cases o with
  | some x =>
    refine ⟨some x, rfl, ?_⟩
    simp only [reduceCtorEq, false_iff] at h2 ⊢
    rintro ⟨u, m, v, q1, q2⟩
    exact h2 ⟨⟨_, _, q1⟩, _, _, q2⟩
  | none =>
    simp only [true_iff] at h2
    obtain ⟨⟨u, v, h⟩, u', v', h'⟩ := h2
    simp only [State.guard, State.holds, checkRange_stands r.sinv ha hb h h', Check.err]
    obtain ⟨e, hm⟩ := two_cases r.sinv h h'
    by_cases q : u.length ≤ u'.length
    · refine ⟨none, by simp [q], ⟨fun _ => ?_, fun _ => rfl⟩⟩
      rcases hm with ⟨m, rfl, rfl⟩ | ⟨m, hm, rfl, -⟩
      · exact ⟨u, m, v', h, h'⟩
      · have : 0 < m.length := List.length_pos_iff.2 hm
        simp only [List.length_append] at q
        omega
    · refine ⟨some .invalidRange, by simp [decide_eq_false q], ?_⟩
      simp only [reduceCtorEq, false_iff]
      rintro ⟨u2, m, v2, q1, q2⟩
      obtain ⟨-, -, rfl, -⟩ := stands_unique r.sinv h q1
      obtain ⟨-, -, rfl, -⟩ := stands_unique r.sinv h' q2
      simp at q

example : s3.guard (rangeGuard 101 103 0 0) = some none ∧ s3.guard (rangeGuard 103 101 0 0) ≠ some none := by
  refine ⟨?_, fun h => ?_⟩
  · obtain ⟨o, h1, h2⟩ := C57_range (i := 0) (k := 0) s3_reach (ck (it := 101) (by decide)) (ck (it := 103) (by decide))
    rw [h1, h2.2 ⟨[], [12], [11], at101, at103⟩]
  · obtain ⟨o, h1, h2⟩ := C57_range (i := 0) (k := 0) s3_reach (ck (it := 103) (by decide)) (ck (it := 101) (by decide))
    obtain ⟨u, m, v, q1, q2⟩ := h2.1 (Option.some.inj (h1.symm.trans h))
    obtain ⟨-, -, rfl, -⟩ := stands_unique s3_reach.sinv q1 at103
    exact nomatch (stands_unique s3_reach.sinv q2 at101).2.2.1

/-- C57: the arguments of `relocate(position,i)` pass the checks exactly if both belong to the index and the second refers to an element. -/
theorem C57_relocate (r : SReach s) {pos it i k : Nat} (hp : s.Checked pos) (hc : s.Checked it) :
    ∃ o, s.guard (relocateGuard pos it i k) = some o ∧ (o = none ↔ (∃ u v, s.Stands pos i k u v) ∧ ∃ u x v, s.Stands it i k u (x :: v)) := by
  have e : relocateGuard pos it i k = positionGuard pos i k ++ elementGuard it i k := rfl
  obtain ⟨o, h1, h2⟩ := C57_position (i := i) (k := k) r hp
  obtain ⟨o', h3, h4⟩ := C57_element (i := i) (k := k) r hc
  rw [e, guard_append, h1]
  cases o with
  | some x =>
    refine ⟨some x, rfl, ?_⟩
    simp only [reduceCtorEq, false_iff] at h2 ⊢
    exact fun q => h2 q.1
  | none =>
    simp only [true_iff] at h2
    refine ⟨o', h3, ?_⟩
    rw [h4]
    exact ⟨fun q => ⟨h2, q⟩, fun q => q.2⟩

example : s3.guard (relocateGuard 101 103 0 0) = some none := by
  obtain ⟨o, h1, h2⟩ := C57_relocate (i := 0) (k := 0) s3_reach (ck (it := 101) (by decide)) (ck (it := 103) (by decide))
  rw [h1, h2.2 ⟨⟨_, _, at101⟩, _, _, _, at103⟩]

/-- C57: the arguments of `relocate(position,first,last)` pass the checks exactly if all belong to the index, `[first,last)` is a range and `position` is not in
it: the elements of the range can be taken out (`u ++ v` is left) and put before `position`. -/
theorem C57_relocate_range (r : SReach s) {pos a b i k : Nat} (hp : s.Checked pos) (ha : s.Checked a) (hb : s.Checked b) :
    ∃ o, s.guard (relocateRangeGuard pos a b i k) = some o ∧ (o = none ↔ ∃ u m v, s.Stands a i k u (m ++ v) ∧ s.Stands b i k (u ++ m) v ∧
      ∃ p q, s.Stands pos i k p q ∧ ∃ t w, u ++ v = t ++ w ∧ ∀ c, s.w.cs[i]? = some c → At c.hd (s.reg.node pos) w) := by
  have e : relocateRangeGuard pos a b i k = positionGuard pos i k ++ (rangeGuard a b i k ++ [.outside pos a b]) := rfl
  obtain ⟨o, h1, h2⟩ := C57_position (i := i) (k := k) r hp
  obtain ⟨o', h3, h4⟩ := C57_range (i := i) (k := k) r ha hb
  rw [e, guard_append, guard_append, h1, h3]
  cases o with
  | some x =>
    refine ⟨some x, rfl, ?_⟩
    simp only [reduceCtorEq, false_iff] at h2 ⊢
    rintro ⟨u, m, v, -, -, p, q, h, -⟩
    exact h2 ⟨p, q, h⟩
  | none =>
    cases o' with
    | some x =>
      refine ⟨some x, rfl, ?_⟩
      simp only [reduceCtorEq, false_iff] at h4 ⊢
      rintro ⟨u, m, v, q1, q2, -⟩
      exact h4 ⟨u, m, v, q1, q2⟩
    | none =>
      simp only [true_iff] at h2 h4
      obtain ⟨p, q, hpq⟩ := h2
      obtain ⟨u, m, v, ha', hb'⟩ := h4
      obtain ⟨x, hx, hx'⟩ := checkOutside_stands (it := pos) r.sinv ha hb ha' hb'
      simp only [State.guard, State.holds, hx, Check.err]
      have hx'' : x = true ↔ s.reg.node pos ∉ m := by
        rw [hx']
        constructor
        · rintro ⟨m', q1, q2, q3⟩
          rwa [← List.append_cancel_left q1] at q3
        · intro q; exact ⟨m, rfl, rfl, q⟩
      obtain ⟨c, L, hi, -, -, -, -, nd, n1, s1⟩ := stands_view r.sinv ha'
      obtain ⟨c2, L2, hi2, -, -, -, -, nd2, n2, s2⟩ := stands_view r.sinv hpq
      obtain rfl := Option.some.inj (hi.symm.trans hi2)
      have exs := Option.some.inj (s1.symm.trans s2)
      have key : (s.reg.node pos ∉ m) ↔ ∃ t w, u ++ v = t ++ w ∧ ∀ c', s.w.cs[i]? = some c' → At c'.hd (s.reg.node pos) w := by
        constructor
        · intro hm
          rw [n2] at hm ⊢
          cases q with
          | nil =>
            refine ⟨u ++ v, [], by simp, fun c' hc' => ?_⟩
            obtain rfl := Option.some.inj (hi.symm.trans hc')
            rfl
          | cons z q =>
            simp only [List.headD_cons] at hm ⊢
            have hz : z ∈ u ++ v := by
              have : z ∈ u ++ (m ++ v) := by rw [exs]; simp
              simp only [List.mem_append] at this ⊢
              tauto
            obtain ⟨t, w, e⟩ := List.append_of_mem hz
            exact ⟨t, z :: w, e, fun c' _ => rfl⟩
        · rintro ⟨t, w, e, hw⟩ hm
          have := hw c hi
          unfold At at this
          rw [this] at hm
          rw [List.nodup_cons] at nd
          cases w with
          | nil =>
            simp only [List.headD_nil] at hm
            exact nd.1 (by simp [hm])
          | cons z w =>
            simp only [List.headD_cons] at hm
            have hz : z ∈ u ++ v := by rw [e]; simp
            have nd := nd.2
            rcases List.mem_append.1 hz with hz | hz
            · exact (List.nodup_append.1 nd).2.2 z hz z (by simp [hm]) rfl
            · exact (List.nodup_append.1 (List.nodup_append.1 nd).2.1).2.2 z hm z hz rfl
      cases x with
      | true =>
        refine ⟨none, rfl, ⟨fun _ => ?_, fun _ => rfl⟩⟩
        exact ⟨u, m, v, ha', hb', p, q, hpq, key.1 (hx''.1 rfl)⟩
      | false =>
        refine ⟨some .insideRange, rfl, ?_⟩
        simp only [reduceCtorEq, false_iff]
        rintro ⟨u', m', v', q1, q2, p', q', -, q3⟩
        obtain ⟨-, -, rfl, e1⟩ := stands_unique r.sinv ha' q1
        obtain ⟨-, -, e2, rfl⟩ := stands_unique r.sinv hb' q2
        exact nomatch hx''.2 (key.2 q3)

example : s3.guard (relocateRangeGuard 103 101 103 0 0) = some none ∧ s3.guard (relocateRangeGuard 101 101 103 0 0) ≠ some none := by
  refine ⟨?_, fun h => ?_⟩
  · obtain ⟨o, h1, h2⟩ := C57_relocate_range (i := 0) (k := 0) s3_reach (ck (it := 103) (by decide)) (ck (it := 101) (by decide)) (ck (it := 103) (by decide))
    rw [h1, h2.2 ⟨[], [12], [11], at101, at103, _, _, at103, [], [11], rfl, fun c _ => show s3.reg.node 103 = 11 by decide +kernel⟩]
  · obtain ⟨o, h1, h2⟩ := C57_relocate_range (i := 0) (k := 0) s3_reach (ck (it := 101) (by decide)) (ck (it := 101) (by decide)) (ck (it := 103) (by decide))
    obtain ⟨u, m, v, q1, q2, p, q, -, t, w, e, hw⟩ := h2.1 (Option.some.inj (h1.symm.trans h))
    obtain ⟨-, -, rfl, -⟩ := stands_unique s3_reach.sinv q1 at101
    obtain ⟨-, -, -, rfl⟩ := stands_unique s3_reach.sinv q2 at103
    have := hw _ rfl
    unfold At at this
    rcases t with _ | ⟨x, _ | ⟨y, t⟩⟩ <;> simp at e
    · subst e; revert this; decide +kernel
    · obtain ⟨-, rfl⟩ := e; revert this; decide +kernel

/-- C57: the arguments of `splice(position,x,first,last)`, `x` being another index (`k'`) of the same container, pass the checks exactly if `position` belongs to the
index, `[first,last)` is a range of the other index and the element `position` refers to, if any, is not in it. -/
theorem C57_splice (r : SReach s) {pos a b i k k' : Nat} (hp : s.Checked pos) (ha : s.Checked a) (hb : s.Checked b) :
    ∃ o, s.guard (spliceGuard pos a b i k k') = some o ∧ (o = none ↔ ∃ u m v, s.Stands a i k' u (m ++ v) ∧ s.Stands b i k' (u ++ m) v ∧
      ∃ p q, s.Stands pos i k p q ∧ ∀ x, q.head? = some x → x ∉ m) := by
  have e : spliceGuard pos a b i k k' = positionGuard pos i k ++ (rangeGuard a b i k' ++ [.outside2 pos a b]) := rfl
  obtain ⟨o, h1, h2⟩ := C57_position (i := i) (k := k) r hp
  obtain ⟨o', h3, h4⟩ := C57_range (i := i) (k := k') r ha hb
  rw [e, guard_append, guard_append, h1, h3]
  cases o with
  | some x =>
    refine ⟨some x, rfl, ?_⟩
    simp only [reduceCtorEq, false_iff] at h2 ⊢
    rintro ⟨u, m, v, -, -, p, q, h, -⟩
    exact h2 ⟨p, q, h⟩
  | none =>
    cases o' with
    | some x =>
      refine ⟨some x, rfl, ?_⟩
      simp only [reduceCtorEq, false_iff] at h4 ⊢
      rintro ⟨u, m, v, q1, q2, -⟩
      exact h4 ⟨u, m, v, q1, q2⟩
    | none =>
      simp only [true_iff] at h2 h4
      obtain ⟨p, q, hpq⟩ := h2
      obtain ⟨u, m, v, ha', hb'⟩ := h4
      obtain ⟨x, hx, hx'⟩ := checkOutside2_stands r.sinv hpq ha' hb'
      obtain ⟨c, L, hi, -, -, -, -, nd, n1, s1⟩ := stands_view r.sinv hpq
      have hx'' : x = true ↔ ∀ z, q.head? = some z → z ∉ m := by
        rw [hx']
        constructor
        · rintro (rfl | ⟨m', q1, q2, q3⟩) z hz
          · exact nomatch hz
          · rw [← List.append_cancel_left q1] at q3
            cases q with
            | nil => exact nomatch hz
            | cons y q =>
              obtain rfl : y = z := by simpa using hz
              rw [n1] at q3
              simpa using q3
        · intro hz
          cases q with
          | nil => exact Or.inl rfl
          | cons y q => exact Or.inr ⟨m, rfl, rfl, by rw [n1]; exact hz y rfl⟩
      simp only [State.guard, State.holds, hx, Check.err]
      cases x with
      | true => exact ⟨none, rfl, ⟨fun _ => ⟨u, m, v, ha', hb', p, q, hpq, hx''.1 rfl⟩, fun _ => rfl⟩⟩
      | false =>
        refine ⟨some .insideRange, rfl, ?_⟩
        simp only [reduceCtorEq, false_iff]
        rintro ⟨u', m', v', q1, q2, p', q', q3, q4⟩
        obtain ⟨-, -, rfl, e1⟩ := stands_unique r.sinv ha' q1
        obtain ⟨-, -, e2, rfl⟩ := stands_unique r.sinv hb' q2
        obtain ⟨-, -, rfl, rfl⟩ := stands_unique r.sinv hpq q3
        rw [← List.append_cancel_right e1] at q4
        exact nomatch hx''.2 q4

example : s3.guard (spliceGuard 104 101 103 0 2 0) = some none := by
  obtain ⟨o, h1, h2⟩ := C57_splice (i := 0) (k := 2) (k' := 0) s3_reach (ck (it := 104) (by decide)) (ck (it := 101) (by decide)) (ck (it := 103) (by decide))
  rw [h1, h2.2 ⟨[], [12], [11], at101, at103, _, _, at104, fun x hx => nomatch hx⟩]

/-- C57: an iterator can be projected to another index of container `i` exactly if it belongs to some index of it. -/
theorem C57_project (r : SReach s) {it i : Nat} (hc : s.Checked it) (hi : i < s.w.cs.length) :
    ∃ o, s.guard (projectGuard it i) = some o ∧ (o = none ↔ ∃ k u v, s.Stands it i k u v) := by
  rcases C57_place r hc with ⟨h, -⟩ | ⟨-, j, l, u, v, h, hu⟩
  · refine ⟨some .invalidIterator, ?_, ?_⟩
    · have q := h
      unfold State.Invalid at q
      simp [projectGuard, State.guard, State.holds, q, Check.err]
    · simp only [reduceCtorEq, false_iff]
      rintro ⟨k, u, v, q⟩
      exact not_stands r hc h q
  · simp only [projectGuard, State.guard, State.holds, stands_not_invalid r.sinv h, checkBelongs_stands r.sinv hc h hi, Check.err]
    by_cases e : j = i
    · refine ⟨none, by simp [e], ?_⟩
      subst e
      exact ⟨fun _ => ⟨l, u, v, h⟩, fun _ => rfl⟩
    · refine ⟨some .notOwner, by simp [decide_eq_false e], ?_⟩
      simp only [reduceCtorEq, false_iff]
      rintro ⟨k, u', v', q⟩
      exact e (hu _ _ _ _ q).1.symm

example : s3.guard (projectGuard 101 0) = some none ∧ s3.guard (projectGuard 105 0) ≠ some none := by
  refine ⟨?_, fun h => ?_⟩
  · obtain ⟨o, h1, h2⟩ := C57_project (i := 0) s3_reach (ck (it := 101) (by decide)) (by decide +kernel)
    rw [h1, h2.2 ⟨_, _, _, at101⟩]
  · obtain ⟨o, h1, h2⟩ := C57_project (i := 0) s3_reach (ck (it := 105) (by decide)) (by decide +kernel)
    obtain ⟨k, u, v, q⟩ := h2.1 (Option.some.inj (h1.symm.trans h))
    exact nomatch (stands_unique s3_reach.sinv q at105).1

/-- C57: so an operation on an element whose position passes the checks is one a program may do. -/
theorem C57_legal (r : SReach s) {it i k : Nat} (hc : s.Checked it) (h : s.guard (elementGuard it i k) = some none) :
    s.w.Legal (.erase i (s.reg.node it)) ∧ s.w.Legal (.extract i (s.reg.node it)) ∧
    (∀ v f e, s.w.Legal (.replace i (s.reg.node it) v f e)) ∧ ∀ mod e, s.w.Legal (.modify i (s.reg.node it) mod e) := by
  obtain ⟨o, h1, h2⟩ := C57_element (i := i) (k := k) r hc
  obtain rfl := Option.some.inj (h.symm.trans h1)
  obtain ⟨u, x, v, c, a1, a2, a3, a4⟩ := h2.1 rfl
  obtain ⟨L, -, -, p, -⟩ := r.sinv.inv.seq a1 a3
  have hx : s.reg.node it ∈ c.elems := by
    rw [a4]
    exact p.mem_iff.1 (by simp)
  exact ⟨⟨c, a1, hx⟩, ⟨c, a1, hx⟩, fun _ _ _ => ⟨c, a1, hx⟩, fun _ _ => ⟨c, a1, hx⟩⟩

example : s3.w.Legal (.erase 0 (s3.reg.node 101)) := (C57_legal (k := 0) s3_reach (ck (it := 101) (by decide)) (by decide +kernel)).1

/-- C57: so a range that passes the checks is one that `erase` and `merge` accept (C44, C11). -/
theorem C57_legal_range (r : SReach s) {a b i k : Nat} (ha : s.Checked a) (hb : s.Checked b) (h : s.guard (rangeGuard a b i k) = some none) :
    ∃ c u m v, s.w.cs[i]? = some c ∧ c.seqs[k]? = some (u ++ m ++ v) ∧ s.reg.node a = (m ++ v).headD c.hd ∧ s.reg.node b = v.headD c.hd := by
  obtain ⟨o, h1, h2⟩ := C57_range (i := i) (k := k) r ha hb
  obtain rfl := Option.some.inj (h.symm.trans h1)
  obtain ⟨u, m, v, ⟨c, a1, a2, a3, a4⟩, c', b1, b2, b3, b4⟩ := h2.1 rfl
  obtain rfl := Option.some.inj (a1.symm.trans b1)
  exact ⟨c, u, m, v, a1, by simpa using a3, a4, b4⟩

example : ∃ c u m v, s3.w.cs[0]? = some c ∧ c.seqs[0]? = some (u ++ m ++ v) ∧ s3.reg.node 101 = (m ++ v).headD c.hd ∧ s3.reg.node 103 = v.headD c.hd :=
  C57_legal_range s3_reach (ck (it := 101) (by decide)) (ck (it := 103) (by decide)) (by decide +kernel)

/-- C57: so a relocation whose arguments pass the checks meets the preconditions of C27 and C32. -/
theorem C57_legal_relocate (r : SReach s) {pos a b i k : Nat} (hp : s.Checked pos) (ha : s.Checked a) (hb : s.Checked b)
    (h : s.guard (relocateRangeGuard pos a b i k) = some none) (S : Spec V) :
    ∃ c xs, s.w.cs[i]? = some c ∧ c.seqs[k]? = some xs ∧ Rearr.Ok c.hd xs S (.relocateRange (s.reg.node pos) (s.reg.node a) (s.reg.node b)) := by
  obtain ⟨o, h1, h2⟩ := C57_relocate_range (i := i) (k := k) r hp ha hb
  obtain rfl := Option.some.inj (h.symm.trans h1)
  obtain ⟨u, m, v, ⟨c, a1, a2, a3, a4⟩, ⟨c', b1, b2, b3, b4⟩, p, q, -, t, w, e, hw⟩ := h2.1 rfl
  obtain rfl := Option.some.inj (a1.symm.trans b1)
  exact ⟨c, _, a1, a3, u, m, v, t, w, by simp, e, hw c a1, a4, b4⟩

example : ∃ c xs, s3.w.cs[0]? = some c ∧ c.seqs[0]? = some xs ∧
    Rearr.Ok c.hd xs (.seq : Spec Val) (.relocateRange (s3.reg.node 103) (s3.reg.node 101) (s3.reg.node 103)) :=
  C57_legal_relocate s3_reach (ck (it := 103) (by decide)) (ck (it := 101) (by decide)) (ck (it := 103) (by decide)) (by decide +kernel) _

/-! Iterators loaded from an archive -/

theorem loaded_invalid (r : SReach s) {it : Nat} (h : it ∈ s.live) (u : s.reg.unchecked it = true) : s.valid it = false := by
  simp [State.valid, r.sinv.raw it h u]

/-- C57: an iterator loaded from an archive passes the checks of all operations on a single iterator; such an operation never reports an error. -/
theorem C57_loaded (r : SReach s) {it : Nat} (h : it ∈ s.live) (u : s.reg.unchecked it = true) :
    s.deref it = some (.ok (s.w.m.val (s.reg.node it))) ∧ s.guard [.valid it, .incr it] = some none ∧ s.guard [.valid it, .decr it] = some none ∧
    (∀ d, s.guard [.valid it, .bounds it d] = some none) ∧ (∀ i k, s.guard (elementGuard it i k) = some none) ∧ (∀ i k, s.guard (positionGuard it i k) = some none) ∧
    ∀ i, s.guard (projectGuard it i) = some none := by
  have v := loaded_invalid r h u
  have w : s.reg.checkValid it = true := by simp [Reg.checkValid, u]
  simp [State.deref, elementGuard, positionGuard, projectGuard, State.guard, State.holds, w, State.checkDeref, State.checkDecr, State.checkOwner, State.checkBelongs,
    State.checkBounds, v, u]

/-- C57: so does a pair of iterators one of which was loaded, if the other may be used. -/
theorem C57_loaded_equal (r : SReach s) {a b : Nat} (ha : a ∈ s.live) (hb : b ∈ s.live) (u : s.reg.unchecked a = true) (hv : ¬ s.Invalid b ∨ s.reg.unchecked b = true) :
    s.equal a b = some (.ok (decide (s.reg.node a = s.reg.node b))) ∧ s.equal b a = some (.ok (decide (s.reg.node b = s.reg.node a))) := by
  have v := loaded_invalid r ha u
  have w : s.reg.checkValid a = true := by simp [Reg.checkValid, u]
  have w' : s.reg.checkValid b = true := by
    rcases hv with h | h
    · simpa [State.Invalid] using h
    · simp [Reg.checkValid, h]
  simp [State.equal, State.guard, State.holds, w, w', State.checkSame, v, u]

/-- C57: and a range given by two loaded iterators, also with a position, if that is loaded too or belongs to the index. -/
theorem C57_loaded_range (r : SReach s) {a b pos : Nat} (ha : a ∈ s.live) (hb : b ∈ s.live) (hp : pos ∈ s.live) (ua : s.reg.unchecked a = true)
    (ub : s.reg.unchecked b = true) {i k : Nat} (up : s.reg.unchecked pos = true ∨ s.Checked pos ∧ ∃ p q, s.Stands pos i k p q) :
    s.guard (rangeGuard a b i k) = some none ∧ s.guard (relocateRangeGuard pos a b i k) = some none ∧ ∀ k', s.guard (spliceGuard pos a b i k k') = some none := by
  have va := loaded_invalid r ha ua
  have vb := loaded_invalid r hb ub
  have wa : s.reg.checkValid a = true := by simp [Reg.checkValid, ua]
  have wb : s.reg.checkValid b = true := by simp [Reg.checkValid, ub]
  have g : ∀ k, s.guard (rangeGuard a b i k) = some none := fun k => by
    simp [rangeGuard, State.guard, State.holds, wa, wb, State.checkOwner, State.checkRange, State.checkSame, va, vb, ua, ub]
  have gp : s.guard (positionGuard pos i k) = some none := by
    rcases up with u | ⟨hc, h⟩
    · exact (C57_loaded r hp u).2.2.2.2.2.1 i k
    · obtain ⟨o, h1, h2⟩ := C57_position (i := i) (k := k) r hc
      rw [h1, h2.2 h]
  have o1 : s.checkOutside pos a b = some true := by
    simp [State.checkOutside, State.checkSame, va, vb, ua, ub]
  have o2 : s.checkOutside2 pos a b = some true := by
    unfold State.checkOutside2
    rcases up with u | ⟨hc, p, q, h⟩
    · simp [loaded_invalid r hp u]
    · obtain ⟨c, L, -, -, e, -⟩ := stands_view r.sinv h
      simp [stands_valid r.sinv h, e, va]
  refine ⟨g k, ?_, fun k' => ?_⟩
  · rw [show relocateRangeGuard pos a b i k = positionGuard pos i k ++ (rangeGuard a b i k ++ [.outside pos a b]) from rfl, guard_append, guard_append, gp, g k]
    simp [State.guard, State.holds, o1]
  · rw [show spliceGuard pos a b i k k' = positionGuard pos i k ++ (rangeGuard a b i k' ++ [.outside2 pos a b]) from rfl, guard_append, guard_append, gp, g k']
    simp [State.guard, State.holds, o2]

/-- Iterator 107 is loaded from an archive and assigned to 101, which was an iterator of container 0; 102 is an iterator of its fourth index. -/
def Ex.s4 : State Cont.Ex.Val := (sruns Ex.s3 [.it (.load 107 16), .it (.assign 101 107)]).getD Ex.s3

theorem Ex.s4_reach : SReach Ex.s4 := by
  obtain ⟨s', h⟩ := Option.isSome_iff_exists.1 (by decide +kernel : (sruns Ex.s3 [.it (.load 107 16), .it (.assign 101 107)]).isSome = true)
  have e : Ex.s4 = s' := by unfold Ex.s4; rw [h]; rfl
  rw [e]
  exact sruns_reach Ex.s3_reach h

example : (∃ v, Ex.s4.deref 101 = some (.ok v) ∧ v = (2, 2)) ∧ Ex.s4.guard (elementGuard 101 0 0) = some none ∧ Ex.s4.equal 101 102 = some (.ok false) ∧
    Ex.s4.guard (relocateRangeGuard 102 101 107 0 3) = some none ∧ Ex.s4.guard (spliceGuard 102 101 107 0 3 2) = some none := by
  have h1 : 101 ∈ Ex.s4.live ∧ 107 ∈ Ex.s4.live ∧ 102 ∈ Ex.s4.live ∧ Ex.s4.reg.unchecked 101 = true ∧ Ex.s4.reg.unchecked 107 = true ∧ ¬ Ex.s4.Invalid 102 ∧
      Ex.s4.reg.unchecked 102 = false := by decide +kernel
  obtain ⟨a1, a2, a3, a4, a5, a6, a7⟩ := h1
  have t := C57_loaded Ex.s4_reach a1 a4
  have t2 := C57_loaded_equal Ex.s4_reach a1 a3 a4 (Or.inl a6)
  have t3 := C57_loaded_range (pos := 102) (i := 0) (k := 3) Ex.s4_reach a1 a2 a3 a4 a5 (Or.inr ⟨⟨a3, a7⟩, [11], [12], _, rfl, by decide +kernel⟩)
  refine ⟨⟨_, t.1, by decide +kernel⟩, t.2.2.2.2.1 0 0, ?_, t3.2.1, t3.2.2 2⟩
  rw [t2.1, show Ex.s4.reg.node 101 = 16 by decide +kernel, show Ex.s4.reg.node 102 = 12 by decide +kernel]
  rfl

end MI.Safe
