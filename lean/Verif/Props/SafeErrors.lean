import Verif.Safe.ErrorSpec
import Verif.Props.SafeChecks
/-!
# C57: the errors that member functions report in safe mode

`Verif/Safe/ErrorSpec.lean` says for which arguments each error code is right.
-/
namespace MI.Safe
open MI MI.Cont
variable {V : Type} {s : State V} {e : Err}

theorem guard_cons {k : Check} {ks : List Check} (h : s.guard (k :: ks) = some (some e)) :
    (s.holds k = some false ∧ e = k.err) ∨ (s.holds k = some true ∧ s.guard ks = some (some e)) := by
  unfold State.guard at h
  cases hk : s.holds k with
  | none => rw [hk] at h; cases h
  | some b =>
    rw [hk] at h
    cases b with
    | true => exact Or.inr ⟨rfl, h⟩
    | false => cases h; exact Or.inl ⟨rfl, rfl⟩

theorem guard_app {ks ls : List Check} (h : s.guard (ks ++ ls) = some (some e)) :
    s.guard ks = some (some e) ∨ (s.guard ks = some none ∧ s.guard ls = some (some e)) := by
  rw [guard_append] at h
  cases hk : s.guard ks with
  | none => rw [hk] at h; cases h
  | some o =>
    rw [hk] at h
    cases o with
    | none => exact Or.inr ⟨rfl, h⟩
    | some e' => exact Or.inl h

/-- C57: the error reported for a position or hint is the one that fits. -/
theorem C57_position_error (r : SReach s) {it i k : Nat} (hc : s.Checked it) (h : s.guard (positionGuard it i k) = some (some e)) : s.PositionWrong it i k e := by
  rcases guard_cons h with ⟨h1, rfl⟩ | ⟨h1, h2⟩
  · exact Or.inl ⟨rfl, Option.some.inj h1⟩
  · rcases checked_cases r.sinv hc with ⟨q, -⟩ | ⟨i', k', u, v, q⟩
    · unfold State.Invalid at q
      simp only [State.holds, q] at h1
      cases h1
    · rcases guard_cons h2 with ⟨h3, rfl⟩ | ⟨h3, h4⟩
      · right
        refine ⟨rfl, i', k', u, v, q, ?_⟩
        simp only [State.holds, checkOwner_stands r.sinv hc q, Option.some.injEq, decide_eq_false_iff_not] at h3
        exact h3
      · cases h4

/-- C57: likewise for an iterator that has to refer to an element. -/
theorem C57_element_error (r : SReach s) {it i k : Nat} (hc : s.Checked it) (h : s.guard (elementGuard it i k) = some (some e)) : s.ElementWrong it i k e := by
  rcases guard_cons h with ⟨h1, rfl⟩ | ⟨h1, h2⟩
  · exact Or.inl (Or.inl ⟨rfl, Option.some.inj h1⟩)
  · rcases guard_cons h2 with ⟨h3, rfl⟩ | ⟨h3, h4⟩
    · right
      rcases checked_cases r.sinv hc with ⟨q, -⟩ | ⟨i', k', u, v, q⟩
      · unfold State.Invalid at q
        simp only [State.holds, q] at h1
        cases h1
      · simp only [State.holds, checkDeref_stands r.sinv hc q, Option.some.injEq, decide_eq_false_iff_not, not_not] at h3
        subst h3
        exact ⟨rfl, i', k', u, q⟩
    · left
      apply C57_position_error r hc
      show s.guard (Check.valid it :: [Check.owner it i k]) = _
      unfold State.guard
      rw [h1]
      exact h4

/-- C57: likewise for a range. -/
theorem C57_range_error (r : SReach s) {a b i k : Nat} (ha : s.Checked a) (hb : s.Checked b) (h : s.guard (rangeGuard a b i k) = some (some e)) : s.RangeWrong a b i k e := by
  have pos : ∀ {it : Nat}, s.Checked it → s.holds (.valid it) = some true → s.holds (.owner it i k) = some false → s.PositionWrong it i k .notOwner := by
    intro it hc h1 h2
    refine C57_position_error r hc ?_
    show s.guard (Check.valid it :: [Check.owner it i k]) = _
    simp only [State.guard, h1, h2]
    rfl
  rcases guard_cons h with ⟨h1, rfl⟩ | ⟨h1, h⟩
  · exact Or.inl (Or.inl ⟨rfl, Option.some.inj h1⟩)
  rcases guard_cons h with ⟨h2, rfl⟩ | ⟨h2, h⟩
  · exact Or.inr (Or.inl (Or.inl ⟨rfl, Option.some.inj h2⟩))
  rcases guard_cons h with ⟨h3, rfl⟩ | ⟨h3, h⟩
  · exact Or.inl (pos ha h1 h3)
  rcases guard_cons h with ⟨h4, rfl⟩ | ⟨h4, h⟩
  · exact Or.inr (Or.inl (pos hb h2 h4))
  rcases guard_cons h with ⟨h5, rfl⟩ | ⟨h5, h⟩
  · right; right
    have at' : ∀ {it : Nat}, s.Checked it → s.holds (.valid it) = some true → s.holds (.owner it i k) = some true → ∃ u v, s.Stands it i k u v := by
      intro it hc h1 h2
      rcases checked_cases r.sinv hc with ⟨q, -⟩ | ⟨i', k', u, v, q⟩
      · unfold State.Invalid at q
        simp only [State.holds, q] at h1
        cases h1
      · simp only [State.holds, checkOwner_stands r.sinv hc q, Option.some.injEq, decide_eq_true_eq] at h2
        obtain ⟨rfl, rfl⟩ := h2
        exact ⟨u, v, q⟩
    obtain ⟨u, v, qa⟩ := at' ha h1 h3
    obtain ⟨u', v', qb⟩ := at' hb h2 h4
    simp only [State.holds, checkRange_stands r.sinv ha hb qa qb, Option.some.injEq, decide_eq_false_iff_not, Nat.not_le] at h5
    exact ⟨rfl, u, v, u', v', qa, qb, h5⟩
  · cases h

/-- C57: likewise for `relocate(position,i)`. -/
theorem C57_relocate_error (r : SReach s) {pos it i k : Nat} (hp : s.Checked pos) (hc : s.Checked it) (h : s.guard (relocateGuard pos it i k) = some (some e)) :
    s.PositionWrong pos i k e ∨ s.ElementWrong it i k e := by
  rcases guard_app (ks := positionGuard pos i k) (ls := elementGuard it i k) h with h | ⟨-, h⟩
  · exact Or.inl (C57_position_error r hp h)
  · exact Or.inr (C57_element_error r hc h)

/-- C57: likewise for `relocate(position,first,last)`. -/
theorem C57_relocate_range_error (r : SReach s) {pos a b i k : Nat} (hp : s.Checked pos) (ha : s.Checked a) (hb : s.Checked b)
    (h : s.guard (relocateRangeGuard pos a b i k) = some (some e)) : s.InsideWrong pos k a b k i e := by
  rcases guard_app (ks := positionGuard pos i k) (ls := rangeGuard a b i k ++ [.outside pos a b]) h with h | ⟨g1, h⟩
  · exact Or.inl (C57_position_error r hp h)
  rcases guard_app h with h | ⟨g2, h⟩
  · exact Or.inr (Or.inl (C57_range_error r ha hb h))
  rcases guard_cons h with ⟨h1, rfl⟩ | ⟨h1, h⟩
  · right; right
    refine ⟨rfl, ?_⟩
    obtain ⟨o, k1, k2⟩ := C57_position (i := i) (k := k) r hp
    obtain ⟨p, q, hpq⟩ := k2.1 (Option.some.inj (k1.symm.trans g1))
    obtain ⟨o', k3, k4⟩ := C57_range (i := i) (k := k) r ha hb
    obtain ⟨u, m, v, ha', hb'⟩ := k4.1 (Option.some.inj (k3.symm.trans g2))
    obtain ⟨x, hx, hx'⟩ := checkOutside_stands (it := pos) r.sinv ha hb ha' hb'
    obtain rfl : x = false := Option.some.inj (hx.symm.trans h1)
    have hm : s.reg.node pos ∈ m := by
      by_contra hm
      exact nomatch hx'.2 ⟨m, rfl, rfl, hm⟩
    obtain ⟨c, L, hi, -, -, -, -, nd, -, -⟩ := stands_view r.sinv ha'
    obtain ⟨c2, L2, hi2, -, -, -, -, -, n2, -⟩ := stands_view r.sinv hpq
    obtain rfl := Option.some.inj (hi.symm.trans hi2)
    rw [n2] at hm
    cases q with
    | nil =>
      rw [List.nodup_cons] at nd
      exact absurd (by simp only [List.headD_nil] at hm; simp [hm]) nd.1
    | cons y q => exact ⟨u, m, v, p, y, q, ha', hb', hpq, hm⟩
  · cases h

/-- C57: likewise for `splice(position,x,first,last)`, `x` being another index of the same container. -/
theorem C57_splice_error (r : SReach s) {pos a b i k k' : Nat} (hp : s.Checked pos) (ha : s.Checked a) (hb : s.Checked b)
    (h : s.guard (spliceGuard pos a b i k k') = some (some e)) : s.InsideWrong pos k a b k' i e := by
  rcases guard_app (ks := positionGuard pos i k) (ls := rangeGuard a b i k' ++ [.outside2 pos a b]) h with h | ⟨g1, h⟩
  · exact Or.inl (C57_position_error r hp h)
  rcases guard_app h with h | ⟨g2, h⟩
  · exact Or.inr (Or.inl (C57_range_error r ha hb h))
  rcases guard_cons h with ⟨h1, rfl⟩ | ⟨h1, h⟩
  · right; right
    refine ⟨rfl, ?_⟩
    obtain ⟨o, k1, k2⟩ := C57_position (i := i) (k := k) r hp
    obtain ⟨p, q, hpq⟩ := k2.1 (Option.some.inj (k1.symm.trans g1))
    obtain ⟨o', k3, k4⟩ := C57_range (i := i) (k := k') r ha hb
    obtain ⟨u, m, v, ha', hb'⟩ := k4.1 (Option.some.inj (k3.symm.trans g2))
    obtain ⟨x, hx, hx'⟩ := checkOutside2_stands r.sinv hpq ha' hb'
    obtain rfl : x = false := Option.some.inj (hx.symm.trans h1)
    have hm : s.reg.node pos ∈ m := by
      by_contra hm
      exact nomatch hx'.2 (Or.inr ⟨m, rfl, rfl, hm⟩)
    obtain ⟨c2, L2, hi2, -, -, -, -, -, n2, -⟩ := stands_view r.sinv hpq
    rw [n2] at hm
    cases q with
    | nil => exact nomatch hx'.2 (Or.inl rfl)
    | cons y q => exact ⟨u, m, v, p, y, q, ha', hb', hpq, hm⟩
  · cases h

/-- C57: likewise for `project`. -/
theorem C57_project_error (r : SReach s) {it i : Nat} (hc : s.Checked it) (hi : i < s.w.cs.length) (h : s.guard (projectGuard it i) = some (some e)) : s.ContainerWrong it i e := by
  rcases guard_cons h with ⟨h1, rfl⟩ | ⟨h1, h⟩
  · exact Or.inl ⟨rfl, Option.some.inj h1⟩
  · rcases checked_cases r.sinv hc with ⟨q, -⟩ | ⟨i', k', u, v, q⟩
    · unfold State.Invalid at q
      simp only [State.holds, q] at h1
      cases h1
    · rcases guard_cons h with ⟨h3, rfl⟩ | ⟨h3, h⟩
      · simp only [State.holds, checkBelongs_stands r.sinv hc q hi, Option.some.injEq, decide_eq_false_iff_not] at h3
        exact Or.inr ⟨rfl, i', k', u, v, q, h3⟩
      · cases h

/-! ### Examples: each code is reported in the example state -/
section
open Ex
example : s3.guard (elementGuard 107 0 0) = some (some .invalidIterator) := by decide +kernel
example : s3.guard (elementGuard 104 0 2) = some (some .notDereferenceable) := by decide +kernel
example : s3.guard (elementGuard 105 0 2) = some (some .notOwner) := by decide +kernel
example : s3.guard (positionGuard 104 0 1) = some (some .notOwner) := by decide +kernel
example : s3.guard (rangeGuard 103 101 0 0) = some (some .invalidRange) := by decide +kernel
example : s3.guard (relocateRangeGuard 101 101 103 0 0) = some (some .insideRange) := by decide +kernel
example : s3.guard (spliceGuard 102 101 103 0 3 0) = some (some .insideRange) := by decide +kernel
example : s3.guard (projectGuard 105 0) = some (some .notOwner) := by decide +kernel
example : s3.ElementWrong 104 0 2 .notDereferenceable := C57_element_error s3_reach (ck (by decide)) (by decide +kernel)
example : s3.RangeWrong 103 101 0 0 .invalidRange := C57_range_error s3_reach (ck (by decide)) (ck (by decide)) (by decide +kernel)
example : s3.InsideWrong 102 3 101 103 0 0 .insideRange := C57_splice_error s3_reach (ck (by decide)) (ck (by decide)) (ck (by decide)) (by decide +kernel)
example : s3.ContainerWrong 105 0 .notOwner := C57_project_error s3_reach (ck (by decide)) (by decide +kernel) (by decide +kernel)
end
end MI.Safe
