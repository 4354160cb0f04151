import Verif.Rnd.WritesLemmas
import Verif.Props.Rnd
/-!
# C65: what operations on random access indices cost

The complexities that doc/reference/rnd_indices.html documents, as numbers of slots of the internal array that are written. In `(s, c)`
the array is `s` and `c` slots have been written so far.
-/
namespace MI.Rnd
open MI

section
variable {s : Arr} {hd x : Id} (c : Nat) (junk : Nat → Id)

/-- C65: insertion at the end while the size is less than the capacity writes two slots (the new element and the end), whatever the size. -/
theorem C65_push_back {xs : List Id} (h : Rep s hd xs) (hx : x ∉ hd :: xs) (hc : xs.length < s.cap) :
    ∃ s', insertAtW junk (s, c) hd hd x true = some (s', c + 2) ∧ insertAt junk s hd hd x true = some s' ∧ Rep s' hd (xs ++ [x]) := by
  have hs := h.1
  obtain ⟨s', e, r, _⟩ := rep_insertAt junk (q := []) (by simpa using h) (by simpa using hx)
  have e0 : hdOr hd ([] : List Id) = hd := rfl
  rw [e0] at e
  refine ⟨s', ?_, e, by simpa using r⟩
  unfold insertAtW
  unfold insertAt at e
  rw [insert_W_eq, if_neg (by omega)]
  cases hi : insert_ junk s x true with
  | none => rw [hi] at e; simp at e
  | some s1 => rw [hi] at e; simp only [Option.map_some] at e ⊢; simpa using e

/-- C65: inserting before `q` (`shl(end()-position,1)` plus the insertion at the end). -/
theorem C65_insert {p : List Id} {y : Id} {q : List Id} (h : Rep s hd (p ++ y :: q)) (hx : x ∉ hd :: (p ++ y :: q))
    (hc : (p ++ y :: q).length < s.cap) :
    ∃ s', insertAtW junk (s, c) hd y x true = some (s', c + 2 + ((y :: q).length + 1)) ∧ insertAt junk s hd y x true = some s' ∧
      Rep s' hd (p ++ x :: y :: q) := by
  have hs := h.1
  obtain ⟨s', e, r, _⟩ := rep_insertAt junk h hx
  have e0 : hdOr hd (y :: q) = y := rfl
  rw [e0] at e
  refine ⟨s', ?_, e, r⟩
  have hy : y ≠ hd := by rintro rfl; exact h.notMem (by simp)
  obtain ⟨s1, e1, r1, _⟩ := rep_insert_ junk h hx true
  simp only [if_true] at r1
  unfold insertAtW
  unfold insertAt at e
  rw [insert_W_eq, if_neg (by omega), e1]
  rw [e1] at e
  simp only [Option.map_some, true_and, ne_eq, hy, not_false_eq_true, if_true, relocate1W_eq] at e ⊢
  have u1 : s1.up y = p.length := (show Rep s1 hd (p ++ y :: (q ++ [x])) by simpa using r1).up_split.1
  have u2 : s1.up x = (p ++ y :: q).length := (show Rep s1 hd ((p ++ y :: q) ++ x :: []) by simpa using r1).up_split.1
  simp only [Option.some.injEq] at e
  rw [e, u1, u2, if_neg (by simp)]
  simp only [List.length_append, List.length_cons]
  congr 2; omega

/-- C65: erasing an element writes as many slots as its distance to the end: constant at the end of the index. -/
theorem C65_erase {u v : List Id} (h : Rep s hd (u ++ x :: v)) :
    eraseW (s, c) x = (erase s x, c + (x :: v).length) ∧ Rep (erase s x) hd (u ++ v) := by
  refine ⟨?_, (rep_erase h).1⟩
  rw [eraseW_eq, h.up_split.1, h.1]
  simp

/-- C65: moving the element at `i` before position `p` writes exactly `rel(p,i,i+1)` slots. -/
theorem C65_relocate {xs : List Id} (h : Rep s hd xs) (p i : Nat) (hp : p ≤ xs.length) (hi : i < xs.length) :
    relocateW (s, c) (s.arr p) (s.arr i) = (relocate s (s.arr p) (s.arr i), c + rel p i (i + 1)) := by
  have up : ∀ i, i ≤ xs.length → s.up (s.arr i) = i := by
    intro i hi
    have := (show Rep s hd (xs.take i ++ xs.drop i) by simpa using h).up_hdOr.1
    rw [h.at hi, this]; simp [hi]
  rw [relocateW_eq, up p hp, up i (by omega)]
  unfold rel
  by_cases e : p = i
  · subst e; simp
  · rw [if_pos (fun h' => e (h.inj hp (by omega) h'))]
    congr 2
    split <;> split <;> omega

/-- C65: moving the range `[i,j)` before position `p` outside of it writes exactly `rel(p,i,j)` slots, none if it is there already. -/
theorem C65_relocate_range {xs : List Id} (h : Rep s hd xs) (p i j : Nat) (hij : i ≤ j) (hj : j ≤ xs.length) (hp : p ≤ xs.length)
    (ho : p < i ∨ j ≤ p) :
    ∃ s', relocateRangeW (s, c) (s.arr p) (s.arr i) (s.arr j) = some (s', c + (if p = j then 0 else rel p i j)) ∧
      relocateRange s (s.arr p) (s.arr i) (s.arr j) = some s' := by
  have up : ∀ i, i ≤ xs.length → s.up (s.arr i) = i := by
    intro i hi
    have := (show Rep s hd (xs.take i ++ xs.drop i) by simpa using h).up_hdOr.1
    rw [h.at hi, this]; simp [hi]
  obtain ⟨s', ys, e, _⟩ := step_effect (fun _ => 0) (nul := 0) h (.relocateRange p i j) ⟨hij, hj, hp, ho⟩
  refine ⟨s', ?_, e⟩
  simp only [step] at e
  rw [relocateRangeW_eq s c (by rw [up i (by omega), up j hj]; omega) (by rw [up p hp, up i (by omega), up j hj]; omega), e, up p hp,
    up i (by omega), up j hj]
  simp only [Option.map_some, rel]
  congr 3
  by_cases hpj : p = j
  · subst hpj; simp
  · rw [if_neg hpj, if_pos (fun h' => hpj (h.inj hp hj h'))]

end

/-- C65: insertion is amortized constant, and every history costs what is documented: the slots written by any history of operations,
reallocations included, are at most the sum of the documented costs (`price`), an insertion at the end counting 7, plus the initial size. -/
theorem C65_history (junk : Nat → Id) {nul hd : Id} {s : Arr} {xs : List Id} (h : Rep s hd xs) (ops : List Op)
    (hv : Valid junk nul hd ops s) (hno : ∀ op ∈ ops, op.isLoad = false) :
    ∃ s' w, runW junk nul hd ops (s, 0) = some (s', w) ∧ run junk nul hd ops s = some s' ∧ w ≤ bill junk nul hd ops s + xs.length := by
  obtain ⟨s', d, e1, e2, p⟩ := runW_phi junk ops 0 h hv hno
  refine ⟨s', d, by simpa using e1, e2, ?_⟩
  have : phi s ≤ xs.length := by unfold phi; have := h.1; have := h.2.1; omega
  omega

/-- Histories of insertions at the end. -/
def pushes (n : Nat) (l : List Id) : List Op := match l with
  | [] => []
  | x :: l => .insert n x (some true) :: pushes (n + 1) l

/-- C65: `n` insertions at the end of a new index write at most `7*n` slots. -/
theorem C65_push_backs (junk : Nat → Id) (nul hd : Id) (up : Id → Nat) (l : List Id) (hn : (hd :: l).Nodup) :
    ∃ s w, runW junk nul hd (pushes 0 l) (empty junk up hd, 0) = some (s, w) ∧ contents s = l ∧ w ≤ 7 * l.length := by
  have gen : ∀ (l : List Id) (s : Arr) (xs : List Id), Rep s hd xs → (hd :: (xs ++ l)).Nodup →
      Valid junk nul hd (pushes xs.length l) s ∧ bill junk nul hd (pushes xs.length l) s = 7 * l.length ∧
      ∀ s', run junk nul hd (pushes xs.length l) s = some s' → contents s' = xs ++ l := by
    intro l
    induction l with
    | nil =>
      intro s xs h _
      refine ⟨trivial, rfl, ?_⟩
      intro s' e
      simp only [pushes, run, Option.some.injEq] at e
      subst e
      rw [List.append_nil]; exact h.slots
    | cons x l ih =>
      intro s xs h hnd
      have hc : contents s = xs := h.slots
      have hl : Legal nul hd xs (.insert xs.length x (some true)) := by
        refine ⟨Nat.le_refl _, ?_⟩
        simp only [List.mem_cons, not_or]
        simp only [List.nodup_cons, List.nodup_append, List.mem_append, List.mem_cons, not_or] at hnd
        exact ⟨fun e => hnd.1.2.1 e.symm, fun hx => hnd.2.2.2 x hx x (by simp) rfl⟩
      obtain ⟨s1, ys, e1, ef, r1⟩ := step_effect junk (nul := nul) h _ hl
      have hys : ys = xs ++ [x] := by simpa [Effect] using ef
      subst hys
      obtain ⟨h1, h2, h3⟩ := ih s1 (xs ++ [x]) r1 (by simpa using hnd)
      simp only [List.length_append, List.length_singleton] at h1 h2 h3
      refine ⟨⟨by rw [hc]; exact hl, ?_⟩, ?_, ?_⟩
      · intro s' e; rw [e1] at e; cases e; exact h1
      · simp only [pushes, bill, e1, h2, price, shl, h.1, Nat.sub_self, if_true, List.length_cons]; rw [Nat.mul_add]; exact Nat.add_comm _ _
      · intro s' e
        simp only [pushes, run, e1] at e
        simpa using h3 s' e
  obtain ⟨h1, h2, h3⟩ := gen l (empty junk up hd) [] (rep_empty junk up hd) (by simpa using hn)
  simp only [List.length_nil] at h1 h2 h3
  have hno : ∀ (n : Nat) (op : Op), op ∈ pushes n l → op.isLoad = false := by
    clear * -
    induction l with
    | nil => intro n op h; simp [pushes] at h
    | cons x l ih =>
      intro n op h
      rcases List.mem_cons.1 h with rfl | h
      · rfl
      · exact ih _ _ h
  obtain ⟨s', w, e1, e2, p⟩ := C65_history junk (rep_empty junk up hd) _ h1 (hno 0)
  exact ⟨s', w, e1, by simpa using h3 s' e2, by simpa [h2] using p⟩

/-- Concrete cases. -/
example : eraseW (exArr, 0) 2 = (erase exArr 2, 4) := by
  simpa using (C65_erase (c := 0) (u := [1]) (v := [3, 4, 5]) exArr_rep).1
example : ∃ s', insertAtW exJunk (exArr, 0) 0 4 9 true = some (s', 5) := by
  obtain ⟨s', e, _⟩ := C65_insert 0 exJunk (p := [1, 2, 3]) (y := 4) (q := [5]) (x := 9) exArr_rep (by decide) (by decide +kernel)
  exact ⟨s', e⟩
example : ∃ s', relocateRangeW (exArr, 0) (exArr.arr 5) (exArr.arr 1) (exArr.arr 3) = some (s', 4) := by
  obtain ⟨s', e, _⟩ := C65_relocate_range 0 exArr_rep 5 1 3 (by decide) (by decide) (by decide) (by decide)
  exact ⟨s', e⟩
example : ∃ s w, runW exJunk 99 0 (pushes 0 [1, 2, 3]) (empty exJunk (fun _ => 0) 0, 0) = some (s, w) ∧ contents s = [1, 2, 3] ∧ w ≤ 21 :=
  C65_push_backs exJunk 99 0 _ [1, 2, 3] (by decide)

/-- The documentation gives `O(m*D(n))` for erasing a range of `m` elements. For an empty range this is nothing; the code writes all slots from the range to
the end once (with their own contents). -/
theorem C65_erase_empty_range {s : Arr} {hd : Id} {u v : List Id} (h : Rep s hd (u ++ v)) (hv : v ≠ []) :
    eraseRangeW (s, 0) hd (hdOr hd v) (hdOr hd v) = (eraseRange s hd (hdOr hd v) (hdOr hd v)).map (·, v.length) := by
  have h1 := h.up_hdOr.1
  have h2 := h.up_end
  have hne : hd ≠ hdOr hd v := by
    cases v with
    | nil => exact absurd rfl hv
    | cons y v => rintro e; have : hd = y := e; exact h.notMem (by simp [this])
  unfold eraseRangeW eraseRange
  rw [relocateRangeW_eq s 0 (Nat.le_refl _) (by rw [h1, h2]; simp), if_pos hne, h1, h2, if_neg (by simp)]
  have hz : (distance s (hdOr hd v) (hdOr hd v)).toNat = 0 := by simp [distance]
  simp only [hz]
  cases relocateRange s hd (hdOr hd v) (hdOr hd v) with
  | none => rfl
  | some s' => simp [popBackNW, popBackN]

example : eraseRangeW (exArr, 0) 0 2 2 = (eraseRange exArr 0 2 2).map (·, 4) :=
  C65_erase_empty_range (u := [1]) (v := [2, 3, 4, 5]) exArr_rep (by decide)

end MI.Rnd
