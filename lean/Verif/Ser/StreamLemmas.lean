import Verif.Ser.Stream
import Verif.Ser.MatcherLemmas

/-! What is saved is read back: see `parse_save`. -/
namespace MI.Ser

theorem sortEntries_mem {es : List Id} {x : Id} : x ∈ sortEntries es ↔ x ∈ es := (List.perm_insertionSort _ es).mem_iff

theorem checkNode_mem (es : List Id) (x : Id) : checkNode (sortEntries es) x = decide (x ∈ es) := by
  rw [show decide (x ∈ es) = decide (x ∈ sortEntries es) by simp only [sortEntries_mem]]
  have hs : (sortEntries es).Pairwise (· ≤ ·) := List.pairwise_insertionSort _ _
  generalize sortEntries es = l at *
  have hle : ∀ i j, i ≤ j → j < l.length → l.getD i 0 ≤ l.getD j 0 := by
    intro i j hij hj
    rcases Nat.lt_or_ge i j with h | h
    · have := (List.pairwise_iff_getElem.1 hs) i j (by omega) hj h
      simp only [List.getD_eq_getElem?_getD, List.getElem?_eq_getElem hj, List.getElem?_eq_getElem (show i < l.length by omega), Option.getD_some]
      exact this
    · have : i = j := by omega
      subst this
      exact Nat.le_refl _
  have mono : ∀ i j, i ≤ j → j < l.length → (fun i => decide (l.getD i 0 < x)) j = true → (fun i => decide (l.getD i 0 < x)) i = true := by
    intro i j hij hj hp
    simp only [decide_eq_true_eq] at hp ⊢
    exact Nat.lt_of_le_of_lt (hle i j hij hj) hp
  obtain ⟨h1, h2, h3⟩ := lowerBound_all _ _ mono
  unfold checkNode
  generalize lowerBound (fun i => decide (l.getD i 0 < x)) l.length 0 l.length = k at *
  simp only [decide_eq_true_eq, decide_eq_false_iff_not] at h2 h3
  by_cases hx : x ∈ l
  · obtain ⟨i, hi, e⟩ := List.getElem_of_mem hx
    have ei : l.getD i 0 = x := by simp [List.getD_eq_getElem?_getD, List.getElem?_eq_getElem hi, e]
    have hk : k ≤ i := by
      rcases Nat.lt_or_ge i k with h | h
      · have := h2 i h
        rw [ei] at this
        exact absurd this (Nat.lt_irrefl _)
      · exact h
    have := hle k i hk hi
    rw [ei] at this
    have : ¬ x < l.getD k 0 := Nat.not_lt.2 this
    simp only [hx, show k < l.length by omega, this, decide_true, decide_false, Bool.not_false, Bool.and_self]
  · simp only [hx, decide_false, Bool.and_eq_false_iff, decide_eq_false_iff_not, Bool.not_eq_false', decide_eq_true_eq]
    by_cases hk : k < l.length
    · right
      have := h3 k (Nat.le_refl _) hk
      have hne : l.getD k 0 ≠ x := by
        intro e
        apply hx
        rw [← e]
        simp only [List.getD_eq_getElem?_getD, List.getElem?_eq_getElem hk, Option.getD_some]
        exact List.getElem_mem hk
      idomega
    · left; exact hk

/-- The rearrangement `put x after the element before it in the sequence`, for every `x` of a sequence whose flag is `false`, in
turn. -/
def script : Option Id → List (Id × Bool) → List (Option Id × Id)
  | _, [] => []
  | p, (x, b) :: l => (if b then [] else [(p, x)]) ++ script (some x) l

theorem saveFrom_disp {o : Id → Bool} {x : Id} (h : o x = false) (p : Id) (ls : Nat) (xs : List Id) :
    saveFrom o p ls (x :: xs) = (if 1 < ls then [some p] else []) ++ some x :: saveFrom o x 1 xs := by
  simp only [saveFrom, saveLoop, h, if_true, List.append_assoc, List.cons_append]

theorem saveFrom_ord {o : Id → Bool} {x : Id} (h : o x = true) (p : Id) (ls : Nat) (xs : List Id) :
    saveFrom o p ls (x :: xs) = (if ls = 2 then [none] else []) ++ saveFrom o x (ls + 1) xs := by
  simp only [saveFrom, saveLoop, h, Bool.true_eq_false, if_false, List.append_assoc]

/-- Reading what the saver writes. The three states of the saver: nothing open; the last element was written; the element before the
last one was. -/
theorem parse_from {es : List Id} {o : Id → Bool} : ∀ (xs : List Id) (ts : List (Option Id)),
    (∀ (p : Id) (prev : Option Id) (ls : Nat), (p :: xs).Nodup → (∀ x ∈ p :: xs, checkNode es x = true) → 3 ≤ ls →
      ∃ l : List (Id × Bool), l.map Prod.fst = xs ∧ (∀ i ∈ l, i.2 = true → o i.1 = true) ∧
        parse es none (saveFrom o p ls xs ++ ts) = (script (some p) l, true, ts)) ∧
    (∀ p : Id, (p :: xs).Nodup → (∀ x ∈ p :: xs, checkNode es x = true) →
      ∃ l : List (Id × Bool), l.map Prod.fst = xs ∧ (∀ i ∈ l, i.2 = true → o i.1 = true) ∧
        parse es (some p) (saveFrom o p 1 xs ++ ts) = (script (some p) l, true, ts)) ∧
    (∀ q p : Id, (q :: p :: xs).Nodup → (∀ x ∈ q :: p :: xs, checkNode es x = true) → o p = true →
      ∃ (l : List (Id × Bool)) (b : Bool), l.map Prod.fst = xs ∧ (∀ i ∈ l, i.2 = true → o i.1 = true) ∧
        parse es (some q) (saveFrom o p 2 xs ++ ts) = (script (some q) ((p, b) :: l), true, ts))
  | [], ts => by
    refine ⟨fun p _ ls _ _ h => ⟨[], rfl, by simp, ?_⟩, fun p _ _ => ⟨[], rfl, by simp, ?_⟩, fun q p _ _ _ => ⟨[], true, rfl, by simp, ?_⟩⟩
    · simp [saveFrom, saveLoop, show ¬ ls ≤ 2 by omega, parse, script]
    · simp [saveFrom, saveLoop, parse, script]
    · simp [saveFrom, saveLoop, parse, script]
  | x :: xs, ts => by
    obtain ⟨A, B, C⟩ := parse_from (es := es) (o := o) xs ts
    refine ⟨?_, ?_, ?_⟩
    · intro p prev ls hn hc hls
      have hxp : x ≠ p := by
        intro e; simp [e] at hn
      have hn' := (List.nodup_cons.1 hn).2
      have hc' : ∀ y ∈ x :: xs, checkNode es y = true := fun y hy => hc y (List.mem_cons_of_mem _ hy)
      cases ho : o x with
      | false =>
        obtain ⟨l, e1, e2, e3⟩ := B x hn' hc'
        refine ⟨(x, false) :: l, by simp [e1], by simpa using e2, ?_⟩
        rw [saveFrom_disp ho, if_pos (by omega)]
        simp only [List.cons_append, List.nil_append, parse, hc p (by simp), hc x (by simp), if_true, e3, script, hxp, if_false, Bool.false_eq_true]
      | true =>
        obtain ⟨l, e1, e2, e3⟩ := A x none (ls + 1) hn' hc' (by omega)
        refine ⟨(x, true) :: l, by simp [e1], ?_, ?_⟩
        · intro i hi hb
          rcases List.mem_cons.1 hi with rfl | hi
          · exact ho
          · exact e2 i hi hb
        · rw [saveFrom_ord ho, if_neg (by omega)]
          simp only [List.nil_append, e3, script, if_true]
    · intro p hn hc
      have hxp : x ≠ p := by
        intro e; simp [e] at hn
      have hn' := (List.nodup_cons.1 hn).2
      have hc' : ∀ y ∈ x :: xs, checkNode es y = true := fun y hy => hc y (List.mem_cons_of_mem _ hy)
      cases ho : o x with
      | false =>
        obtain ⟨l, e1, e2, e3⟩ := B x hn' hc'
        refine ⟨(x, false) :: l, by simp [e1], by simpa using e2, ?_⟩
        rw [saveFrom_disp ho, if_neg (by omega)]
        simp only [List.cons_append, List.nil_append, parse, hc x (by simp), if_true, e3, script, hxp, if_false, Bool.false_eq_true]
      | true =>
        obtain ⟨l, b, e1, e2, e3⟩ := C p x hn hc ho
        refine ⟨(x, b) :: l, by simp [e1], ?_, ?_⟩
        · intro i hi hb
          rcases List.mem_cons.1 hi with rfl | hi
          · exact ho
          · exact e2 i hi hb
        · rw [saveFrom_ord ho, if_neg (by omega)]
          simp only [List.nil_append, e3]
    · intro q p hn hc hop
      have hpq : p ≠ q := by
        intro e; simp [e] at hn
      have hn1 := (List.nodup_cons.1 hn).2
      have hxp : x ≠ p := by
        intro e; simp [e] at hn1
      have hn' := (List.nodup_cons.1 hn1).2
      have hc1 : ∀ y ∈ p :: x :: xs, checkNode es y = true := fun y hy => hc y (List.mem_cons_of_mem _ hy)
      have hc' : ∀ y ∈ x :: xs, checkNode es y = true := fun y hy => hc1 y (List.mem_cons_of_mem _ hy)
      cases ho : o x with
      | false =>
        obtain ⟨l, e1, e2, e3⟩ := B x hn' hc'
        refine ⟨(x, false) :: l, false, by simp [e1], by simpa using e2, ?_⟩
        rw [saveFrom_disp ho, if_pos (by omega)]
        simp only [List.cons_append, List.nil_append, parse, hc p (by simp), hc x (by simp), if_true, e3, script, hxp, hpq, if_false,
          Bool.false_eq_true]
      | true =>
        obtain ⟨l, e1, e2, e3⟩ := A x none 3 hn' hc' (by omega)
        refine ⟨(x, true) :: l, true, by simp [e1], ?_, ?_⟩
        · intro i hi hb
          rcases List.mem_cons.1 hi with rfl | hi
          · exact ho
          · exact e2 i hi hb
        · rw [saveFrom_ord ho, if_pos rfl]
          simp only [List.cons_append, List.nil_append, parse, e3, script, if_true]

theorem parse_save {es xs : List Id} {o : Id → Bool} (ts : List (Option Id)) (hn : xs.Nodup) (hc : ∀ x ∈ xs, checkNode es x = true) :
    ∃ l : List (Id × Bool), l.map Prod.fst = xs ∧ (∀ i ∈ l, i.2 = true → o i.1 = true) ∧
      parse es none (saveFrom o (xs.headD 0) 3 xs ++ ts) = (script none l, true, ts) := by
  cases xs with
  | nil => exact ⟨[], rfl, by simp, by simp [saveFrom, saveLoop, parse, script]⟩
  | cons x xs =>
    obtain ⟨A, B, C⟩ := parse_from (es := es) (o := o) xs ts
    simp only [List.headD_cons]
    cases ho : o x with
    | false =>
      obtain ⟨l, e1, e2, e3⟩ := B x hn hc
      refine ⟨(x, false) :: l, by simp [e1], by simpa using e2, ?_⟩
      rw [saveFrom_disp ho, if_pos (by omega)]
      simp only [List.cons_append, List.nil_append, parse, hc x (by simp), if_true, e3, script, Bool.false_eq_true, if_false]
    | true =>
      obtain ⟨l, e1, e2, e3⟩ := A x none 4 hn hc (by omega)
      refine ⟨(x, true) :: l, by simp [e1], ?_, ?_⟩
      · intro i hi hb
        rcases List.mem_cons.1 hi with rfl | hi
        · exact ho
        · exact e2 i hi hb
      · rw [saveFrom_ord ho, if_neg (by omega)]
        simp only [List.nil_append, e3, script, if_true]

end MI.Ser
