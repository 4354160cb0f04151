import Verif.Guard.Lemmas
/-!
# C90: checks of invariants happen once, when an operation is left

With invariant checking enabled, a member function makes a guard that checks the container when the function is left.
-/
namespace MI.Guard
variable {bad : Nat → Bool}

/-- C90: however the body of a member function is left, however often the guard was copied before, and whether or not the check throws, the container is checked exactly once, in the state in which
the body left it, and the function is left the way the body is. -/
theorem C90_member {σ R E : Type} (bad : Bool) (n : Nat) (body : σ → σ × Exit R E) (s : σ) : member bad n body s = ((body s).1, (body s).2, [(body s).1]) := by
  obtain ⟨h1, -, -, h2⟩ := hand_run n 0 (step (.init fun _ => bad) (.make 0 0 true)) (by simp [step, St.put])
  rw [Nat.zero_add] at h2
  unfold member
  rw [show run (.init fun _ => bad) (.make 0 0 true :: hand 0 n) = run (step (.init fun _ => bad) (.make 0 0 true)) (hand 0 n) from rfl]
  have h1 : _ = [] := h1
  generalize run (step (.init fun _ => bad) (.make 0 0 true)) (hand 0 n) = g at h1 h2
  simp [run, step, h2, h1, safeExecute, execute, St.put]

/-- C90: in any history of guards, an action is run at most once. -/
theorem C90_at_most_once {tr : List Ev} (l : Legal bad tr) (a : Nat) : (run (.init bad) tr).log.count a ≤ 1 := (inv l a).most

/-- C90: if no guard was dismissed, each action given to a guard has been run exactly once by the time all guards are destroyed. -/
theorem C90_once {tr : List Ev} (l : Legal bad tr) (nd : ∀ g, Ev.dismiss g ∉ tr) (gone : ∀ g, (run (.init bad) tr).obj g = none) {g a : Nat} (m : Ev.make g a true ∈ tr) :
    (run (.init bad) tr).log.count a = 1 := by
  rcases (inv l a).due ⟨g, m⟩ nd with h | ⟨g', h⟩
  · exact h
  · unfold Armed at h; rw [gone] at h; cases h

/-- C90: the action is run when the guard in charge of it is destroyed, and not before. -/
theorem C90_when {tr : List Ev} {g a : Nat} (l : Legal bad (tr ++ [.destroy g])) (h : Holds a tr g) :
    a ∉ (run (.init bad) tr).log ∧ (run (.init bad) (tr ++ [.destroy g])).log = (run (.init bad) tr).log ++ [a] := by
  have i := inv l.left a
  have ha := (i.armed g).2 h
  refine ⟨List.count_eq_zero.1 (i.idle g ha), ?_⟩
  rw [run_snoc]
  unfold Armed at ha
  simp [step, ha, safeExecute, execute, St.put]

/-- C90: no exception leaves a destructor of a guard, in any history, whatever the actions do. -/
theorem C90_no_throw (tr : List Ev) : (run (.init bad) tr).raised = false := by
  induction tr using List.reverseRecOn with
  | nil => rfl
  | append_singleton tr e ih =>
    rw [run_snoc]
    generalize run (.init bad) tr = s at ih
    cases e <;> simp only [step]
    · exact ih
    · split <;> exact ih
    · split <;> exact ih
    · split
      · simp only [safeExecute, St.put]; split
        · exact ih
        · rfl
      · exact ih

/-- C90: destroying a guard that is in charge of nothing runs nothing: it was copied or dismissed before, or was made with a condition that is false. -/
theorem C90_idle {tr : List Ev} {g : Nat} (l : Legal bad (tr ++ [.destroy g])) (h : ∀ a, ¬ Holds a tr g) : (run (.init bad) (tr ++ [.destroy g])).log = (run (.init bad) tr).log := by
  rw [run_snoc]
  obtain ⟨⟨act, d⟩, ho⟩ := Option.ne_none_iff_exists'.1 (show (run (.init bad) tr).obj g ≠ none from l.last.1)
  cases d with
  | true => simp [step, ho, safeExecute, St.put]
  | false =>
    cases act with
    | none => simp [step, ho, safeExecute, execute, St.put]
    | some a => exact absurd (((inv l.left a).armed g).1 ho) (h a)

/-- C90: the action of a guard that is dismissed while in charge is never run. -/
theorem C90_dismissed {tr u : List Ev} {g a : Nat} (l : Legal bad (tr ++ [.dismiss g] ++ u)) (h : Holds a tr g) : a ∉ (run (.init bad) (tr ++ [.dismiss g] ++ u)).log := by
  have i := inv l.left.left a
  have j := inv l.left a
  have ha := (i.armed g).2 h
  obtain ⟨m, hm⟩ := h.made'
  have hn : ∀ x, ¬ Armed (run (.init bad) (tr ++ [.dismiss g])) a x := by
    intro x hx
    rw [run_snoc, armed_step l.left.last.1] at hx
    rcases hx with e | ⟨_, e, -⟩ | ⟨hx, n⟩
    · cases e
    · cases e
    · exact n (i.uniq _ _ ha hx)
  refine List.count_eq_zero.1 ?_
  rw [(stays ⟨m, List.mem_append_left _ hm⟩ hn l).1, run_snoc]
  rcases log_step (s := run (.init bad) tr) (e := .dismiss g) a with ⟨_, e, -⟩ | ⟨-, e⟩
  · cases e
  · rw [e]; exact i.idle g ha

/-! Two guards, one copied twice, one dismissed. -/
def exTr : List Ev := [.make 0 7 true, .copy 0 1, .destroy 0, .make 2 8 true, .make 5 9 false, .copy 1 3, .destroy 1]

theorem exTr_legal : Legal bad exTr := by
  have h0 := Legal.nil (bad := bad)
  have h1 := h0.snoc (e := .make 0 7 true) (by simp [Can, run, St.init]) (by simp)
  have h2 := h1.snoc (e := .copy 0 1) (by simp [Can, run, step, St.put, St.init]) (by simp)
  have h3 := h2.snoc (e := .destroy 0) (by simp [Can, run, step, St.put, St.init]) (by simp)
  have h4 := h3.snoc (e := .make 2 8 true) (by simp [Can, run, step, St.put, St.init, safeExecute]) (by simp)
  have h5 := h4.snoc (e := .make 5 9 false) (by simp [Can, run, step, St.put, St.init, safeExecute]) (by simp)
  have h6 := h5.snoc (e := .copy 1 3) (by simp [Can, run, step, St.put, St.init, safeExecute]) (by simp)
  exact h6.snoc (e := .destroy 1) (by simp [Can, run, step, St.put, St.init, safeExecute]) (by simp)

theorem exTr_dismiss : Legal bad (exTr ++ [.dismiss 2] ++ [.destroy 2]) :=
  (exTr_legal.snoc (by simp [Can, exTr, run, step, St.put, St.init, safeExecute]) (by simp)).snoc
    (by simp [Can, exTr, run, step, St.put, St.init, safeExecute]) (by simp)

theorem exTr_destroy : Legal bad (exTr ++ [.destroy 3]) :=
  exTr_legal.snoc (by simp [Can, exTr, run, step, St.put, St.init, safeExecute]) (by simp)

theorem exTr_holds : Holds 7 exTr 3 ∧ Holds 8 exTr 2 :=
  ⟨((((((Holds.made (tr := [])).copied.kept (e := .destroy 0) (by simp [About])).kept (e := .make 2 8 true) (by simp [About])).kept (e := .make 5 9 false)
      (by simp [About])).copied (h := 3)).kept (e := .destroy 1) (by simp [About])),
    (((Holds.made (tr := [.make 0 7 true, .copy 0 1, .destroy 0])).kept (e := .make 5 9 false) (by simp [About])).kept (e := .copy 1 3) (by simp [About])).kept (e := .destroy 1)
      (by simp [About])⟩

example : 8 ∉ (run (.init bad) (exTr ++ [.dismiss 2] ++ [.destroy 2])).log := C90_dismissed exTr_dismiss exTr_holds.2
example : (run (.init bad) exTr).log = [] ∧ (run (.init bad) (exTr ++ [.destroy 3])).log = [7] := by
  have h := (C90_when (exTr_destroy (bad := bad)) exTr_holds.1).2
  have : (run (.init bad) exTr).log = [] := by simp [exTr, run, step, St.put, St.init, safeExecute]
  rw [this] at h; exact ⟨this, h⟩

/-- All guards of the history destroyed, in the end. -/
theorem exTr_end : Legal bad (exTr ++ [.destroy 3] ++ [.destroy 5] ++ [.destroy 2]) :=
  (exTr_destroy.snoc (by simp [Can, exTr, run, step, St.put, St.init, safeExecute, execute]) (by simp)).snoc
    (by simp [Can, exTr, run, step, St.put, St.init, safeExecute, execute]) (by simp)

example : (run (.init bad) (exTr ++ [.destroy 3] ++ [.destroy 5] ++ [.destroy 2])).log.count 8 = 1 :=
  C90_once exTr_end (by simp [exTr]) (by
    intro g
    simp [exTr, run, step, St.put, St.init, safeExecute, execute]
    repeat' split
    all_goals first | rfl | simp_all) (g := 2) (by simp [exTr])

example : (run (.init bad) (exTr ++ [.destroy 3] ++ [.destroy 5])).log = (run (.init bad) (exTr ++ [.destroy 3])).log :=
  C90_idle exTr_end.left (by
    intro a h
    have := ((inv (exTr_destroy (bad := bad)) a).armed 5).2 h
    simp [Armed, exTr, run, step, St.put, St.init, safeExecute, execute] at this)

/-- A function that changes the state and throws. -/
example : member true 2 (fun s : Nat => (s + 1, (.throws 5 : Exit Unit Nat))) 3 = (4, .throws 5, [4]) := C90_member true 2 _ 3
end MI.Guard
