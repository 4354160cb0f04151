import Verif.Guard.Spec
import Mathlib.Data.List.Induction
namespace MI.Guard
variable {bad : Nat → Bool}

theorem run_snoc (s : St) (tr : List Ev) (e : Ev) : run s (tr ++ [e]) = step (run s tr) e := by simp [run]

/-- Guard `g` exists, is not dismissed, and has action `a`. -/
def Armed (s : St) (a g : Nat) : Prop := s.obj g = some ⟨some a, false⟩

/-- Who is armed after the history, and what was run. -/
structure Inv (a : Nat) (tr : List Ev) (s : St) : Prop where
  uniq : ∀ g h, Armed s a g → Armed s a h → g = h
  armed : ∀ g, Armed s a g ↔ Holds a tr g
  idle : ∀ g, Armed s a g → s.log.count a = 0
  most : s.log.count a ≤ 1
  made : (∀ h, Ev.make h a true ∉ tr) → s.log.count a = 0 ∧ ∀ g, ¬ Armed s a g
  due : (∃ h, Ev.make h a true ∈ tr) → (∀ g, Ev.dismiss g ∉ tr) → s.log.count a = 1 ∨ ∃ g, Armed s a g

theorem holds_snoc {a : Nat} {tr : List Ev} {e : Ev} {g : Nat} :
    Holds a (tr ++ [e]) g ↔ e = .make g a true ∨ (∃ g', e = .copy g' g ∧ Holds a tr g') ∨ (Holds a tr g ∧ ¬ About g e) := by
  constructor
  · intro h
    generalize eq : tr ++ [e] = t at h
    cases h with
    | made => obtain ⟨rfl, h⟩ := List.append_inj' eq rfl; simp at h; exact .inl h
    | copied h' => obtain ⟨rfl, h⟩ := List.append_inj' eq rfl; simp at h; exact .inr (.inl ⟨_, h, h'⟩)
    | kept h' n => obtain ⟨rfl, h⟩ := List.append_inj' eq rfl; simp at h; subst h; exact .inr (.inr ⟨h', n⟩)
  · rintro (rfl | ⟨g', rfl, h⟩ | ⟨h, n⟩)
    · exact .made
    · exact .copied h
    · exact .kept h n

theorem armed_step {s : St} {e : Ev} {a g : Nat} (can : Can s e) :
    Armed (step s e) a g ↔ e = .make g a true ∨ (∃ g', e = .copy g' g ∧ Armed s a g') ∨ (Armed s a g ∧ ¬ About g e) := by
  cases e with
  | make g' a' c =>
    have hnone : s.obj g' = none := can
    by_cases hg : g = g'
    · subst hg
      cases c
      · simp [step, St.put, Armed, hnone]
      · simp [step, St.put, Armed, hnone]
    · have : g' ≠ g := fun h => hg h.symm
      simp [step, St.put, Armed, About, hg, this]
  | copy g' h' =>
    obtain ⟨c1, c2⟩ : s.obj g' ≠ none ∧ s.obj h' = none := can
    obtain ⟨o, ho⟩ := Option.ne_none_iff_exists'.1 c1
    have hne : g' ≠ h' := by rintro rfl; simp [c2] at c1
    by_cases hg : g = h'
    · subst hg
      cases o
      simp [step, St.put, Armed, About, ho, c2, hne]
    · have h1 : h' ≠ g := fun h => hg h.symm
      by_cases h2 : g = g'
      · subst h2
        simp [step, St.put, Armed, About, ho, hg, h1]
      · have h3 : g' ≠ g := fun h => h2 h.symm
        simp [step, St.put, Armed, About, ho, hg, h1, h2, h3]
  | dismiss g' =>
    obtain ⟨o, ho⟩ := Option.ne_none_iff_exists'.1 (show s.obj g' ≠ none from can)
    by_cases hg : g = g'
    · subst hg; simp [step, St.put, Armed, About, ho]
    · have : g' ≠ g := fun h => hg h.symm
      simp [step, St.put, Armed, About, ho, hg, this]
  | destroy g' =>
    obtain ⟨o, ho⟩ := Option.ne_none_iff_exists'.1 (show s.obj g' ≠ none from can)
    have hl : (safeExecute s o).obj = s.obj := by
      unfold safeExecute execute; repeat' split
      all_goals rfl
    by_cases hg : g = g'
    · subst hg; simp [step, St.put, Armed, About, ho]
    · have : g' ≠ g := fun h => hg h.symm
      simp [step, St.put, Armed, About, ho, hg, this, hl]

/-- Actions are run at the destruction of guards that are armed. -/
theorem log_step {s : St} {e : Ev} (a : Nat) : (∃ g, e = .destroy g ∧ Armed s a g ∧ (step s e).log = s.log ++ [a]) ∨
    ((∀ g, e = .destroy g → ¬ Armed s a g) ∧ (step s e).log.count a = s.log.count a) := by
  cases e with
  | make => exact .inr ⟨by simp, rfl⟩
  | copy g h =>
    refine .inr ⟨by simp, ?_⟩
    simp only [step]; split <;> rfl
  | dismiss g =>
    refine .inr ⟨by simp, ?_⟩
    simp only [step]; split <;> rfl
  | destroy g =>
    by_cases ha : Armed s a g
    · refine .inl ⟨g, rfl, ha, ?_⟩
      unfold Armed at ha
      simp [step, ha, safeExecute, execute, St.put]
    · refine .inr ⟨fun g' h => by cases h; exact ha, ?_⟩
      simp only [step]
      split
      · rename_i o ho
        obtain ⟨act, d⟩ := o
        cases d
        · cases act with
          | none => simp [safeExecute, execute, St.put]
          | some b =>
            have : b ≠ a := by rintro rfl; exact ha ho
            simp [safeExecute, execute, St.put, List.count_append, this]
        · simp [safeExecute, St.put]
      · rfl

theorem inv {tr : List Ev} (l : Legal bad tr) (a : Nat) : Inv a tr (run (.init bad) tr) := by
  induction l with
  | nil =>
    refine ⟨?_, ?_, ?_, ?_, ?_, ?_⟩ <;> simp [run, St.init, Armed]
    intro g h
    generalize eq : ([] : List Ev) = t at h
    cases h <;> simp at eq
  | @snoc tr e l can once ih =>
    rw [run_snoc]
    generalize run (.init bad) tr = s at *
    have as := fun g => armed_step (a := a) (g := g) can
    -- an armed guard excludes the action being made anew
    have fresh : ∀ g, e = .make g a true → s.log.count a = 0 ∧ ∀ g, ¬ Armed s a g := fun g h => ih.made (once g a h)
    have noboth : ∀ {g h}, e = .make g a true → Armed s a h → False := fun h1 h2 => (fresh _ h1).2 _ h2
    refine ⟨?_, ?_, ?_, ?_, ?_, ?_⟩
    · intro g h hg hh
      rw [as] at hg hh
      rcases hg with rfl | ⟨g', rfl, hg⟩ | ⟨hg, n⟩ <;> rcases hh with h1 | ⟨h', h1, hh⟩ | ⟨hh, m⟩
      · cases h1; rfl
      · cases h1
      · exact (noboth rfl hh).elim
      · cases h1
      · cases h1; rfl
      · exact absurd (ih.uniq _ _ hg hh) m
      · exact (noboth h1 hg).elim
      · subst h1; exact absurd (ih.uniq _ _ hh hg) n
      · exact ih.uniq _ _ hg hh
    · intro g
      rw [as, holds_snoc]
      simp only [ih.armed]
    · intro g hg
      rw [as] at hg
      rcases log_step (s := s) (e := e) a with ⟨g', rfl, h1, h2⟩ | ⟨-, h2⟩
      · rcases hg with h | ⟨_, h, -⟩ | ⟨h, n⟩
        · cases h
        · cases h
        · exact absurd (ih.uniq _ _ h1 h) n
      · rw [h2]
        rcases hg with h | ⟨_, -, h⟩ | ⟨h, -⟩
        · exact (fresh _ h).1
        · exact ih.idle _ h
        · exact ih.idle _ h
    · rcases log_step (s := s) (e := e) a with ⟨g', rfl, h1, h2⟩ | ⟨-, h2⟩
      · rw [h2, List.count_append, ih.idle _ h1]; simp
      · rw [h2]; exact ih.most
    · intro hm
      have hm' : ∀ h, Ev.make h a true ∉ tr := fun h hh => hm h (List.mem_append_left _ hh)
      obtain ⟨h1, h2⟩ := ih.made hm'
      have hn : ∀ g, ¬ Armed (step s e) a g := by
        intro g hg
        rw [as] at hg
        rcases hg with rfl | ⟨_, -, h⟩ | ⟨h, -⟩
        · exact hm g (by simp)
        · exact h2 _ h
        · exact h2 _ h
      refine ⟨?_, hn⟩
      rcases log_step (s := s) (e := e) a with ⟨g', -, h, -⟩ | ⟨-, h⟩
      · exact (h2 _ h).elim
      · rw [h, h1]
    · rintro ⟨h, hm⟩ hd
      rcases List.mem_append.1 hm with hm | hm
      · have hd' : ∀ g, Ev.dismiss g ∉ tr := fun g hh => hd g (List.mem_append_left _ hh)
        rcases ih.due ⟨h, hm⟩ hd' with h1 | ⟨g, hg⟩
        · rcases log_step (s := s) (e := e) a with ⟨g', -, h, -⟩ | ⟨-, h⟩
          · have := ih.idle _ h; omega
          · exact .inl (by rw [h, h1])
        · rcases log_step (s := s) (e := e) a with ⟨g', rfl, h, h2⟩ | ⟨hno, -⟩
          · left; rw [h2, List.count_append, ih.idle _ h]; simp
          · right
            cases e with
            | make g' a' c => exact ⟨g, (as g).2 (.inr (.inr ⟨hg, id⟩))⟩
            | copy g' h' =>
              by_cases hh : g' = g
              · subst hh; exact ⟨h', (as h').2 (.inr (.inl ⟨g', rfl, hg⟩))⟩
              · exact ⟨g, (as g).2 (.inr (.inr ⟨hg, hh⟩))⟩
            | dismiss g' => exact absurd (List.mem_append_right _ (by simp)) (hd g')
            | destroy g' => exact ⟨g, (as g).2 (.inr (.inr ⟨hg, fun hh => hno g' rfl (hh ▸ hg)⟩))⟩
      · simp at hm
        exact .inr ⟨h, (as h).2 (.inl hm.symm)⟩

theorem Legal.left {t : List Ev} : ∀ {u : List Ev}, Legal bad (t ++ u) → Legal bad t := by
  intro u
  induction u using List.reverseRecOn with
  | nil => simp
  | append_singleton u e ih =>
    intro h
    rw [← List.append_assoc] at h
    generalize eq : (t ++ u) ++ [e] = x at h
    cases h with
    | nil => simp at eq
    | snoc l _ _ => obtain ⟨rfl, -⟩ := List.append_inj' eq rfl; exact ih l

theorem Legal.last {t : List Ev} {e : Ev} (h : Legal bad (t ++ [e])) : Can (run (.init bad) t) e ∧ ∀ g a, e = .make g a true → ∀ h, .make h a true ∉ t := by
  generalize eq : t ++ [e] = x at h
  cases h with
  | nil => simp at eq
  | snoc l c o =>
    obtain ⟨rfl, h⟩ := List.append_inj' eq rfl
    simp at h; subst h; exact ⟨c, o⟩

/-- Once made, and without a guard in charge of it, an action is never run any more. -/
theorem stays {a : Nat} {t : List Ev} (hm : ∃ h, Ev.make h a true ∈ t) (hn : ∀ g, ¬ Armed (run (.init bad) t) a g) :
    ∀ {u : List Ev}, Legal bad (t ++ u) → (run (.init bad) (t ++ u)).log.count a = (run (.init bad) t).log.count a ∧ ∀ g, ¬ Armed (run (.init bad) (t ++ u)) a g := by
  intro u
  induction u using List.reverseRecOn with
  | nil => intro _; simpa using hn
  | append_singleton u e ih =>
    intro h
    rw [← List.append_assoc] at h ⊢
    obtain ⟨i1, i2⟩ := ih h.left
    obtain ⟨c, o⟩ := h.last
    rw [run_snoc]
    refine ⟨?_, fun g hg => ?_⟩
    · rcases log_step (s := run (.init bad) (t ++ u)) (e := e) a with ⟨g', -, h, -⟩ | ⟨-, h⟩
      · exact (i2 _ h).elim
      · rw [h, i1]
    · rw [armed_step c] at hg
      rcases hg with rfl | ⟨_, -, h⟩ | ⟨h, -⟩
      · obtain ⟨h, hm⟩ := hm
        exact o _ _ rfl h (List.mem_append_left _ hm)
      · exact i2 _ h
      · exact i2 _ h

theorem Holds.made' {a : Nat} {tr : List Ev} {g : Nat} (h : Holds a tr g) : ∃ h, Ev.make h a true ∈ tr := by
  induction h with
  | @made tr g => exact ⟨g, by simp⟩
  | copied _ ih => obtain ⟨h, i⟩ := ih; exact ⟨h, List.mem_append_left _ i⟩
  | kept _ _ ih => obtain ⟨h, i⟩ := ih; exact ⟨h, List.mem_append_left _ i⟩

theorem hand_run : ∀ (n g : Nat) (s : St), s.obj g = some ⟨some 0, false⟩ →
    (run s (hand g n)).log = s.log ∧ (run s (hand g n)).bad = s.bad ∧ (run s (hand g n)).raised = s.raised ∧ (run s (hand g n)).obj (g + n) = some ⟨some 0, false⟩
  | 0, g, s, h => ⟨rfl, rfl, rfl, h⟩
  | n + 1, g, s, h => by
    have ne : g ≠ g + 1 := by omega
    have := hand_run n (g + 1) (step (step s (.copy g (g + 1))) (.destroy g)) (by simp [step, h, St.put, safeExecute])
    obtain ⟨a, b, c, d⟩ := this
    rw [show run s (hand g (n + 1)) = run (step (step s (.copy g (g + 1))) (.destroy g)) (hand (g + 1) n) from rfl, a, b, c, show g + (n + 1) = g + 1 + n by omega, d]
    simp [step, h, St.put, safeExecute]
end MI.Guard
