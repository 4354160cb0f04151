import Verif.Mt.Model
/-!
Runs given step by step, for examples.
-/
namespace MI.Mt
open MI

/-- The rules, with `use` telling what operations use. -/
def RulesWith (use : (Nat → View) → Op → Use) (σ : Sys) (t : Tid) (o : Op) : Prop :=
  o.Legal σ.views ∧ ∀ u th, σ.thr u = some th → u ≠ t → (use σ.views o).Compat (use th.snap th.op)

inductive Ev
  | start (t : Tid) (o : Op)
  /-- this many steps -/
  | go (t : Tid) (n : Nat)
  /-- until the operation ends -/
  | fin (t : Tid)

def Sys.goN : Nat → Tid → Sys → Option Sys
  | 0, _, σ => some σ
  | n + 1, t, σ => (σ.run t).bind (Sys.goN n t)

def Sys.goEnd : Nat → Tid → Sys → Option Sys
  | 0, _, _ => none
  | n + 1, t, σ => if (σ.thr t).isNone then some σ else (σ.run t).bind (Sys.goEnd n t)

/-- The threads `l` do as told, unless that breaks the rules. -/
def Sys.play (use : (Nat → View) → Op → Use) (l : List Tid) : List Ev → Sys → Option Sys
  | [], σ => some σ
  | .start t o :: es, σ =>
    if t ∈ l ∧ (σ.thr t).isNone ∧ o.Legal σ.views ∧ (∀ u ∈ l, ∀ th ∈ σ.thr u, u ≠ t → (use σ.views o).Compat (use th.snap th.op))
    then Sys.play use l es (σ.begin t o) else none
  | .go t n :: es, σ => (σ.goN n t).bind (Sys.play use l es)
  | .fin t :: es, σ => (σ.goEnd 100 t).bind (Sys.play use l es)

theorem run_only {σ σ' : Sys} {t : Tid} (h : σ.run t = some σ') : ∀ u, σ'.thr u ≠ none → σ.thr u ≠ none := by
  intro u hu
  unfold Sys.run at h
  split at h
  · cases h
  · next th ht =>
    by_cases e : u = t
    · rw [e, ht]; simp
    · split at h
      · cases h; simp only [upd_other _ _ e] at hu; exact hu
      · split at h
        · cases h
        · cases h; simp only [upd_other _ _ e] at hu; exact hu

theorem goN_reach {use : (Nat → View) → Op → Use} {n : Nat} {t : Tid} {σ σ' : Sys} {l : List Tid} (h : Reach (RulesWith use) σ) (hl : ∀ u, σ.thr u ≠ none → u ∈ l) (he : σ.goN n t = some σ') :
    Reach (RulesWith use) σ' ∧ ∀ u, σ'.thr u ≠ none → u ∈ l := by
  induction n generalizing σ with
  | zero => cases he; exact ⟨h, hl⟩
  | succ n ih =>
    rw [Sys.goN] at he
    cases hr : σ.run t with
    | none => rw [hr] at he; cases he
    | some σ1 =>
      rw [hr] at he
      exact ih (h.run t hr) (fun u hu => hl u (run_only hr u hu)) he

theorem goEnd_reach {use : (Nat → View) → Op → Use} {n : Nat} {t : Tid} {σ σ' : Sys} {l : List Tid} (h : Reach (RulesWith use) σ) (hl : ∀ u, σ.thr u ≠ none → u ∈ l) (he : σ.goEnd n t = some σ') :
    Reach (RulesWith use) σ' ∧ ∀ u, σ'.thr u ≠ none → u ∈ l := by
  induction n generalizing σ with
  | zero => cases he
  | succ n ih =>
    rw [Sys.goEnd] at he
    split at he
    · cases he; exact ⟨h, hl⟩
    · cases hr : σ.run t with
      | none => rw [hr] at he; cases he
      | some σ1 =>
        rw [hr] at he
        exact ih (h.run t hr) (fun u hu => hl u (run_only hr u hu)) he

theorem play_reach {use : (Nat → View) → Op → Use} {l : List Tid} {es : List Ev} {σ σ' : Sys} (h : Reach (RulesWith use) σ) (hl : ∀ u, σ.thr u ≠ none → u ∈ l) (he : σ.play use l es = some σ') :
    Reach (RulesWith use) σ' ∧ ∀ u, σ'.thr u ≠ none → u ∈ l := by
  induction es generalizing σ with
  | nil => cases he; exact ⟨h, hl⟩
  | cons e es ih =>
    cases e with
    | start t o =>
      rw [Sys.play] at he
      split at he
      · next hc =>
        obtain ⟨c1, c2, c3, c4⟩ := hc
        refine ih (h.begin t o (Option.isNone_iff_eq_none.1 c2) ⟨c3, fun u th hu hne => ?_⟩) (fun u hu => ?_) he
        · exact c4 u (hl u (by rw [hu]; simp)) th hu hne
        · by_cases e : u = t
          · rw [e]; exact c1
          · exact hl u (by rw [← show (σ.begin t o).thr u = _ from upd_other _ _ e]; exact hu)
      · cases he
    | go t n =>
      rw [Sys.play] at he
      cases hr : σ.goN n t with
      | none => rw [hr] at he; cases he
      | some σ1 =>
        rw [hr] at he
        obtain ⟨h1, h2⟩ := goN_reach h hl hr
        exact ih h1 h2 he
    | fin t =>
      rw [Sys.play] at he
      cases hr : σ.goEnd 100 t with
      | none => rw [hr] at he; cases he
      | some σ1 =>
        rw [hr] at he
        obtain ⟨h1, h2⟩ := goEnd_reach h hl hr
        exact ih h1 h2 he

end MI.Mt
