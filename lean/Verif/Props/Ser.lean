import Verif.Ser.MatcherLemmas

/-! Properties of serialization. -/
namespace MI.Ser

/-- The matcher runs once per index while a container is saved (detail/index_saver.hpp:56–63). -/
def Alg.executeAll (a : Alg) : List (List Id) → Option Alg
  | [] => some a
  | xs :: xss =>
    match a.execute xs with
    | some a' => a'.executeAll xss
    | none => none

/-- C39: the elements were saved in the sequence `base`; whatever indices (`earlier`) were treated before, when an index whose
elements come in the sequence `xs` is treated, no access is out of bounds, and the elements not marked as displaced come in the
same order in `base`; no other subsequence of `xs` that comes in the same order in `base` is longer. -/
theorem C39_longest {base : List Id} (hb : base.Nodup) (junk : Alg) (earlier : List (List Id)) (xs : List Id)
    (he : ∀ ys ∈ earlier, ys.Nodup ∧ ys ⊆ base) (hx : xs.Nodup ∧ xs ⊆ base) :
    ∃ a0 a1 a2, (Alg.new base.length junk).addAll base = some a0 ∧ a0.executeAll earlier = some a1 ∧ a1.execute xs = some a2 ∧
      (∀ x ∈ xs, a2.isOrdered x ≠ none) ∧
      (xs.filter fun x => decide (a2.isOrdered x = some true)).Sublist base ∧
      ∀ S : List Id, S.Sublist xs → S.Sublist base → S.length ≤ (xs.filter fun x => decide (a2.isOrdered x = some true)).length := by
  obtain ⟨a0, e0, r0⟩ := new_spec hb junk
  have hall : ∀ (yss : List (List Id)) (a : Alg), Ready a.begin base → (∀ ys ∈ yss, ys.Nodup ∧ ys ⊆ base) →
      ∃ a', a.executeAll yss = some a' ∧ Ready a'.begin base := by
    intro yss
    induction yss with
    | nil => intro a h _; exact ⟨a, rfl, h⟩
    | cons ys yss ih =>
      intro a h hys
      obtain ⟨h1, h2⟩ := hys ys (by simp)
      obtain ⟨a', e, hr, _⟩ := execute_spec h hb (fun x hx => h2 hx) h1
      obtain ⟨a'', e', hr'⟩ := ih a' (begin_of_ready hr) (fun zs hz => hys zs (List.mem_cons_of_mem _ hz))
      exact ⟨a'', by simp only [Alg.executeAll, e, e'], hr'⟩
  obtain ⟨a1, e1, r1⟩ := hall earlier a0 r0 he
  obtain ⟨a2, e2, _, h1, h2, h3⟩ := execute_spec r1 hb (fun x h => hx.2 h) hx.1
  refine ⟨a0, a1, a2, e0, e1, e2, ?_, h2, h3⟩
  intro x hxx
  obtain ⟨o, ho⟩ := h1 x (hx.2 hxx)
  rw [ho]
  exact (fun h => nomatch h)

/-- Not vacuous: base sequence 5 3 9 7, a first index 9 5 7 3, then one with order 3 5 9 7, where 5 (or 3) alone is displaced. -/
example : ((Alg.new 4 ⟨0, 0, true, 7, fun _ => 3, fun _ => 1, fun _ => 2, fun _ => true, fun _ => 8, fun _ => 6⟩).addAll [5, 3, 9, 7]).bind
    (fun a => (a.executeAll [[9, 5, 7, 3]]).bind fun a => (a.execute [3, 5, 9, 7]).map fun a => [3, 5, 9, 7].map a.isOrdered) =
    some [some false, some true, some true, some true] := by decide +kernel

end MI.Ser
