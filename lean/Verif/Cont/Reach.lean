import Verif.Cont.StepInv
/-!
Consequences of the invariant for reachable states.
-/
set_option linter.unusedVariables false
namespace MI.Cont
open MI
variable {V : Type}

theorem Reach.inv {w : World V} (r : Reach w) : Inv w := by
  induction r with
  | init val => exact inv_init _ rfl rfl
  | step _ l h ih =>
    obtain ⟨w2, r2, k, I⟩ := step_safe ih l
    rcases h with h | h <;> rcases k with k | k <;> rw [h] at k
    · obtain ⟨rfl, -⟩ := Prod.mk.inj (Out.ok.inj k); exact I
    · exact nomatch k
    · exact nomatch k
    · obtain ⟨rfl, -⟩ := Prod.mk.inj (Out.threw.inj k); exact I

theorem Reach.sound {w : World V} (r : Reach w) {c : Container V} (h : c ∈ w.cs) : Sound w.m.val c := r.inv.sound c h

/-- The sequence of index `k`, with its specifier and what it guarantees. -/
theorem Sound.index {val : Id → V} {c : Container V} (s : Sound val c) {k : Nat} {S : Spec V} (h : (specs c.ls)[k]? = some S) :
    ∃ L xs, c.ls[k]? = some L ∧ L.spec = S ∧ c.seqs[k]? = some xs ∧ L.walk c.budget c.hd = some xs ∧ L.Holds val c.hd xs ∧ xs.Perm c.elems ∧ S.Good val xs ∧ S.Ok := by
  unfold specs at h
  rw [List.getElem?_map] at h
  cases hL : c.ls[k]? with
  | none => rw [hL] at h; exact nomatch h
  | some L =>
    rw [hL] at h
    obtain rfl := Option.some.inj h
    obtain ⟨xs, h1, h2, h3⟩ := fit_get s.fit hL
    have ok := okAll_get s.ok hL
    exact ⟨L, xs, rfl, rfl, h1, Layer.walk_spec h2 (by rw [h3.length_eq]; exact s.budget), h2, h3, h2.good ok, ok⟩

theorem getElem?_of_mem {α : Type} {l : List α} {a : α} (h : a ∈ l) : ∃ k : Nat, l[k]? = some a := List.mem_iff_getElem?.1 h

theorem pairwise_mem {α : Type} {R : α → α → Prop} (sy : ∀ {a b}, R a b → R b a) {l : List α} (p : l.Pairwise R) :
    ∀ a ∈ l, ∀ b ∈ l, a ≠ b → R a b := by
  induction p with
  | nil => intro a h; exact nomatch h
  | cons h1 _ ih =>
    intro a ha b hb ne
    rcases List.mem_cons.1 ha with e1 | k1 <;> rcases List.mem_cons.1 hb with e2 | k2
    · exact absurd (e1.trans e2.symm) ne
    · rw [e1]; exact h1 b k2
    · rw [e2]; exact sy (h1 a k1)
    · exact ih a k1 b k2 ne

/-- In a unique index the keys of different elements are not equivalent. -/
theorem good_unique {S : Spec V} {val : Id → V} {xs : List Id} (ok : S.Ok) (u : S.unique = true) (g : S.Good val xs) :
    ∀ a ∈ xs, ∀ b ∈ xs, a ≠ b → S.equiv (val a) (val b) = false := by
  cases S with
  | seq => exact nomatch u
  | rnd => exact nomatch u
  | ord b lt =>
    cases b with
    | false => exact nomatch u
    | true =>
      have sw : StrictWeak lt := ok
      refine pairwise_mem (R := fun a b => equivOf lt (val a) (val b) = false) (fun h => by rw [StrictWeak.equiv_symm]; exact h) ?_
      refine List.Pairwise.imp (fun {a b} h => ?_) g
      show (!lt (val a) (val b) && !lt (val b) (val a)) = false
      rw [h]; rfl
  | hash c eq hf =>
    cases c with
    | multi => exact nomatch u
    | uniq =>
      have eh : EqHash eq hf := ok
      refine pairwise_mem (R := fun a b => eq (val a) (val b) = false) (fun {a b} h => ?_) g
      by_contra k
      have : eq (val b) (val a) = true := by simpa using k
      rw [eh.symm this] at h
      exact nomatch h

end MI.Cont
