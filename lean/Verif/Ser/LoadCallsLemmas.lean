import Verif.Ser.LoadCalls
import Verif.Ser.LoadLemmas2
import Verif.Cont.AnyStep
import Verif.Cont.CallsLemmas
/-! Loading, whatever user functions do (helper lemmas). -/
set_option linter.unusedVariables false
namespace MI
namespace Runs
variable {Q α : Type}

theorem exec_congr {f g : Nat → Q → Option Bool} : ∀ (c : Runs Q α) (t : Nat), (∀ s, t ≤ s → f s = g s) → c.exec f t = c.exec g t
  | done a, t, _ => rfl
  | call q ok threw, t, h => by
    simp only [exec, h t (Nat.le_refl _)]
    cases g t q with
    | none => simp only [exec_congr threw (t + 1) fun s hs => h s (by omega)]
    | some b => simp only [exec_congr (ok b) (t + 1) fun s hs => h s (by omega)]

theorem Always.ofExec {P : α → Prop} : ∀ (c : Runs Q α) (t : Nat), (∀ fate, P (c.exec fate t).1) → c.Always P
  | done a, t, h => h fun _ _ => none
  | call q ok threw, t, h => by
    have go : ∀ (o : Option Bool) (fate : Nat → Q → Option Bool), P ((call q ok threw).exec (fun s q' => if s = t then o else fate s q') t).1 := fun o fate => h _
    refine ⟨fun b => Always.ofExec (ok b) (t + 1) fun fate => ?_, Always.ofExec threw (t + 1) fun fate => ?_⟩
    · have := go (some b) fate
      simp only [Runs.exec, if_true] at this
      rwa [exec_congr (g := fate) (ok b) (t + 1) (fun s hs => by funext q'; rw [if_neg (by omega)])] at this
    · have := go none fate
      simp only [Runs.exec, if_true] at this
      rwa [exec_congr (g := fate) threw (t + 1) (fun s hs => by funext q'; rw [if_neg (by omega)])] at this

/-- What holds for all fates holds on all branches. -/
theorem Always.ofResult {P : α → Prop} {c : Runs Q α} (h : ∀ fate, P (c.result fate)) : c.Always P := Always.ofExec c 0 h

end Runs

namespace Ser
open MI.Cont
variable {V : Type} {w : World V} {i : Nat} {c : Container V}

/-- What follows from an operation for a program that goes on. -/
def Goes (w : World V) (o : Op V) (out : Out (World V × Ret)) : Prop := ∃ threw w' r, Out.Of out threw w' r ∧ w.Effect threw r w' o ∧ WildReach w' ∧ w.Untouched w' o

theorem goes_step {o : Op V} (r : WildReach w) (l : w.WildLegal o) (h : o.rollsBack = false) : (w.stepR o).Always (Goes w o) := by
  refine Runs.Always.ofResult fun fate => ?_
  obtain ⟨threw, w', ret, k1, k2, k3, k4⟩ := (step_any r.inv l h).result fate
  refine ⟨threw, w', ret, k1, k2, .step fate (r := ret) r l ?_, k4⟩
  unfold Out.Of at k1
  cases threw
  · exact Or.inl k1
  · exact Or.inr k1

theorem goes_place {k : Nat} {fail : Bool} {ins : List (Option Id × Id)} (r : WildReach w) (l : w.Legal (.place i k fail ins)) :
    (w.placeR i k fail ins).Always (Goes w (.place i k fail ins)) := by
  refine Runs.Always.ofResult fun fate => ?_
  obtain ⟨threw, w', ret, k1, k2, k3, k4⟩ := (fine_place r.inv l).result fate
  refine ⟨threw, w', ret, k1, k2, .place fate (r := ret) r l ?_, k4⟩
  unfold Out.Of at k1
  cases threw
  · exact Or.inl k1
  · exact Or.inr k1

/-- An element of a container other than number `i`, or of a node handle. -/
def Beside (w : World V) (i : Nat) (z : Id) : Prop := (∃ j d, j ≠ i ∧ w.cs[j]? = some d ∧ z ∈ d.elems) ∨ some z ∈ w.hs

theorem Beside.cons {z : Id} (b : Beside w i z) (r : WildReach w) : z ∈ w.m.cons := by
  rw [r.inv.cons.mem_iff, List.mem_append, List.mem_flatMap]
  rcases b with ⟨j, d, -, h, hz⟩ | h
  · exact Or.inl ⟨d, List.mem_of_getElem? h, hz⟩
  · obtain ⟨n, hn, e⟩ := List.getElem_of_mem h
    exact Or.inr (mem_handled (List.getElem?_eq_some_iff.2 ⟨hn, e⟩))

/-- Only container `i` changes, and it keeps its kind. -/
structure Within (w w' : World V) (i : Nat) (c c' : Container V) : Prop where
  pre : w.cs[i]? = some c
  cs : w'.cs = w.cs.set i c'
  kind : SameKind c c'
  hs : w'.hs = w.hs
  rest : ∀ z, Beside w i z → w'.m.val z = w.m.val z

theorem Within.post {w w' : World V} {c c' : Container V} (o : Within w w' i c c') : w'.cs[i]? = some c' := by
  rw [o.cs]
  exact List.getElem?_set_self (List.getElem?_eq_some_iff.1 o.pre).1

theorem Within.refl (hi : w.cs[i]? = some c) : Within w w i c c := ⟨hi, (set_same hi).symm, ⟨rfl, rfl⟩, rfl, fun _ _ => rfl⟩

theorem Within.beside {w w' : World V} {c c' : Container V} (o : Within w w' i c c') {z : Id} (b : Beside w i z) : Beside w' i z := by
  rcases b with ⟨j, d, ne, h, hz⟩ | h
  · exact Or.inl ⟨j, d, ne, by rw [o.cs, List.getElem?_set_ne (Ne.symm ne)]; exact h, hz⟩
  · exact Or.inr (by rw [o.hs]; exact h)

theorem Within.trans {w w' w'' : World V} {c c' c'' : Container V} (o : Within w w' i c c') (o' : Within w' w'' i c' c'') : Within w w'' i c c'' :=
  ⟨o.pre, by rw [o'.cs, o.cs, List.set_set], ⟨o'.kind.1.trans o.kind.1, o'.kind.2.trans o.kind.2⟩, o'.hs.trans o.hs, fun z b => (o'.rest z (o.beside b)).trans (o.rest z b)⟩

theorem loadItemsR_any {H : Host V} (ok : WildHost H) : ∀ (n : Nat) (vs : List V) (es : List Id) (t : Nat) {w : World V} {c : Container V}, WildReach w → w.cs[i]? = some c →
    c.elems.Perm es → (loadItemsR H i c.hd n w vs es t).Always fun out => ∃ w' c' es', Within w w' i c c' ∧ WildReach w' ∧
      ((out = .ok (w', es') ∧ c'.elems.Perm es') ∨ out = .threw (w', es'))
  | 0, vs, es, t, w, c, r, hi, hp => ⟨w, c, es, .refl hi, r, Or.inl ⟨rfl, hp⟩⟩
  | n + 1, [], es, t, w, c, r, hi, hp => ⟨w, c, es, .refl hi, r, Or.inr rfl⟩
  | n + 1, v :: vs, es, t, w, c, r, hi, hp => by
    obtain ⟨fr, en⟩ := ok w r t
    have l : w.Legal (.insert i v (H.node w t) (H.fault w t) (some c.hd) (H.env w t)) := ⟨c, hi, fr, fun p e => by cases e; simp, en c (List.mem_of_getElem? hi)⟩
    unfold loadItemsR
    refine Runs.Always.then (goes_step r l rfl) ?_
    rintro out ⟨threw, w1, ret, e, ⟨hs, c0, c1, h0, cs, kd, ad, -⟩, r1, u⟩
    obtain rfl := Option.some.inj (h0.symm.trans hi)
    have o : Within w w1 i c0 c1 := ⟨hi, cs, kd, hs, fun z b => u z (b.cons r) fun h => nomatch h⟩
    unfold Out.Of at e
    cases threw with
    | true =>
      rw [e]
      exact ⟨w1, c1, es, o, r1, Or.inr rfl⟩
    | false =>
      rw [e]
      obtain ⟨pos, b⟩ := ret
      cases b with
      | false => exact ⟨w1, c1, es, o, r1, Or.inr rfl⟩
      | true =>
        rcases ad with ⟨-, -, hx, p⟩ | ⟨h, -⟩
        · have hx : pos = H.node w t := hx
          rw [← kd.1]
          refine (loadItemsR_any ok n vs (es ++ [pos]) (t + 1) r1 o.post ?_).mono ?_
          · rw [hx]
            exact (p.trans (hp.cons _)).trans (List.perm_append_singleton _ _).symm
          · rintro out ⟨w2, c2, es2, o2, r2, h⟩
            exact ⟨w2, c2, es2, o.trans o2, r2, h⟩
        · exact nomatch (h rfl).1

theorem loadIndexR_any {f : Mishap} {k : Nat} {es : List Id} (ts : List (Option Id)) (r : WildReach w) (hi : w.cs[i]? = some c) (hp : c.elems.Perm es) (hk : k < c.ls.length) :
    (loadIndexR f w i k es ts).Always fun out => ∃ w' c' us, Within w w' i c c' ∧ WildReach w' ∧ c'.elems.Perm es ∧ (out = .ok (w', us) ∨ out = .threw (w', us)) := by
  unfold loadIndexR
  simp only [hi, List.getElem?_eq_getElem hk]
  split
  · have hleg := parse_legal es ts none (by simp)
    generalize parse (sortEntries es) none ts = res at *
    have step : ∀ (cut good : Bool) (us : List (Option Id)) (ins : List (Option Id × Id)), (∀ a ∈ ins, a ∈ res.1) →
        ((do return afterIndex cut good us (← w.placeR i k (f.fail k) ins) : Runs (UserCall V) _)).Always
          fun out => ∃ w' c' us, Within w w' i c c' ∧ WildReach w' ∧ c'.elems.Perm es ∧ (out = .ok (w', us) ∨ out = .threw (w', us)) := by
      intro cut good us ins hins
      have l : w.Legal (.place i k (f.fail k) ins) := ⟨c, c.ls[k], hi, List.getElem?_eq_getElem hk, fun a ha =>
        ⟨hp.mem_iff.2 (hleg a (hins a ha)).1, fun q hq => ⟨hp.mem_iff.2 ((hleg a (hins a ha)).2 q hq).1, ((hleg a (hins a ha)).2 q hq).2⟩⟩⟩
      refine Runs.Always.then (goes_place r l) ?_
      rintro out ⟨threw, w1, ret, e, ⟨hs, c0, c1, h0, cs, kd, p, -⟩, r1, u⟩
      obtain rfl := Option.some.inj (h0.symm.trans hi)
      refine ⟨w1, c1, us, ⟨hi, cs, kd, hs, fun z b => u z (b.cons r) fun h => nomatch h⟩, r1, p.trans hp, ?_⟩
      unfold Out.Of at e
      cases threw with
      | true => rw [e]; exact Or.inr rfl
      | false =>
        rw [e]
        simp only [Bool.false_eq_true, if_false, afterIndex]
        split
        · exact Or.inl rfl
        · exact Or.inr rfl
    split
    · exact step _ _ _ _ fun a ha => List.mem_of_mem_take ha
    · exact step _ _ _ _ fun a ha => ha
  · exact ⟨w, c, ts, .refl hi, r, hp, Or.inl rfl⟩

theorem loadIndicesR_any {f : Mishap} {es : List Id} : ∀ (n k : Nat) {w : World V} {c : Container V} (ts : List (Option Id)), WildReach w → w.cs[i]? = some c →
    c.elems.Perm es → k + n ≤ c.ls.length → (loadIndicesR f i es n k w ts).Always fun out => ∃ w' c', Within w w' i c c' ∧ WildReach w' ∧ (out = .ok w' ∨ out = .threw w')
  | 0, k, w, c, ts, r, hi, hp, hk => ⟨w, c, .refl hi, r, Or.inl rfl⟩
  | n + 1, k, w, c, ts, r, hi, hp, hk => by
    unfold loadIndicesR
    refine Runs.Always.then (loadIndexR_any (f := f) (k := k) ts r hi hp (by omega)) ?_
    rintro _ ⟨w1, c1, us, o, r1, p1, rfl | rfl⟩
    · have hlen : c1.ls.length = c.ls.length := by
        have := congrArg List.length o.kind.2
        simpa using this
      refine (loadIndicesR_any n (k + 1) us r1 o.post p1 (by omega)).mono ?_
      rintro out ⟨w2, c2, o2, r2, h⟩
      exact ⟨w2, c2, o.trans o2, r2, h⟩
    · exact ⟨w1, c1, o, r1, Or.inr rfl⟩

theorem loadR_any {H : Host V} (ok : WildHost H) (f : Mishap) (r : WildReach w) (hi : w.cs[i]? = some c) (A : Archive V) :
    (loadR H f w i A).Always fun out => ∃ w' c', Within w w' i c c' ∧ WildReach w' ∧ (out = .ok w' ∨ out = .threw w') := by
  unfold loadR
  refine Runs.Always.then (goes_step (o := .clear i) r (List.getElem?_eq_some_iff.1 hi).1 rfl) ?_
  rintro out ⟨threw, w1, ret, e, ⟨rfl, hs, c0, c1, h0, cs, kd, em⟩, r1, u⟩
  obtain rfl := Option.some.inj (h0.symm.trans hi)
  have o : Within w w1 i c0 c1 := ⟨hi, cs, kd, hs, fun z b => u z (b.cons r) fun h => nomatch h⟩
  unfold Out.Of at e
  rw [e]
  simp only [Bool.false_eq_true, if_false, o.post]
  refine Runs.Always.then (loadItemsR_any ok A.count A.items [] 0 r1 o.post (by rw [em])) ?_
  rintro _ ⟨w2, c2, es, o2, r2, ⟨rfl, p⟩ | rfl⟩
  · have hlen : c2.ls.length = c1.ls.length := by
      have := congrArg List.length o2.kind.2
      simpa using this
    refine (loadIndicesR_any (f := f) c1.ls.length 0 _ r2 o2.post p (by omega)).mono ?_
    rintro out ⟨w3, c3, o3, r3, h⟩
    exact ⟨w3, c3, (o.trans o2).trans o3, r3, h⟩
  · exact ⟨w2, c2, o.trans o2, r2, Or.inr rfl⟩

end Ser
end MI
