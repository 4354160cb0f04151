import Verif.Ser.LoadCalls
import Verif.Ser.LoadLemmas2
import Verif.Cont.CallsLemmas4
import Verif.Cont.PlaceCallsLemmas
/-! Loading when user functions meet their requirements but may throw (helper lemmas). -/
set_option linter.unusedVariables false
namespace MI.Ser
open MI MI.Cont MI.Runs
variable {V : Type} {w : World V} {i : Nat} {c : Container V} {fate : Nat → UserCall V → Option Bool}

theorem calmHost_ok {H : Host V} (ok : H.Ok) : (calmHost H).Ok := fun w r t =>
  ⟨(ok w r t).1, fun c hc => envAll_like (like_calmE _) ((ok w r t).2 c hc)⟩

theorem answers_same {w w' : World V} {c c' : Container V} (o : OnlyAt w w' i c c') : w'.answers i = w.answers i := by
  have h : ∀ k : Nat, (w'.cs[i]?.bind fun c => c.ls[k]?.map Layer.spec) = (w.cs[i]?.bind fun c => c.ls[k]?.map Layer.spec) := by
    intro k
    rw [o.post, o.pre]
    have := congrArg (fun l => l[k]?) o.asked
    simpa only [Container.asked, List.getElem?_map, Option.bind_some] using this
  funext q
  cases q with
  | less k a b => simp only [World.answers, h]
  | same k a b => simp only [World.answers, h]
  | hash k => rfl
  | key k => rfl

/-- Nothing happened to the rest of the program. -/
def RestKept (w w' : World V) : Prop := w'.hs = w.hs ∧ ∀ z ∈ w.m.cons, z ∈ w'.m.cons ∧ w'.m.val z = w.m.val z

theorem RestKept.trans {w w' w'' : World V} (h : RestKept w w') (h' : RestKept w' w'') : RestKept w w'' :=
  ⟨h'.1.trans h.1, fun z hz => ⟨(h'.2 z (h.2 z hz).1).1, (h'.2 z (h.2 z hz).1).2.trans (h.2 z hz).2⟩⟩

theorem loadItemsR_sim {H : Host V} (ok : H.Ok) : ∀ (n : Nat) (vs : List V) (es : List Id) (t : Nat) {w : World V} {c : Container V}, Reach w → w.cs[i]? = some c →
    Honest (w.answers i) fate → Sim fate (loadItemsR H i c.hd n w vs es t) (· = loadItems (calmHost H) i c.hd n w vs es t)
      (fun out => ∃ w' c' es', out = .threw (w', es') ∧ Reach w' ∧ OnlyAt w w' i c c' ∧ RestKept w w')
  | 0, vs, es, t, w, c, r, hi, hon => Sim.done rfl
  | n + 1, [], es, t, w, c, r, hi, hon => Sim.done rfl
  | n + 1, v :: vs, es, t, w, c, r, hi, hon => by
    obtain ⟨fr, en⟩ := ok w r t
    have l : w.Legal (.insert i v (H.node w t) (H.fault w t) (some c.hd) (H.env w t)) := ⟨c, hi, fr, fun p e => by cases e; simp, en c (List.mem_of_getElem? hi)⟩
    unfold loadItemsR
    refine Sim.bind (stepR_agrees r l hon) ?_ ?_
    · rintro _ rfl
      have e0 : ∀ x : World V, w.step ((Op.insert i v (H.node w t) (H.fault w t) (some c.hd) (H.env w t)).within (calmE (H.env w t)) (calmE (H.env w t))) =
          w.step (.insert i v ((calmHost H).node w t) ((calmHost H).fault w t) (some c.hd) ((calmHost H).env w t)) := fun _ => rfl
      have e0 := e0 w
      simp only [Op.env, Op.env', e0, loadItems]
      cases feed_step (em := false) (t := t) (v := v) (hint := some c.hd) (calmHost_ok ok) r hi (fun p e => by cases e; simp) with
      | took w1 x c1 k1 r1 o hcnt ha hx hal hco hhs hval hcl =>
        have k1 : w.step (.insert i v ((calmHost H).node w t) ((calmHost H).fault w t) (some c.hd) ((calmHost H).env w t)) = .ok (w1, ⟨x, true⟩) := k1
        simp only [k1, if_true]
        rw [← o.hd]
        refine (loadItemsR_sim ok n vs (es ++ [x]) (t + 1) r1 o.post (by rw [answers_same o]; exact hon)).mono (fun _ => id) ?_
        rintro out ⟨w2, c2, es2, j1, j2, j3, j4⟩
        refine ⟨w2, c2, es2, j1, j2, o.trans j3, RestKept.trans ⟨hhs, fun z hz => ⟨by rw [hco]; exact List.mem_cons_of_mem _ hz, hval z hz⟩⟩ j4⟩
      | left w1 y c1 k1 r1 o hcnt ha sm hy hcl =>
        have k1 : w.step (.insert i v ((calmHost H).node w t) ((calmHost H).fault w t) (some c.hd) ((calmHost H).env w t)) = .ok (w1, ⟨y, false⟩) := k1
        simp only [k1]
        exact Sim.done rfl
      | threw w1 c1 ret k1 r1 o hcnt ha sm hcalm =>
        have k1 : w.step (.insert i v ((calmHost H).node w t) ((calmHost H).fault w t) (some c.hd) ((calmHost H).env w t)) = .threw (w1, ret) := k1
        simp only [k1]
        exact Sim.done rfl
    · rintro out ⟨e, e', k1, k2, k3, k4⟩
      have l' : w.Legal ((Op.insert i v (H.node w t) (H.fault w t) (some c.hd) (H.env w t)).within e e') := legal_within l k1 fun _ _ _ _ _ _ h => nomatch h
      rcases eff_insert r.inv l' with ⟨w1, j1, -⟩ | ⟨w1, y, j1, -⟩ | ⟨w1, j1, ⟨sm, c0, c1, o, -⟩, -⟩
      · exact absurd (k3.trans j1) (k4 _)
      · exact absurd (k3.trans j1) (k4 _)
      · obtain rfl := Option.some.inj (o.pre.symm.trans hi)
        have k3 : out = .threw (w1, ⟨0, false⟩) := k3.trans j1
        subst k3
        exact Sim.done ⟨w1, c1, es, rfl, r.threw l' j1, o, sm.hs, fun z hz => ⟨by rw [sm.cons]; exact hz, sm.val z hz⟩⟩

theorem loadIndexR_sim {f : Mishap} {k : Nat} {es : List Id} (ts : List (Option Id)) (r : Reach w) (hi : w.cs[i]? = some c) (hp : c.elems.Perm es) (hk : k < c.ls.length)
    (hon : Honest (w.answers i) fate) : Sim fate (loadIndexR f w i k es ts) (· = loadIndex f w i k es ts)
      (fun out => ∃ w' c' us, out = .threw (w', us) ∧ Reach w' ∧ OnlyAt w w' i c c' ∧ RestKept w w') := by
  unfold loadIndexR loadIndex
  simp only [hi, List.getElem?_eq_getElem hk]
  cases hs : hasStream c.ls[k] with
  | false => exact Sim.done rfl
  | true =>
    have hleg := parse_legal es ts none (by simp)
    generalize parse (sortEntries es) none ts = res at *
    have legal : ∀ ins : List (Option Id × Id), (∀ a ∈ ins, a ∈ res.1) → w.Legal (.place i k (f.fail k) ins) := fun ins hins => ⟨c, c.ls[k], hi, List.getElem?_eq_getElem hk, fun a ha =>
        ⟨hp.mem_iff.2 (hleg a (hins a ha)).1, fun q hq => ⟨hp.mem_iff.2 ((hleg a (hins a ha)).2 q hq).1, ((hleg a (hins a ha)).2 q hq).2⟩⟩⟩
    have step : ∀ (cut good : Bool) (us : List (Option Id)) (ins : List (Option Id × Id)), (∀ a ∈ ins, a ∈ res.1) →
        Sim fate ((do return afterIndex cut good us (← w.placeR i k (f.fail k) ins) : Runs (UserCall V) _)) (· = afterIndex cut good us (w.step (.place i k (f.fail k) ins)))
          (fun out => ∃ w' c' us, out = .threw (w', us) ∧ Reach w' ∧ OnlyAt w w' i c c' ∧ RestKept w w') := by
      intro cut good us ins hins
      refine Sim.bind (placeR_sim (legal ins hins) hon) ?_ ?_
      · rintro _ rfl
        exact Sim.done rfl
      · rintro _ ⟨m, w1, ret, -, k1, rfl⟩
        have l := legal (ins.take m) fun a ha => hins a (List.mem_of_mem_take ha)
        obtain ⟨w', c0, c', S, xs, xs', o, q2, q3, -, -, -, -, -, p, k2⟩ := eff_place r.inv l
        obtain rfl := Option.some.inj (o.pre.symm.trans hi)
        have e : w' = w1 := by
          rcases k2 with ⟨k2, -⟩ | ⟨k2, -⟩ <;> rw [k1] at k2 <;> cases k2
          rfl
        subst e
        exact Sim.done ⟨w', c', us, rfl, r.ok l k1, o, q3, fun z hz => by rw [q2]; exact ⟨hz, rfl⟩⟩
    simp only [if_true]
    cases hcut : f.cut k with
    | some n =>
      refine (step true res.2.1 res.2.2 (res.1.take n) fun a ha => List.mem_of_mem_take ha).mono ?_ fun _ => id
      rintro _ rfl
      simp only [afterIndex]
      cases w.step (.place i k (f.fail k) (res.1.take n)) <;> rfl
    | none =>
      refine (step false res.2.1 res.2.2 res.1 fun a ha => ha).mono ?_ fun _ => id
      rintro _ rfl
      simp only [afterIndex]
      cases w.step (.place i k (f.fail k) res.1) <;> cases res.2.1 <;> rfl

theorem loadIndicesR_sim {f : Mishap} {es : List Id} : ∀ (n k : Nat) {w : World V} {c : Container V} (ts : List (Option Id)), Reach w → w.cs[i]? = some c →
    c.elems.Perm es → k + n ≤ c.ls.length → Honest (w.answers i) fate → Sim fate (loadIndicesR f i es n k w ts) (· = loadIndices f i es n k w ts)
      (fun out => ∃ w' c', out = .threw w' ∧ Reach w' ∧ OnlyAt w w' i c c' ∧ RestKept w w')
  | 0, k, w, c, ts, r, hi, hp, hk, hon => Sim.done rfl
  | n + 1, k, w, c, ts, r, hi, hp, hk, hon => by
    unfold loadIndicesR
    refine Sim.bind (loadIndexR_sim ts r hi hp (by omega) hon) ?_ ?_
    · rintro _ rfl
      simp only [loadIndices]
      obtain ⟨w1, c1, us, o, r1, q1, q2, q3, q4⟩ := loadIndex_safe (f := f) (k := k) ts r hi hp (by omega)
      rcases q4 with q4 | q4
      · simp only [q4]
        have hlen : c1.ls.length = c.ls.length := by
          have := congrArg List.length o.asked
          simpa [Container.asked] using this
        refine (loadIndicesR_sim n (k + 1) us r1 o.post q3 (by omega) (by rw [answers_same o]; exact hon)).mono (fun _ => id) ?_
        rintro out ⟨w2, c2, j1, j2, j3, j4⟩
        exact ⟨w2, c2, j1, j2, o.trans j3, RestKept.trans ⟨q2, fun z hz => by rw [q1]; exact ⟨hz, rfl⟩⟩ j4⟩
      · simp only [q4]
        exact Sim.done rfl
    · rintro _ ⟨w1, c1, us, rfl, r1, o, k⟩
      exact Sim.done ⟨w1, c1, rfl, r1, o, k⟩

theorem loadR_sim {H : Host V} (ok : H.Ok) (f : Mishap) (r : Reach w) (hi : w.cs[i]? = some c) (A : Archive V) (hon : Honest (w.answers i) fate) :
    Sim fate (loadR H f w i A) (· = load (calmHost H) f w i A)
      (fun out => ∃ w' c', out = .threw w' ∧ Reach w' ∧ OnlyAt w w' i c c' ∧ w'.hs = w.hs ∧ ∀ z ∈ w.m.cons, z ∉ c.elems → z ∈ w'.m.cons ∧ w'.m.val z = w.m.val z) := by
  have l : w.Legal (.clear i) := (List.getElem?_eq_some_iff.1 hi).1
  obtain ⟨w1, c0, c1, k1, o1, em, k2, k3⟩ := eff_clear r.inv l
  obtain rfl := Option.some.inj (o1.pre.symm.trans hi)
  have r1 : Reach w1 := r.ok l k1
  have he : c1.elems = [] := by
    have := (r1.inv.facts o1.post).2.1.count
    rw [k2] at this
    exact List.length_eq_zero_iff.1 this.symm
  have hq : PourAll w1.m.val [] c1.asked c1.seqs := by
    intro k S xs hS hxs
    have : xs = [] := k3 xs (List.mem_of_getElem? hxs)
    subst this
    cases S with
    | ord u lt => exact fun _ => rfl
    | hash c eq hf => trivial
    | seq => rfl
    | rnd => rfl
  have kept : ∀ w2 : World V, RestKept w1 w2 → w2.hs = w.hs ∧ ∀ z ∈ w.m.cons, z ∉ c0.elems → z ∈ w2.m.cons ∧ w2.m.val z = w.m.val z := by
    rintro w2 ⟨h1, h2⟩
    refine ⟨h1.trans em.2.2.2, fun z hz hz' => ?_⟩
    have := h2 z ((em.1 z).2 ⟨hz, hz'⟩)
    exact ⟨this.1, this.2.trans (by rw [em.2.2.1])⟩
  have hon1 : Honest (w1.answers i) fate := by rw [answers_same o1]; exact hon
  unfold loadR load
  have e : w.stepR (.clear i) = .done (w.step (.clear i)) := rfl
  simp only [e, k1, Runs.bind_def, Runs.bind_done, o1.post]
  refine Sim.bind (loadItemsR_sim ok A.count A.items [] 0 r1 o1.post hon1) ?_ ?_
  · rintro _ rfl
    obtain ⟨w2, c2, es, o2, r2, b1, b2, b3⟩ := loadItems_spec (i := i) (calmHost_ok ok) A.count A.items [] 0 r1 o1.post (by rw [he]) hq
    rcases b3 with ⟨q1, q2, -⟩ | ⟨q1, -⟩
    · simp only [q1]
      have hlen : c2.ls.length = c1.ls.length := by
        have := congrArg List.length o2.asked
        simpa [Container.asked] using this
      refine (loadIndicesR_sim c1.ls.length 0 _ r2 o2.post q2 (by omega) (by rw [answers_same o2]; exact hon1)).mono (fun _ => id) ?_
      rintro out ⟨w3, c3, j1, j2, j3, j4⟩
      obtain ⟨x1, x2⟩ := kept w3 (RestKept.trans ⟨b1, b2⟩ j4)
      exact ⟨w3, c3, j1, j2, (o1.trans o2).trans j3, x1, x2⟩
    · simp only [q1]
      exact Sim.done rfl
  · rintro _ ⟨w2, c2, es, rfl, r2, o2, k⟩
    obtain ⟨x1, x2⟩ := kept w2 k
    exact Sim.done ⟨w2, c2, rfl, r2, o1.trans o2, x1, x2⟩

end MI.Ser
