import Verif.Ser.LoadLemmas

/-! Loading the pointers. -/
namespace MI.Ser
open MI MI.Cont
variable {V : Type} {w : World V} {i : Nat} {c : Container V}

/-- The calls made for any stream of pointers are legal. -/
theorem parse_legal (es : List Id) : ∀ (ts : List (Option Id)) (st : Option Id), (∀ p ∈ st, p ∈ es) →
    ∀ a ∈ (parse (sortEntries es) st ts).1, a.2 ∈ es ∧ ∀ q ∈ a.1, q ∈ es ∧ q ≠ a.2
  | [], st, _ => by cases st <;> simp [parse]
  | none :: ts, none, _ => by simp [parse]
  | none :: ts, some p, h => by
    simp only [parse]
    exact parse_legal es ts none (by simp)
  | some x :: ts, none, _ => by
    simp only [parse, checkNode_mem]
    by_cases hx : x ∈ es
    · simp only [hx, decide_true, if_true]
      exact parse_legal es ts (some x) (by simpa using hx)
    · simp [hx]
  | some x :: ts, some p, h => by
    simp only [parse, checkNode_mem]
    by_cases hx : x ∈ es
    · simp only [hx, decide_true, if_true]
      intro a ha
      rcases List.mem_cons.1 ha with rfl | ha
      · refine ⟨hx, fun q hq => ?_⟩
        by_cases e : x = p
        · simp [e] at hq
        · simp only [e, if_false, Option.mem_def, Option.some.injEq] at hq
          subst hq
          exact ⟨h p rfl, fun e' => e e'.symm⟩
      · exact parse_legal es ts (some x) (by simpa using hx) a ha
    · simp [hx]

theorem loadIndex_safe {f : Mishap} {k : Nat} {es : List Id} (ts : List (Option Id)) (r : Reach w) (hi : w.cs[i]? = some c) (hp : c.elems.Perm es) (hk : k < c.ls.length) :
    ∃ w' c' us, OnlyAt w w' i c c' ∧ Reach w' ∧ w'.m = w.m ∧ w'.hs = w.hs ∧ c'.elems.Perm es ∧
      (loadIndex f w i k es ts = .ok (w', us) ∨ loadIndex f w i k es ts = .threw (w', us)) := by
  have I := r.inv
  unfold loadIndex
  simp only [hi, List.getElem?_eq_getElem hk]
  cases hs : hasStream c.ls[k] with
  | false => exact ⟨w, c, ts, ⟨hi, (set_same hi).symm, rfl, rfl⟩, r, rfl, rfl, hp, Or.inl (by simp)⟩
  | true =>
    have hleg := parse_legal es ts none (by simp)
    generalize parse (sortEntries es) none ts = res at *
    simp only [if_true]
    have step : ∀ ins : List (Option Id × Id), (∀ a ∈ ins, a ∈ res.1) →
        ∃ w' c' ret, OnlyAt w w' i c c' ∧ Reach w' ∧ w'.m = w.m ∧ w'.hs = w.hs ∧ c'.elems.Perm es ∧
          (w.step (.place i k (f.fail k) ins) = .ok (w', ret) ∨ w.step (.place i k (f.fail k) ins) = .threw (w', ret)) := by
      intro ins hins
      have l : w.Legal (.place i k (f.fail k) ins) := ⟨c, c.ls[k], hi, List.getElem?_eq_getElem hk, fun a ha =>
        ⟨hp.mem_iff.2 (hleg a (hins a ha)).1, fun q hq => ⟨hp.mem_iff.2 ((hleg a (hins a ha)).2 q hq).1, ((hleg a (hins a ha)).2 q hq).2⟩⟩⟩
      obtain ⟨w', c0, c', S, xs, xs', o, k2, k3, -, -, -, -, -, p, k1⟩ := eff_place I l
      obtain rfl := Option.some.inj (o.pre.symm.trans hi)
      rcases k1 with ⟨k1, -⟩ | ⟨k1, -⟩
      · exact ⟨w', c', _, o, r.ok l k1, k2, k3, p.trans hp, Or.inl k1⟩
      · exact ⟨w', c', _, o, r.threw l k1, k2, k3, p.trans hp, Or.inr k1⟩
    cases hcut : f.cut k with
    | some n =>
      obtain ⟨w', c', ret, o, r', q1, q2, q3, q4⟩ := step (res.1.take n) (fun a ha => List.mem_of_mem_take ha)
      refine ⟨w', c', res.2.2, o, r', q1, q2, q3, Or.inr ?_⟩
      rcases q4 with q4 | q4 <;> simp only [q4]
    | none =>
      obtain ⟨w', c', ret, o, r', q1, q2, q3, q4⟩ := step res.1 (fun a ha => ha)
      refine ⟨w', c', res.2.2, o, r', q1, q2, q3, ?_⟩
      rcases q4 with q4 | q4
      · simp only [q4]
        cases res.2.1 <;> simp
      · right; simp only [q4]

theorem loadIndices_safe {f : Mishap} {es : List Id} : ∀ (n k : Nat) {w : World V} {c : Container V} (ts : List (Option Id)), Reach w → w.cs[i]? = some c →
    c.elems.Perm es → k + n ≤ c.ls.length → ∃ w' c', OnlyAt w w' i c c' ∧ Reach w' ∧ w'.m = w.m ∧ w'.hs = w.hs ∧ c'.elems.Perm es ∧
      (loadIndices f i es n k w ts = .ok w' ∨ loadIndices f i es n k w ts = .threw w')
  | 0, k, w, c, ts, r, hi, hp, hk => ⟨w, c, ⟨hi, (set_same hi).symm, rfl, rfl⟩, r, rfl, rfl, hp, Or.inl rfl⟩
  | n + 1, k, w, c, ts, r, hi, hp, hk => by
    obtain ⟨w1, c1, us, o, r1, q1, q2, q3, q4⟩ := loadIndex_safe (f := f) (k := k) ts r hi hp (by omega)
    rcases q4 with q4 | q4
    · have hlen : c1.ls.length = c.ls.length := by
        have := congrArg List.length o.asked
        simpa [Container.asked] using this
      obtain ⟨w2, c2, o2, r2, p1, p2, p0, p3⟩ := loadIndices_safe (f := f) n (k + 1) us r1 o.post q3 (by rw [hlen]; omega)
      refine ⟨w2, c2, o.trans o2, r2, p1.trans q1, p2.trans q2, p0, ?_⟩
      simp only [loadIndices, q4]
      exact p3
    · exact ⟨w1, c1, o, r1, q1, q2, q3, Or.inr (by simp only [loadIndices, q4])⟩

/-- Any archive: loading returns or throws, and what it leaves is a program in order; only container `i` changes. -/
theorem load_safe {H : Host V} (ok : H.Ok) (f : Mishap) (r : Reach w) (hi : w.cs[i]? = some c) (A : Archive V) :
    ∃ w' c', OnlyAt w w' i c c' ∧ Reach w' ∧ w'.hs = w.hs ∧ (∀ z ∈ w.m.cons, z ∉ c.elems → z ∈ w'.m.cons ∧ w'.m.val z = w.m.val z) ∧
      (∀ w'' es, loadT H f w i A = .ok (w'', es) → w'' = w' ∧ c'.elems.Perm es) ∧ (load H f w i A = .ok w' ∨ load H f w i A = .threw w') := by
  have I := r.inv
  have l : w.Legal (.clear i) := (List.getElem?_eq_some_iff.1 hi).1
  obtain ⟨w1, c0, c1, k1, o1, em, k2, k3⟩ := eff_clear I l
  obtain rfl := Option.some.inj (o1.pre.symm.trans hi)
  have r1 : Reach w1 := r.ok l k1
  have he : c1.elems = [] := by
    have := (r1.inv.facts o1.post).2.1.count
    rw [k2] at this
    exact List.length_eq_zero_iff.1 this.symm
  have hq : PourAll w1.m.val [] c1.asked c1.seqs := by
    intro k S xs hS hxs
    have : xs = [] := k3 xs (List.mem_of_getElem? hxs)
    subst this
    cases S with
    | ord u lt => exact fun _ => rfl
    | hash c eq hf => trivial
    | seq => rfl
    | rnd => rfl
  obtain ⟨w2, c2, es, o2, r2, b1, b2, b3⟩ := loadItems_spec (i := i) ok A.count A.items [] 0 r1 o1.post (by rw [he]) hq
  have hkeep : ∀ z ∈ w.m.cons, z ∉ c0.elems → z ∈ w2.m.cons ∧ w2.m.val z = w.m.val z := by
    intro z hz hz'
    have := b2 z ((em.1 z).2 ⟨hz, hz'⟩)
    exact ⟨this.1, this.2.trans (by rw [em.2.2.1])⟩
  unfold load loadT
  simp only [k1, o1.post]
  rcases b3 with ⟨q1, q2, q3, q4, took, q5, q6⟩ | ⟨q1, q2⟩
  · have hlen : c2.ls.length = c1.ls.length := by
      have := congrArg List.length o2.asked
      simpa [Container.asked] using this
    obtain ⟨w3, c3, o3, r3, p1, p2, p0, p3⟩ := loadIndices_safe (f := f) c1.ls.length 0 (A.ptrs.map (Option.map fun n => es.getD n c1.hd)) r2 o2.post q2 (by omega)
    refine ⟨w3, c3, (o1.trans o2).trans o3, r3, p2.trans (b1.trans em.2.2.2), fun z hz hz' => by rw [p1]; exact hkeep z hz hz', ?_, ?_⟩
    · simp only [q1]
      intro w'' es'
      rcases p3 with p3 | p3 <;> simp only [p3]
      · intro e
        cases e
        exact ⟨rfl, p0⟩
      · intro e; cases e
    · simp only [q1]
      exact p3
  · refine ⟨w2, c2, o1.trans o2, r2, b1.trans em.2.2.2, hkeep, ?_, Or.inr ?_⟩
    · simp only [q1]
      intro w'' es' e; cases e
    · simp only [q1]

end MI.Ser
