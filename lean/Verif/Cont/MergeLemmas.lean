import Verif.Cont.SiftLemmas
/-!
`merge` of sequenced and random access indices.
-/
set_option linter.unusedVariables false
set_option linter.unusedSimpArgs false
namespace MI.Cont
open MI
variable {V : Type} {w w' : World V} {i j k l : Nat} {c c' d d' : Container V} {H : Host V} {eqAl : Bool}

theorem Blended.elems {xs zs gone took : List Id} (p : Blended eqAl w w' i j k c c' d d' xs zs gone took) : d'.elems = d.elems.filter (· ∉ gone) := by
  unfold Container.elems
  rw [p.left]
  cases d.seqs <;> rfl

theorem Blended.cperm {xs zs gone took : List Id} (I : Inv w) (I' : Inv w') (ne : i ≠ j) (p : Blended eqAl w w' i j k c c' d d' xs zs gone took) : c'.elems.Perm (took ++ c.elems) := by
  obtain ⟨-, -, -, p1, -⟩ := I.seq p.only.pre p.before
  obtain ⟨-, -, -, p2, -⟩ := I'.seq (p.only.post ne) p.after
  exact p2.symm.trans (p.perm.trans (p1.append_left took))

theorem CopiedAt.blended {s t gone took : List Id} (p : CopiedAt w w' i j k c c' d d' s t gone took) (h : eqAl = true → took = gone ∧ w'.m = w.m) :
    Blended eqAl w w' i j k c c' d d' (s ++ t) (s ++ took ++ t) gone took :=
  ⟨p.only, p.inlaid.before, p.inlaid.after, by rw [← List.append_assoc]; exact List.perm_append_comm.append_right t, p.inlaid.others, p.inlaid.count, p.vals, h, p.nodup, p.mem, p.count, p.left,
    p.alloc, p.cons, p.val, p.hs⟩

theorem SplicedAt.copied {s t took : List Id} (I : Inv w) (p : SplicedAt w w' i j k c c' d d' s t took) : CopiedAt w w' i j k c c' d d' s t took took := by
  have hc := (I.facts p.only.pre2).2.2.2
  refine ⟨p.only, by rw [p.mm]; exact p.inlaid, by rw [p.mm], p.nodup, p.mem, p.count, p.left, ?_, ?_, fun z _ _ => by rw [p.mm], p.hs⟩
  · intro z; rw [p.mm]
    by_cases h : z ∈ took
    · simp [h, hc.1 z (p.mem z h)]
    · simp [h]
  · intro z; rw [p.mm]
    by_cases h : z ∈ took
    · simp [h, hc.2.1 z (p.mem z h)]
    · simp [h]

theorem Blended.of_unchanged {S : Spec V} {xs : List Id} (I : Inv w) (ne : i ≠ j) (hi : w.cs[i]? = some c) (hj : w.cs[j]? = some d) (hS : c.asked[k]? = some S) (hl : S.list)
    (hk : c.seqs[k]? = some xs) (u : Unchanged w w' i) (hm : eqAl = true → w'.m = w.m) : ∃ c', Blended eqAl w w' i j k c c' d d xs xs [] [] := by
  obtain ⟨sm, c0, c1, o, hc, ha⟩ := u
  obtain rfl := Option.some.inj (o.pre.symm.trans hi)
  have h : Inlaid w.m.val k xs [] [] c0 c1 := inlaid_each hS hl hk o.asked (each_mono (fun S xs ys e => .same e) ha) (by simpa using hc)
  have h := h.congr (val' := w'.m.val) fun xs hxs z hz => sm.val z (elem_seqs I hi hxs z (by simpa using hz))
  have hj' : w'.cs[j]? = some d := by rw [o.cs, List.getElem?_set_ne ne]; exact hj
  refine ⟨c1, ⟨hi, hj, ?_, o.asked, o.hd, rfl, rfl⟩, hk, by simpa using h.after, .refl _, h.others, h.count, rfl, fun e => ⟨rfl, hm e⟩, by simp, by simp, rfl, by simp, ?_, ?_,
    fun z hz _ => sm.val z hz, sm.hs⟩
  · rw [← o.cs, set_same hj']
  · simp [sm.alloc]
  · simp [sm.cons]

theorem Blended.nil {xs : List Id} (I : Inv w) (ne : i ≠ j) (hi : w.cs[i]? = some c) (hj : w.cs[j]? = some d) (hk : c.seqs[k]? = some xs) :
    Blended eqAl w w i j k c c d d xs xs [] [] := by
  refine ⟨⟨hi, hj, by rw [set_same hi, set_same hj], rfl, rfl, rfl, rfl⟩, hk, hk, .refl _, fun l S xs ys _ _ h2 h3 => ?_, rfl, rfl, fun _ => ⟨rfl, rfl⟩, by simp, by simp, rfl, by simp, by simp, by simp,
    fun _ _ _ => rfl, rfl⟩
  obtain rfl := Option.some.inj (h2.symm.trans h3)
  exact .same (same_refl _ _ _)

theorem Blended.trans {w2 w3 : World V} {c2 c3 d2 d3 : Container V} {xs ys zs gone took gone' took' : List Id} (I : Inv w) (I2 : Inv w2) (ne : i ≠ j)
    (p : Blended eqAl w w2 i j k c c2 d d2 xs ys gone took) (q : Blended eqAl w2 w3 i j k c2 c3 d2 d3 ys zs gone' took') :
    Blended eqAl w w3 i j k c c3 d d3 xs zs (gone ++ gone') (took ++ took') := by
  have pm := p.cperm I I2 ne
  have hc2 : ∀ z ∈ c2.elems, z ∉ gone' ∧ w3.m.val z = w2.m.val z := fun z hz => by
    have n : z ∉ gone' := fun hg => I2.apart ne (p.only.post ne) p.only.post2 hz (q.mem z hg)
    exact ⟨n, q.val z ((I2.facts (p.only.post ne)).2.2.2.2.1 z hz) n⟩
  have htook : ∀ z ∈ took, z ∈ c2.elems := fun z hz => pm.mem_iff.2 (by simp [hz])
  have hg' : ∀ z ∈ gone', z ∈ d.elems ∧ z ∉ gone := fun z hz => by
    have := q.mem z hz
    rw [p.elems] at this
    simpa using this
  refine ⟨⟨p.only.pre, p.only.pre2, ?_, q.only.asked.trans p.only.asked, q.only.hd.trans p.only.hd, q.only.asked2.trans p.only.asked2, q.only.hd2.trans p.only.hd2⟩,
    p.before, q.after, ?_, ?_, ?_, ?_, ?_, ?_, ?_, ?_, ?_, ?_, ?_, ?_, q.hs.trans p.hs⟩
  · rw [q.only.cs, p.only.cs, List.set_comm _ _ ne.symm, List.set_set, List.set_set]
  · refine q.perm.trans ((p.perm.append_left took').trans ?_)
    rw [← List.append_assoc]
    exact List.perm_append_comm.append_right xs
  · intro l S xs zs nl h1 h2 h3
    obtain ⟨ys, hy⟩ := seq_get (c := c2) (l := l) (S := S) (by rw [p.only.asked]; exact h1)
    refine (grown_congr (p.others l S xs ys nl h1 h2 hy) fun z hz => ?_).append (q.others l S ys zs nl (by rw [p.only.asked]; exact h1) hy h3)
    refine (hc2 z (pm.mem_iff.2 ?_)).2
    rcases List.mem_append.1 hz with h | h
    · simp [h]
    · obtain ⟨-, -, -, p1, -⟩ := I.seq p.only.pre h2
      simp [p1.mem_iff.1 h]
  · rw [q.count, p.count, List.length_append]; omega
  · rw [List.map_append, List.map_append, q.vals, ← p.vals]
    congr 1
    · exact List.map_congr_left fun z hz => (hc2 z (htook z hz)).2
    · refine List.map_congr_left fun z hz => p.val z ?_ (hg' z hz).2
      exact (I.facts p.only.pre2).2.2.2.2.1 z (hg' z hz).1
  · intro e
    rw [(p.same e).1, (q.same e).1, (q.same e).2, (p.same e).2]
    exact ⟨rfl, rfl⟩
  · rw [List.nodup_append]
    exact ⟨p.nodup, q.nodup, fun a ha b hb => by rintro rfl; exact (hg' a hb).2 ha⟩
  · intro z hz
    rcases List.mem_append.1 hz with h | h
    · exact p.mem z h
    · exact (hg' z h).1
  · have := p.count2; have := q.count2; rw [List.length_append]; omega
  · rw [q.left, p.left, List.map_map]
    exact List.map_congr_left fun xs _ => filter_both
  · intro z
    rw [q.alloc z, p.alloc z, List.mem_append, List.mem_append]
    have := fun h => (hc2 z (htook z h)).1
    tauto
  · intro z
    rw [q.cons z, p.cons z, List.mem_append, List.mem_append]
    have := fun h => (hc2 z (htook z h)).1
    tauto
  · intro z hz hn
    rw [List.mem_append, not_or] at hn
    rw [q.val z ((p.cons z).2 (Or.inr ⟨hz, hn.1⟩)) hn.2, p.val z hz hn.1]

/-- The order of index `k` changes. -/
theorem Blended.then {w2 : World V} {c2 : Container V} {xs zs ys gone took : List Id} (ne : i ≠ j) (p : Blended eqAl w w' i j k c c' d d' xs zs gone took)
    (o : OnlyAt w' w2 i c' c2) (hm : w2.m = w'.m) (hh : w2.hs = w'.hs) (hc : c2.count = c'.count) (hs : c2.seqs = c'.seqs.set k ys) (hp : ys.Perm zs) :
    Blended eqAl w w2 i j k c c2 d d' xs ys gone took :=
  ⟨p.only.then ne o, p.before, by rw [hs]; exact set_at (l := 0) p.after, hp.trans p.perm, fun l S xs zs nl h1 h2 h3 => by
    rw [hs, List.getElem?_set_ne nl.symm] at h3
    rw [hm]
    exact p.others l S xs zs nl h1 h2 h3, hc.trans p.count, by rw [hm]; exact p.vals, fun e => ⟨(p.same e).1, hm.trans (p.same e).2⟩, p.nodup, p.mem, p.count2, p.left, by rw [hm]; exact p.alloc,
    by rw [hm]; exact p.cons, by rw [hm]; exact p.val, hh.trans p.hs⟩

/-- `splice` of one element, with either kind of allocators. -/
theorem spliceOne_any {S : Spec V} {x : Id} {s t : List Id} {pos : Id} (ok : H.Ok) (ne : i ≠ j) (r : Reach w) (hi : w.cs[i]? = some c) (hj : w.cs[j]? = some d) (hx : x ∈ d.elems)
    (hS : c.asked[k]? = some S) (hl : S.list) (hk : c.seqs[k]? = some (s ++ t)) (hp : At c.hd pos t) :
    (∃ w' c' d' y, World.spliceOne H eqAl i j k pos w x = .ok (w', ⟨y, true⟩) ∧ Reach w' ∧ Blended eqAl w w' i j k c c' d d' (s ++ t) (s ++ [y] ++ t) [x] [y] ∧
      (∀ y ∈ c.elems, ¬ Clash c.asked (w.m.val x) (w.m.val y))) ∨
    (∃ w' c' y, World.spliceOne H eqAl i j k pos w x = .ok (w', ⟨y, false⟩) ∧ Reach w' ∧ Blended eqAl w w' i j k c c' d d (s ++ t) (s ++ t) [] [] ∧
      y ∈ c.elems ∧ Clash c.asked (w.m.val x) (w.m.val y)) ∨
    (∃ w' c' ret, World.spliceOne H eqAl i j k pos w x = .threw (w', ret) ∧ Reach w' ∧ Blended eqAl w w' i j k c c' d d (s ++ t) (s ++ t) [] [] ∧ ¬ H.Calm) := by
  cases eqAl with
  | true =>
    rcases spliceOne_spec ok ne r hi hj hx hS hl hk hp with ⟨w1, c1, d1, e, r1, p, q⟩ | ⟨w1, y, e, r1, u, hm, q⟩ | ⟨w1, e, r1, u, hm, q⟩
    · exact Or.inl ⟨w1, c1, d1, x, e, r1, (p.copied r.inv).blended fun _ => ⟨rfl, p.mm⟩, q⟩
    · obtain ⟨c1, b⟩ := Blended.of_unchanged r.inv ne hi hj hS hl hk u (eqAl := true) fun _ => hm
      exact Or.inr (Or.inl ⟨w1, c1, y, e, r1, b, q⟩)
    · obtain ⟨c1, b⟩ := Blended.of_unchanged r.inv ne hi hj hS hl hk u (eqAl := true) fun _ => hm
      exact Or.inr (Or.inr ⟨w1, c1, _, e, r1, b, q⟩)
  | false =>
    rcases spliceOne_copy ok ne r hi hj hx hS hl hk hp with ⟨w1, c1, d1, y, e, r1, p, q⟩ | ⟨w1, y, e, r1, u, hm, q⟩ | ⟨w1, ret, e, r1, u, hm, q⟩
    · exact Or.inl ⟨w1, c1, d1, y, e, r1, p.blended nofun, q⟩
    · obtain ⟨c1, b⟩ := Blended.of_unchanged r.inv ne hi hj hS hl hk u (eqAl := false) nofun
      exact Or.inr (Or.inl ⟨w1, c1, y, e, r1, b, q⟩)
    · obtain ⟨c1, b⟩ := Blended.of_unchanged r.inv ne hi hj hS hl hk u (eqAl := false) nofun
      exact Or.inr (Or.inr ⟨w1, c1, _, e, r1, b, q⟩)

/-- `splice` of a range at the end. -/
theorem spliceEnd_any {S : Spec V} {xs u m : List Id} (ok : H.Ok) (ne : i ≠ j) (r : Reach w) (hi : w.cs[i]? = some c) (hj : w.cs[j]? = some d)
    (hS : c.asked[k]? = some S) (hl : S.list) (hk : c.seqs[k]? = some xs) (hm : d.seqs[l]? = some (u ++ m)) :
    ∃ w' c' d' done gone took, Blended eqAl w w' i j k c c' d d' xs (xs ++ took) gone took ∧ Takes c.asked w.m.val c.elems done gone ∧ Reach w' ∧
    ((World.spliceRange H eqAl i j k l c.hd w (m.headD d.hd) d.hd = .ok w' ∧ done = m) ∨
     (World.spliceRange H eqAl i j k l c.hd w (m.headD d.hd) d.hd = .threw w' ∧ ¬ H.Calm ∧ ∃ x rest, m = done ++ x :: rest)) := by
  have hk' : c.seqs[k]? = some (xs ++ []) := by simpa using hk
  have hm' : d.seqs[l]? = some (u ++ m ++ []) := by simpa using hm
  cases eqAl with
  | true =>
    have := spliceRange_spec (pos := c.hd) ok ne r hi hj hS hl hk' rfl hm' (Or.inr (Or.inl rfl))
    obtain ⟨w1, c1, d1, done, took, p, tk, r1, q⟩ := this
    have b := (p.copied r.inv).blended (eqAl := true) fun _ => ⟨rfl, p.mm⟩
    simp only [List.append_nil, List.headD_nil] at b q
    exact ⟨w1, c1, d1, done, took, took, b, tk, r1, q⟩
  | false =>
    obtain ⟨w1, c1, d1, done, gone, took, p, tk, r1, q⟩ := spliceRange_copy (pos := c.hd) ok ne r hi hj hS hl hk' rfl hm'
    have b := p.blended (eqAl := false) nofun
    simp only [List.append_nil, List.headD_nil] at b q
    exact ⟨w1, c1, d1, done, gone, took, b, tk, r1, q⟩

theorem Weaves.congr_val {Ss : List (Spec V)} {val val' : Id → V} {cmp : Nat → V → V → Option Bool} : ∀ {els els' xs ys zs gone took : List Id} {t : Nat},
    (∀ v, v ∈ els.map val ↔ v ∈ els'.map val') → (∀ z ∈ xs, val' z = val z) → (∀ z ∈ ys, val' z = val z) →
    Weaves Ss val cmp t els xs ys zs gone took → Weaves Ss val' cmp t els' xs ys zs gone took := by
  intro els els' xs ys zs gone took t h e1 e2 k
  have cl : ∀ {els els' : List Id} {y : Id}, val' y = val y → (∀ v, v ∈ els.map val ↔ v ∈ els'.map val') → ((∃ z ∈ els, Clash Ss (val y) (val z)) ↔ ∃ z ∈ els', Clash Ss (val' y) (val' z)) := by
    intro els els' y ey h
    rw [ey]
    constructor
    · rintro ⟨z, hz, hc⟩
      obtain ⟨z', hz', ez⟩ := List.mem_map.1 ((h (val z)).1 (List.mem_map_of_mem hz))
      exact ⟨z', hz', by rw [ez]; exact hc⟩
    · rintro ⟨z, hz, hc⟩
      obtain ⟨z', hz', ez⟩ := List.mem_map.1 ((h (val' z)).2 (List.mem_map_of_mem hz))
      exact ⟨z', hz', by rw [ez]; exact hc⟩
  induction k generalizing els' with
  | left a b => exact .left (a.congr_val h e2) b
  | right => exact .right
  | @take t els x xs y ys y' zs gone took a b _ ih =>
    have ex := e1 x (by simp)
    have ey := e2 y (by simp)
    refine .take (by rw [ex, ey]; exact a) (fun z hz hc => ?_) (ih (fun v => ?_) e1 fun z hz => e2 z (by simp [hz]))
    · obtain ⟨z', hz', hc'⟩ := (cl ey h).2 ⟨z, hz, hc⟩
      exact b z' hz' hc'
    · simp only [List.map_cons, List.mem_cons, h v, ey]
  | @skip t els x xs y ys zs gone took a b _ ih =>
    have ex := e1 x (by simp)
    have ey := e2 y (by simp)
    exact .skip (by rw [ex, ey]; exact a) ((cl ey h).1 b) (ih h e1 fun z hz => e2 z (by simp [hz]))
  | @keep t els x xs y ys zs gone took a _ ih =>
    have ex := e1 x (by simp)
    have ey := e2 y (by simp)
    exact .keep (by rw [ex, ey]; exact a) (ih h (fun z hz => e1 z (by simp [hz])) e2)

/-- How `merge` of a sequenced index ends from the point in the loop where `s` has been passed. -/
def MergeEnds (cmp : Nat → V → V → Option Bool) (H : Host V) (eqAl : Bool) (w : World V) (i j k : Nat) (c d : Container V) (s xs ys : List Id) (t : Nat) (o : Out (World V)) : Prop :=
  ∃ w' c' d' zs done gone took, Blended eqAl w w' i j k c c' d d' (s ++ xs) (s ++ zs) gone took ∧ Takes c.asked w.m.val c.elems done gone ∧ Reach w' ∧
    xs.Sublist zs ∧ took.Sublist zs ∧ (∃ rest, ys = done ++ rest) ∧
    ((o = .ok w' ∧ done = ys ∧ Weaves c.asked w.m.val cmp t c.elems xs ys zs gone took) ∨ (o = .threw w' ∧ (¬ H.Calm ∨ ∃ t v v', cmp t v v' = none)))

/-- The rest of `sequenced_index_merge` after the loop. -/
def mergeRest (H : Host V) (eqAl : Bool) (i j k : Nat) (hd hd' : Id) : Out (World V × Id) → Out (World V)
  | .ok (w, first1) => World.spliceRange H eqAl i j k k hd w first1 hd'
  | .threw (w, _) => .threw w
  | .ub => .ub
  | .hang => .hang

theorem mergeLoop_spec {S : Spec V} {cmp : Nat → V → V → Option Bool} (ok : H.Ok) (ne : i ≠ j) (hl : S.list) : ∀ {n : Nat} {s xs u ys : List Id} {w : World V} {c d : Container V} {t : Nat},
    Reach w → w.cs[i]? = some c → w.cs[j]? = some d → c.asked[k]? = some S → c.seqs[k]? = some (s ++ xs) → d.seqs[k]? = some (u ++ ys) → xs.length + ys.length < n →
    MergeEnds cmp H eqAl w i j k c d s xs ys t (mergeRest H eqAl i j k c.hd d.hd (World.mergeLoop cmp H eqAl i j k c.hd d.hd n w (xs.headD c.hd) (ys.headD d.hd) t))
  | n + 1, s, xs, u, ys, w, c, d, t, r, hi, hj, hS, hk, hm, hn => by
    have I := r.inv
    have ndc := I.seq_nodup hi hk
    have ndd := I.seq_nodup hj hm
    by_cases hend : xs = [] ∨ ys = []
    · have hc : xs.headD c.hd = c.hd ∨ ys.headD d.hd = d.hd := by
        rcases hend with rfl | rfl
        · exact Or.inl rfl
        · exact Or.inr rfl
      obtain ⟨w1, c1, d1, done, gone, took, b, tk, r1, q⟩ := spliceEnd_any (eqAl := eqAl) (l := k) ok ne r hi hj hS hl hk hm
      have lt : took.length = gone.length := by simpa using congrArg List.length b.vals
      rw [World.mergeLoop, if_pos hc]
      refine ⟨w1, c1, d1, xs ++ took, done, gone, took, by simpa using b, tk, r1, List.sublist_append_left _ _, List.sublist_append_right _ _, ?_, ?_⟩
      · rcases q with ⟨-, rfl⟩ | ⟨-, -, x, rest, q⟩
        · exact ⟨[], by simp⟩
        · exact ⟨_, q⟩
      · rcases q with ⟨q, rfl⟩ | ⟨q, q2, -⟩
        · refine Or.inl ⟨q, rfl, ?_⟩
          rcases hend with rfl | rfl
          · exact .left tk lt
          · cases tk
            obtain rfl := List.length_eq_zero_iff.1 lt
            rw [List.append_nil]
            exact .right
        · exact Or.inr ⟨q, Or.inl q2⟩
    · obtain ⟨x, xs, rfl⟩ : ∃ x xs', xs = x :: xs' := by
        cases xs with
        | nil => exact absurd (Or.inl rfl) hend
        | cons x xs => exact ⟨x, xs, rfl⟩
      obtain ⟨y, ys, rfl⟩ : ∃ y ys', ys = y :: ys' := by
        cases ys with
        | nil => exact absurd (Or.inr rfl) hend
        | cons y ys => exact ⟨y, ys, rfl⟩
      have h1 : x ≠ c.hd := by rintro rfl; simp at ndc
      have h2 : y ≠ d.hd := by rintro rfl; simp at ndd
      have hc : ¬ ((x :: xs).headD c.hd = c.hd ∨ (y :: ys).headD d.hd = d.hd) := by rintro (h | h); exact h1 h; exact h2 h
      obtain ⟨-, -, -, hpd, -⟩ := I.seq hj hm
      obtain ⟨-, -, -, hpc, -⟩ := I.seq hi hk
      have hyd : ∀ z ∈ y :: ys, z ∈ d.elems := fun z hz => hpd.mem_iff.1 (List.mem_append_right _ hz)
      have hxc : ∀ z ∈ x :: xs, z ∈ c.elems := fun z hz => hpc.mem_iff.1 (List.mem_append_right _ hz)
      have hconsc : ∀ z ∈ c.elems, z ∈ w.m.cons := (I.facts hi).2.2.2.2.1
      have hconsd : ∀ z ∈ d.elems, z ∈ w.m.cons := (I.facts hj).2.2.2.2.1
      rw [World.mergeLoop, if_neg hc]
      simp only [List.headD_cons]
      rcases hp : cmp t (w.m.val y) (w.m.val x) with - | b
      · exact ⟨w, c, d, x :: xs, [], [], [], .nil I ne hi hj hk, .nil, r, .refl _, by simp, ⟨_, rfl⟩, Or.inr ⟨rfl, Or.inr ⟨_, _, _, hp⟩⟩⟩
      · cases b with
        | false =>
          simp only [nextOf_spec I hi hk]
          obtain ⟨w1, c1, d1, zs, done, gone, took, b, tk, r1, s1, s2, s3, q⟩ := mergeLoop_spec (cmp := cmp) (t := t + 1) (n := n) (s := s ++ [x]) (xs := xs) (u := u) (ys := y :: ys) ok ne hl r hi hj hS
            (by simpa using hk) hm (by simp only [List.length_cons] at hn ⊢; omega)
          refine ⟨w1, c1, d1, x :: zs, done, gone, took, by simpa using b, tk, r1, s1.cons_cons x, s2.trans (List.sublist_cons_self _ _), s3, ?_⟩
          rcases q with ⟨q1, q2, q3⟩ | q
          · exact Or.inl ⟨q1, q2, .keep hp q3⟩
          · exact Or.inr q
        | true =>
          simp only [nextOf_spec I hj hm]
          rcases spliceOne_any (eqAl := eqAl) (pos := x) (x := y) (s := s) (t := x :: xs) ok ne r hi hj (hyd y (by simp)) hS hl hk rfl with
            ⟨w2, c2, d2, y', e, r2, b, cl⟩ | ⟨w2, c2, z, e, r2, b, hz, cl⟩ | ⟨w2, c2, ret, e, r2, b, nc⟩
          · have hm2 : d2.seqs[k]? = some (u ++ ys) := by
              rw [b.left, List.getElem?_map, hm]
              have := filter_split (u := u) (m := [y]) (v := ys) (by simpa using (List.nodup_cons.1 ndd).2)
              simpa using this
            have hyy : ∀ z ∈ ys, z ≠ y := by
              rintro z hz rfl
              have := (List.nodup_cons.1 ndd).2
              rw [List.nodup_append] at this
              exact (List.nodup_cons.1 this.2.1).1 hz
            obtain ⟨w3, c3, d3, zs, done, gone, took, b3, tk, r3, s1, s2, ⟨rest, s3⟩, q⟩ := mergeLoop_spec (cmp := cmp) (t := t + 1) (n := n) (s := s ++ [y']) (xs := x :: xs) (u := u) (ys := ys) ok ne hl r2
              (b.only.post ne) b.only.post2 (by rw [b.only.asked]; exact hS) (by simpa using b.after) hm2 (by simp only [List.length_cons] at hn ⊢; omega)
            have pm := b.cperm I r2.inv ne
            have ec : ∀ z ∈ c.elems, w2.m.val z = w.m.val z := fun z hz => b.val z (hconsc z hz) (by
              intro h
              obtain rfl : z = y := by simpa using h
              exact I.apart ne hi hj hz (hyd z (by simp)))
            have ed : ∀ z ∈ ys, w.m.val z = w2.m.val z := fun z hz => (b.val z (hconsd z (hyd z (by simp [hz]))) (by simpa using hyy z hz)).symm
            have ev : ∀ v, v ∈ c2.elems.map w2.m.val ↔ v ∈ (y :: c.elems).map w.m.val := by
              intro v
              rw [(pm.map w2.m.val).mem_iff]
              have e : w2.m.val y' = w.m.val y := by simpa using b.vals
              have e' : c.elems.map w2.m.val = c.elems.map w.m.val := List.map_congr_left ec
              simp [e', e]
            have hdone : ∀ z ∈ done, z ∈ ys := fun z hz => by rw [s3]; simp [hz]
            rw [b.only.asked] at tk q
            refine ⟨w3, c3, d3, y' :: zs, y :: done, y :: gone, y' :: took, by simpa using b.trans I r2.inv ne b3, .take cl (tk.congr_val ev fun z hz => ed z (hdone z hz)), r3,
              s1.trans (List.sublist_cons_self _ _), s2.cons_cons y', ⟨rest, by rw [s3]; rfl⟩, ?_⟩
            rw [b.only.hd, b.only.hd2] at q
            simp only [e]
            rcases q with ⟨q1, q2, q3⟩ | q
            · exact Or.inl ⟨q1, by rw [q2], .take hp cl (q3.congr_val ev (fun z hz => (ec z (hxc z hz)).symm) ed)⟩
            · exact Or.inr q
          · obtain ⟨w3, c3, d3, zs, done, gone, took, b3, tk, r3, s1, s2, ⟨rest, s3⟩, q⟩ := mergeLoop_spec (cmp := cmp) (t := t + 1) (n := n) (s := s) (xs := x :: xs) (u := u ++ [y]) (ys := ys) ok ne hl r2
              (b.only.post ne) b.only.post2 (by rw [b.only.asked]; exact hS) (by simpa using b.after) (by simpa using hm) (by simp only [List.length_cons] at hn ⊢; omega)
            have pm := b.cperm I r2.inv ne
            have ec : ∀ z ∈ c.elems, w2.m.val z = w.m.val z := fun z hz => b.val z (hconsc z hz) (by simp)
            have ed : ∀ z ∈ ys, w.m.val z = w2.m.val z := fun z hz => (b.val z (hconsd z (hyd z (by simp [hz]))) (by simp)).symm
            have ev : ∀ v, v ∈ c2.elems.map w2.m.val ↔ v ∈ c.elems.map w.m.val := by
              intro v
              rw [(pm.map w2.m.val).mem_iff]
              have e' : c.elems.map w2.m.val = c.elems.map w.m.val := List.map_congr_left ec
              simp [e']
            have hdone : ∀ z ∈ done, z ∈ ys := fun z hz => by rw [s3]; simp [hz]
            rw [b.only.asked] at tk q
            refine ⟨w3, c3, d3, zs, y :: done, gone, took, by simpa using b.trans I r2.inv ne b3, .skip ⟨z, hz, cl⟩ (tk.congr_val ev fun z hz => ed z (hdone z hz)), r3,
              s1, s2, ⟨rest, by rw [s3]; rfl⟩, ?_⟩
            rw [b.only.hd] at q
            simp only [e]
            rcases q with ⟨q1, q2, q3⟩ | q
            · exact Or.inl ⟨q1, by rw [q2], .skip hp ⟨z, hz, cl⟩ (q3.congr_val ev (fun z hz => (ec z (hxc z hz)).symm) ed)⟩
            · exact Or.inr q
          · simp only [e]
            exact ⟨w2, c2, d, x :: xs, [], [], [], b, .nil, r2, .refl _, by simp, ⟨_, rfl⟩, Or.inr ⟨rfl, Or.inl nc⟩⟩

theorem Merges.sub {ask : Nat → Id → Id → Option Bool} {t : Nat} {xs ys zs : List Id} (h : Merges ask t xs ys zs) : xs.Sublist zs ∧ ys.Sublist zs := by
  induction h with
  | left => exact ⟨by simp, .refl _⟩
  | right => exact ⟨.refl _, by simp⟩
  | take _ _ ih => exact ⟨ih.1.trans (List.sublist_cons_self _ _), ih.2.cons_cons _⟩
  | keep _ _ ih => exact ⟨ih.1.cons_cons _, ih.2.trans (List.sublist_cons_self _ _)⟩

theorem arr_zero {s : Rnd.Arr} {hd : Id} {xs : List Id} (h : Rnd.Rep s hd xs) : s.arr 0 = xs.headD hd :=
  (Rnd.Rep.up_hdOr (u := []) (v := xs) h).2

/-- How `merge` ends. -/
def MergeList (cmp : Nat → V → V → Option Bool) (fail : Bool) (H : Host V) (eqAl : Bool) (w : World V) (i j k : Nat) (c d : Container V) (S : Spec V) (xs ys : List Id) (o : Out (World V)) : Prop :=
  ∃ w' c' d' zs done gone took, Blended eqAl w w' i j k c c' d d' xs zs gone took ∧ Takes c.asked w.m.val c.elems done gone ∧ Reach w' ∧
    xs.Sublist zs ∧ took.Sublist zs ∧ (∃ rest, ys = done ++ rest) ∧
    ((o = .ok w' ∧ done = ys ∧ (S = .seq → Weaves c.asked w.m.val cmp 0 c.elems xs ys zs gone took) ∧
        (S = .rnd → Merges (fun t y x => cmp t (w'.m.val y) (w'.m.val x)) 0 xs took zs)) ∨
     (o = .threw w' ∧ (¬ H.Calm ∨ (∃ t v v', cmp t v v' = none) ∨ (S = .rnd ∧ fail = true))))

theorem mergeList_spec {S : Spec V} {cmp : Nat → V → V → Option Bool} {fail : Bool} {xs ys : List Id} (ok : H.Ok) (ne : i ≠ j) (r : Reach w) (hi : w.cs[i]? = some c) (hj : w.cs[j]? = some d)
    (hS : c.asked[k]? = some S) (hT : d.asked[k]? = some S) (hl : S.list) (hk : c.seqs[k]? = some xs) (hm : d.seqs[k]? = some ys) :
    MergeList cmp fail H eqAl w i j k c d S xs ys (World.mergeList cmp fail H eqAl i j k w) := by
  have I := r.inv
  obtain ⟨L, hL, h2, -, h4, -⟩ := I.seq' hi hS hk
  obtain ⟨M, hM, h3, -, h5, -⟩ := I.seq' hj hT hm
  obtain ⟨-, -, -, -, hb, -⟩ := I.seq hi hk
  obtain ⟨-, -, -, -, hb', -⟩ := I.seq hj hm
  subst h4
  cases L with
  | ord => exact hl.elim
  | hash => exact hl.elim
  | seq h =>
    cases M with
    | ord => exact nomatch h5
    | hash => exact nomatch h5
    | rnd => exact nomatch h5
    | seq g =>
      have hf : h.next c.hd = xs.headD c.hd := Layer.first_spec h2
      have hg : g.next d.hd = ys.headD d.hd := Layer.first_spec h3
      obtain ⟨w1, c1, d1, zs, done, gone, took, b, tk, r1, s1, s2, s3, q⟩ := mergeLoop_spec (cmp := cmp) (eqAl := eqAl) (t := 0) (n := c.budget + d.budget) (s := []) (u := []) ok ne hl r hi hj hS hk hm
        (by omega)
      refine ⟨w1, c1, d1, zs, done, gone, took, b, tk, r1, s1, s2, s3, ?_⟩
      have e : World.mergeList cmp fail H eqAl i j k w =
          mergeRest H eqAl i j k c.hd d.hd (World.mergeLoop cmp H eqAl i j k c.hd d.hd (c.budget + d.budget) w (xs.headD c.hd) (ys.headD d.hd) 0) := by
        simp only [World.mergeList, if_neg ne, hi, hj, hL, hM, hf, hg]
        cases World.mergeLoop cmp H eqAl i j k c.hd d.hd (c.budget + d.budget) w (xs.headD c.hd) (ys.headD d.hd) 0 <;> rfl
      rw [e]
      rcases q with ⟨q1, q2, q3⟩ | ⟨q1, q2⟩
      · exact Or.inl ⟨q1, q2, fun _ => q3, nofun⟩
      · refine Or.inr ⟨q1, ?_⟩
        rcases q2 with q | q
        · exact Or.inl q
        · exact Or.inr (Or.inl q)
  | rnd a =>
    cases M with
    | ord => exact nomatch h5
    | hash => exact nomatch h5
    | seq => exact nomatch h5
    | rnd a' =>
      have h2 : Rnd.Rep a c.hd xs := h2
      have h3 : Rnd.Rep a' d.hd ys := h3
      obtain ⟨w1, c1, d1, done, gone, took, b, tk, r1, q⟩ := spliceEnd_any (eqAl := eqAl) (l := k) (u := []) ok ne r hi hj hS hl hk hm
      rcases q with ⟨q1, rfl⟩ | ⟨q1, q2, x, rest, q3⟩
      · have hk1 := b.after
        have hS1 : c1.asked[k]? = some .rnd := by rw [b.only.asked]; exact hS
        obtain ⟨L1, hL1, g2, -, g4, -⟩ := r1.inv.seq' (b.only.post ne) hS1 hk1
        have kd : L1.keyed = false := by cases L1 <;> first | rfl | cases g4
        have hsz : a.size ≤ (xs ++ took).length := by rw [h2.1]; simp
        have lg : w1.Legal (.rearrange i k (.merge a.size cmp fail)) := ⟨c1, L1, xs ++ took, b.only.post ne, hL1, kd, hk1, g4, hsz⟩
        obtain ⟨w2, c0, c2, S', zs0, zs, o, k2, k3, k4, -, k5, k6, kp, k7, k8⟩ := eff_rearrange r1.inv lg
        obtain rfl := Option.some.inj (o.pre.symm.trans (b.only.post ne))
        obtain rfl := Option.some.inj (k5.symm.trans hk1)
        have e : ∀ o : Out (World V × Ret), w1.step (.rearrange i k (.merge a.size cmp fail)) = o → World.mergeList cmp fail H eqAl i j k w = match o with
            | .ok (w, _) => .ok w
            | .threw (w, _) => .threw w
            | .ub => .ub
            | .hang => .hang := by
          rintro _ rfl
          simp only [World.mergeList, if_neg ne, hi, hj, hL, hM, arr_zero h3, q1]
          cases w1.step (.rearrange i k (.merge a.size cmp fail)) <;> rfl
        rcases k8 with ⟨k8, k9⟩ | ⟨k8, k9, rfl⟩
        · have k9 : Merges (fun t y x => cmp t (w1.m.val y) (w1.m.val x)) 0 ((xs ++ took).take a.size) ((xs ++ took).drop a.size) zs := k9
          rw [show (xs ++ took).take a.size = xs by rw [h2.1]; simp, show (xs ++ took).drop a.size = took by rw [h2.1]; simp] at k9
          refine ⟨w2, c2, d1, zs, done, gone, took, b.then ne o k2 k3 k4 k6 kp, tk, r1.ok lg k8, (Merges.sub k9).1, (Merges.sub k9).2, ⟨[], by simp⟩, Or.inl ⟨e _ k8, rfl, nofun, fun _ => ?_⟩⟩
          rw [k2]; exact k9
        · refine ⟨w2, c2, d1, _, done, gone, took, b.then ne o k2 k3 k4 k6 kp, tk, r1.threw lg k8, List.sublist_append_left _ _, List.sublist_append_right _ _, ⟨[], by simp⟩, Or.inr ⟨e _ k8, ?_⟩⟩
          rcases k9 with k9 | k9
          · exact Or.inr (Or.inl k9)
          · exact Or.inr (Or.inr ⟨rfl, k9⟩)
      · refine ⟨w1, c1, d1, _, done, gone, took, b, tk, r1, List.sublist_append_left _ _, List.sublist_append_right _ _, ⟨_, q3⟩, Or.inr ⟨?_, Or.inl q2⟩⟩
        simp only [World.mergeList, if_neg ne, hi, hj, hL, hM, arr_zero h3, q1]

theorem Weaves.sub {Ss : List (Spec V)} {val : Id → V} {cmp : Nat → V → V → Option Bool} {els xs ys zs gone took : List Id} {t : Nat} (h : Weaves Ss val cmp t els xs ys zs gone took) :
    gone.Sublist ys := by
  have tk : ∀ {els r t : List Id}, Takes Ss val els r t → t.Sublist r := by
    intro els r t h
    induction h with
    | nil => exact .refl _
    | take _ _ ih => exact ih.cons_cons _
    | skip _ _ ih => exact ih.trans (List.sublist_cons_self _ _)
  induction h with
  | left a _ => exact tk a
  | right => exact .refl _
  | take _ _ _ ih => exact ih.cons_cons _
  | skip _ _ _ ih => exact ih.trans (List.sublist_cons_self _ _)
  | keep _ _ ih => exact ih

theorem strictWeak_neg {α : Type} {lt : α → α → Bool} (sw : StrictWeak lt) {x y z : α} (h1 : lt x y = false) (h2 : lt y z = false) : lt x z = false := by
  cases h : lt x z with
  | false => rfl
  | true =>
    cases h3 : lt y x with
    | true => rw [sw.trans h3 h] at h2; exact nomatch h2
    | false =>
      cases h4 : lt z y with
      | true => rw [sw.trans h h4] at h1; exact nomatch h1
      | false =>
        have := (sw.incomp h1 h3 h2 h4).1
        rw [h] at this
        exact this

/-- With an ordering, and the other sequence sorted, the result is the stable merge. -/
theorem Weaves.merge {Ss : List (Spec V)} {val val' : Id → V} {lt : V → V → Bool} (sw : StrictWeak lt) {els xs ys zs gone took : List Id} {t : Nat}
    (h : Weaves Ss val (fun _ v v' => some (lt v v')) t els xs ys zs gone took) (so : Sorted lt (ys.map val)) (hv : took.map val' = gone.map val) (hx : ∀ z ∈ xs, val' z = val z) :
    zs = xs.merge took (fun a b => !lt (val' b) (val' a)) := by
  induction h with
  | left => simp
  | right => simp
  | @take t els x xs y ys y' zs gone took a b _ ih =>
    have e1 : val' y' = val y := (List.cons.inj hv).1
    have a : lt (val y) (val x) = true := Option.some.inj a
    rw [List.cons_merge_cons_neg, ← ih (List.pairwise_cons.1 so).2 (List.cons.inj hv).2 hx]
    simp [e1, hx x (by simp), a]
  | skip a b _ ih => exact ih (List.pairwise_cons.1 so).2 hv hx
  | @keep t els x xs y ys zs gone took a w ih =>
    have a : lt (val y) (val x) = false := Option.some.inj a
    have ih2 := ih so hv fun z hz => hx z (by simp [hz])
    clear ih
    cases took with
    | nil => simp [ih2]
    | cons y' took =>
      cases gone with
      | nil => exact nomatch hv
      | cons y0 gone =>
        have e1 : val' y' = val y0 := (List.cons.inj hv).1
        have m : y0 ∈ y :: ys := w.sub.subset (by simp)
        have hle : lt (val y0) (val x) = false := by
          rcases List.mem_cons.1 m with rfl | m
          · exact a
          · exact strictWeak_neg sw ((List.pairwise_cons.1 so).1 _ (List.mem_map_of_mem m)) a
        rw [List.cons_merge_cons_pos, ← ih2]
        simp [e1, hx x (by simp), hle]

theorem Merges.merge {val : Id → V} {lt : V → V → Bool} {xs ys zs : List Id} {t : Nat} (h : Merges (fun _ y x => some (lt (val y) (val x))) t xs ys zs) :
    zs = xs.merge ys (fun a b => !lt (val b) (val a)) := by
  induction h with
  | left => simp
  | right => simp
  | take a _ ih => rw [List.cons_merge_cons_neg, ← ih]; simpa using a
  | keep a _ ih => rw [List.cons_merge_cons_pos, ← ih]; simpa using a

end MI.Cont
