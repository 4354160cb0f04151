import Verif.Cont.ListLemmas2
/-!
`splice` with unequal allocators: elements are copied and the originals erased.
-/
set_option linter.unusedVariables false
set_option linter.unusedSimpArgs false
namespace MI.Cont
open MI
variable {V : Type} {w w' : World V} {i j k l : Nat} {c c' d d' : Container V} {H : Host V}

theorem Inv.apart (I : Inv w) (ne : i ≠ j) (hi : w.cs[i]? = some c) (hj : w.cs[j]? = some d) {z : Id} (h1 : z ∈ c.elems) (h2 : z ∈ d.elems) : False :=
  I.disj (z := z) hi (mem_rest ne hj) (by simp [h1]) (by simp [h2])

theorem Takes.congr_val {Ss : List (Spec V)} {val val' : Id → V} : ∀ {els els' r t : List Id}, (∀ v, v ∈ els.map val ↔ v ∈ els'.map val') → (∀ z ∈ r, val' z = val z) →
    Takes Ss val els r t → Takes Ss val' els' r t := by
  intro els els' r t h e k
  induction k generalizing els' with
  | nil => exact .nil
  | @take els x r t a _ ih =>
    have ex := e x (by simp)
    refine .take (fun y hy => ?_) (ih (fun v => ?_) fun z hz => e z (by simp [hz]))
    · obtain ⟨y0, hy0, ey⟩ := List.mem_map.1 ((h (val' y)).2 (List.mem_map_of_mem hy))
      rw [ex, ← ey]
      exact a y0 hy0
    · simp only [List.map_cons, List.mem_cons, h v, ex]
  | @skip els x r t a _ ih =>
    have ex := e x (by simp)
    obtain ⟨y, hy, hc⟩ := a
    obtain ⟨y0, hy0, ey⟩ := List.mem_map.1 ((h (val y)).1 (List.mem_map_of_mem hy))
    exact .skip ⟨y0, hy0, by rw [ex, ey]; exact hc⟩ (ih h fun z hz => e z (by simp [hz]))

theorem CopiedAt.elems {s t gone took : List Id} (p : CopiedAt w w' i j k c c' d d' s t gone took) : d'.elems = d.elems.filter (· ∉ gone) := by
  unfold Container.elems
  rw [p.left]
  cases d.seqs <;> rfl

theorem CopiedAt.nil {s t : List Id} {v : List V} (ne : i ≠ j) (hj : w.cs[j]? = some d) (g : InsertedAt w w' i k c c' s t v []) :
    CopiedAt w w' i j k c c' d d s t [] [] := by
  have hj' : w'.cs[j]? = some d := by rw [g.only.cs, List.getElem?_set_ne ne]; exact hj
  refine ⟨⟨g.only.pre, hj, ?_, g.only.asked, g.only.hd, rfl, rfl⟩, g.inlaid, rfl, by simp, by simp, rfl, by simp, ?_, ?_, fun z hz _ => g.val z hz, g.hs⟩
  · rw [← g.only.cs, set_same hj']
  · simp [g.alloc]
  · simp [g.cons]

theorem CopiedAt.one {s t : List Id} {x x' : Id} {w1 : World V} {c1 : Container V} (I : Inv w) (I1 : Inv w1) (ne : i ≠ j) (hj : w.cs[j]? = some d) (hx : x ∈ d.elems)
    (g : InsertedAt w w1 i k c c1 s t [w.m.val x] [x']) (hv : w1.m.val x' = w.m.val x) (p : Purged w1 w' j [x]) :
    ∃ d', CopiedAt w w' i j k c c1 d d' s t [x] [x'] := by
  have hj' : w1.cs[j]? = some d := by rw [g.only.cs, List.getElem?_set_ne ne]; exact hj
  obtain ⟨d0, d1, o, h1, h2, h3⟩ := p.cont
  obtain rfl := Option.some.inj (o.pre.symm.trans hj')
  have na : x' ∉ w.m.alloc := by
    have := I1.nodup
    rw [g.alloc] at this
    simpa using (List.nodup_cons.1 this).1
  have nx : x' ≠ x := by rintro rfl; exact na ((I.facts hj).2.2.2.1 _ hx)
  have nc : x' ∉ w.m.cons := fun h => na (I.cons_sub h)
  refine ⟨d1, ⟨g.only.pre, hj, ?_, g.only.asked, g.only.hd, o.asked, o.hd⟩, by rw [p.val]; exact g.inlaid, by simp [p.val, hv], by simp, by simpa using hx, h2, h3, ?_, ?_, ?_, p.hs.trans g.hs⟩
  · rw [o.cs, g.only.cs]
  · intro z
    rw [p.alloc, g.alloc]
    simp only [List.mem_filter, List.reverse_cons, List.reverse_nil, List.nil_append, List.mem_append, List.mem_singleton, decide_eq_true_eq]
    constructor
    · rintro ⟨h | h, h'⟩
      · exact Or.inl h
      · exact Or.inr ⟨h, h'⟩
    · rintro (rfl | ⟨h, h'⟩)
      · exact ⟨Or.inl rfl, nx⟩
      · exact ⟨Or.inr h, h'⟩
  · intro z
    rw [p.cons, g.cons]
    simp only [List.mem_filter, List.reverse_cons, List.reverse_nil, List.nil_append, List.mem_append, List.mem_singleton, decide_eq_true_eq]
    constructor
    · rintro ⟨h | h, h'⟩
      · exact Or.inl h
      · exact Or.inr ⟨h, h'⟩
    · rintro (rfl | ⟨h, h'⟩)
      · exact ⟨Or.inl rfl, nx⟩
      · exact ⟨Or.inr h, h'⟩
  · intro z hz _
    rw [p.val]; exact g.val z hz

theorem CopiedAt.trans {w2 w3 : World V} {c2 c3 d2 d3 : Container V} {s t gone took gone' took' : List Id} (I : Inv w) (I2 : Inv w2) (ne : i ≠ j)
    (p : CopiedAt w w2 i j k c c2 d d2 s t gone took) (q : CopiedAt w2 w3 i j k c2 c3 d2 d3 (s ++ took) t gone' took') :
    CopiedAt w w3 i j k c c3 d d3 s t (gone ++ gone') (took ++ took') := by
  have pm := Inlaid.perm I I2 p.only.pre (p.only.post ne) p.inlaid
  have hc2 : ∀ z ∈ c2.elems, z ∉ gone' ∧ w3.m.val z = w2.m.val z := fun z hz => by
    have n : z ∉ gone' := fun hg => I2.apart ne (p.only.post ne) p.only.post2 hz (q.mem z hg)
    exact ⟨n, q.val z ((I2.facts (p.only.post ne)).2.2.2.2.1 z hz) n⟩
  have htook : ∀ z ∈ took, z ∈ c2.elems := fun z hz => pm.mem_iff.2 (by simp [hz])
  have hg' : ∀ z ∈ gone', z ∈ d.elems ∧ z ∉ gone := fun z hz => by
    have := q.mem z hz
    rw [p.elems] at this
    simpa using this
  refine ⟨⟨p.only.pre, p.only.pre2, ?_, q.only.asked.trans p.only.asked, q.only.hd.trans p.only.hd, q.only.asked2.trans p.only.asked2, q.only.hd2.trans p.only.hd2⟩,
    ?_, ?_, ?_, ?_, ?_, ?_, ?_, ?_, ?_, q.hs.trans p.hs⟩
  · rw [q.only.cs, p.only.cs, List.set_comm _ _ ne.symm, List.set_set, List.set_set]
  · refine Inlaid.trans p.only.asked (p.inlaid.congr fun xs hxs z hz => ?_) q.inlaid
    refine (hc2 z (pm.mem_iff.2 ?_)).2
    rcases List.mem_append.1 hz with h | h
    · simp [h]
    · obtain ⟨n, hn⟩ := List.mem_iff_getElem?.1 hxs
      obtain ⟨-, -, -, p1, -⟩ := I.seq p.only.pre hn
      simp [p1.mem_iff.1 h]
  · rw [List.map_append, List.map_append, q.vals, ← p.vals]
    congr 1
    · exact List.map_congr_left fun z hz => (hc2 z (htook z hz)).2
    · refine List.map_congr_left fun z hz => p.val z ?_ (hg' z hz).2
      exact (I.facts p.only.pre2).2.2.2.2.1 z (hg' z hz).1
  · rw [List.nodup_append]
    exact ⟨p.nodup, q.nodup, fun a ha b hb => by rintro rfl; exact (hg' a hb).2 ha⟩
  · intro z hz
    rcases List.mem_append.1 hz with h | h
    · exact p.mem z h
    · exact (hg' z h).1
  · have := p.count; have := q.count; rw [List.length_append]; omega
  · rw [q.left, p.left, List.map_map]
    exact List.map_congr_left fun xs _ => filter_both
  · intro z
    rw [q.alloc z, p.alloc z, List.mem_append, List.mem_append]
    have := fun h => (hc2 z (htook z h)).1
    tauto
  · intro z
    rw [q.cons z, p.cons z, List.mem_append, List.mem_append]
    have := fun h => (hc2 z (htook z h)).1
    tauto
  · intro z hz hn
    rw [List.mem_append, not_or] at hn
    rw [q.val z ((p.cons z).2 (Or.inr ⟨hz, hn.1⟩)) hn.2, p.val z hz hn.1]

theorem CopiedAt.gathered {w1 w2 : World V} {c1 c2 : Container V} {s t gone took : List Id} (ne : i ≠ j) (p : CopiedAt w w1 i j k c c1 d d' (s ++ t) [] gone took)
    (o : OnlyAt w1 w2 i c1 c2) (hm : w2.m = w1.m) (hh : w2.hs = w1.hs) (hc : c2.count = c1.count) (hs : c2.seqs = c1.seqs.set k (s ++ took ++ t)) :
    CopiedAt w w2 i j k c c2 d d' s t gone took :=
  ⟨p.only.then ne o, by rw [hm]; exact p.inlaid.gathered hc hs, by rw [hm]; exact p.vals, p.nodup, p.mem, p.count, p.left, by rw [hm]; exact p.alloc, by rw [hm]; exact p.cons,
    by rw [hm]; exact p.val, hh.trans p.hs⟩

/-- How `splice` of a range ends when the allocators are unequal. -/
def Copies (H : Host V) (w : World V) (i j k : Nat) (c d : Container V) (s t m : List Id) (o : Out (World V)) : Prop :=
  ∃ w' c' d' done gone took, CopiedAt w w' i j k c c' d d' s t gone took ∧ Takes c.asked w.m.val c.elems done gone ∧ Reach w' ∧
    ((o = .ok w' ∧ done = m) ∨ (o = .threw w' ∧ ¬ H.Calm ∧ ∃ x rest, m = done ++ x :: rest))

theorem copyLoop_spec {S : Spec V} {last pos : Id} (ok : H.Ok) (ne : i ≠ j) (hl : S.list) : ∀ {m : List Id} {u v s t : List Id} {n : Nat} {w : World V} {c d : Container V} (a : Nat),
    Reach w → w.cs[i]? = some c → w.cs[j]? = some d → c.asked[k]? = some S → c.seqs[k]? = some (s ++ t) → At c.hd pos t → d.seqs[l]? = some (u ++ m ++ v) → m.length < n →
    last = v.headD d.hd → Copies H w i j k c d s t m (World.copyLoop H i j k l pos last n w ((m ++ v).headD d.hd) a)
  | [], u, v, s, t, n + 1, w, c, d, a, r, hi, hj, hS, hk, hp, h, hn, hla => by
    refine ⟨w, c, d, [], [], [], .nil (v := []) ne hj (.nil hi hk), .nil, r, Or.inl ⟨by simp only [World.copyLoop, List.nil_append, hla, if_true], rfl⟩⟩
  | x :: m, u, v, s, t, n + 1, w, c, d, a, r, hi, hj, hS, hk, hp, h, hn, hla => by
    have I := r.inv
    have nd := I.seq_nodup hj h
    have h' : d.seqs[l]? = some (u ++ x :: (m ++ v)) := by rw [h]; simp
    obtain ⟨-, -, -, hpm, -⟩ := I.seq hj h
    have hmd : ∀ z ∈ x :: m, z ∈ d.elems := fun z hz => hpm.mem_iff.1 (by
      rcases List.mem_cons.1 hz with rfl | hz
      · simp
      · simp [hz])
    have hxd : x ∈ d.elems := hmd x (by simp)
    have hcons : ∀ z ∈ c.elems, z ∈ w.m.cons := (I.facts hi).2.2.2.2.1
    have hconsd : ∀ z ∈ d.elems, z ∈ w.m.cons := (I.facts hj).2.2.2.2.1
    have hne : ¬ (x = last) := by rw [hla]; exact headD_ne nd
    show Copies H w i j k c d s t (x :: m) (World.copyLoop H i j k l pos last (n + 1) w x a)
    cases insertAt_spec (em := false) (n := a) (v := w.m.val x) ok r hi hS hl hk hp with
    | took w1 x' c1 k1 r1 g hx hcl =>
      have hj1 : w1.cs[j]? = some d := by rw [g.only.cs, List.getElem?_set_ne ne]; exact hj
      obtain ⟨w2, e1, e2, r2⟩ := eraseIt_spec (u := u) (v := m ++ v) r1 hj1 h'
      obtain ⟨d2, cp⟩ := CopiedAt.one I r1.inv ne hj hxd g hx e2
      have h2 : d2.seqs[l]? = some (u ++ m ++ v) := by
        have := e2.at (u := u) (v := m ++ v) r1.inv hj1 cp.only.post2 (by simpa using h')
        simpa using this
      have ndx : ∀ z ∈ m, z ≠ x := by
        rintro z hz rfl
        have := (List.nodup_cons.1 nd).2
        rw [List.append_assoc, List.nodup_append] at this
        have := this.2.1
        simp [hz] at this
      obtain ⟨w3, c3, d3, done, gone, took, q, tk, r3, f⟩ := copyLoop_spec (last := last) (m := m) (u := u) (v := v) (s := s ++ [x']) (t := t) (n := n) ok ne hl (a + 1) r2 (cp.only.post ne) cp.only.post2
        (by rw [cp.only.asked]; exact hS) (by simpa using cp.inlaid.after) (by rw [cp.only.hd]; exact hp) h2 (by simpa using hn) (by rw [cp.only.hd2]; exact hla)
      have hdone : ∀ z ∈ done, z ∈ m := by
        rcases f with ⟨-, rfl⟩ | ⟨-, -, y, rest, rfl⟩
        · exact fun _ h => h
        · intro z hz; simp [hz]
      have pm := Inlaid.perm I r2.inv hi (cp.only.post ne) cp.inlaid
      refine ⟨w3, c3, d3, x :: done, [x] ++ gone, [x'] ++ took, cp.trans I r2.inv ne q, ?_, r3, ?_⟩
      · refine .take hcl ?_
        rw [cp.only.asked] at tk
        refine tk.congr_val (fun b => ?_) fun z hz => (cp.val z (hconsd z (hmd z (by simp [hdone z hz]))) (by simpa using ndx z (hdone z hz))).symm
        rw [(pm.map w2.m.val).mem_iff]
        have e : w2.m.val x' = w.m.val x := by simpa using cp.vals
        have e' : c.elems.map w2.m.val = c.elems.map w.m.val := List.map_congr_left fun z hz => cp.val z (hcons z hz) (by
          rintro h
          obtain rfl : z = x := by simpa using h
          exact I.apart ne hi hj hz hxd)
        simp [e', e]
      · rw [cp.only.hd2] at f
        rw [show World.copyLoop H i j k l pos last (n + 1) w x a = World.copyLoop H i j k l pos last n w2 ((m ++ v).headD d.hd) (a + 1) by
          rw [World.copyLoop, if_neg hne]; simp only [k1, if_true, e1]]
        rcases f with ⟨f1, rfl⟩ | ⟨f1, f2, y, rest, rfl⟩
        · exact Or.inl ⟨f1, rfl⟩
        · exact Or.inr ⟨f1, f2, y, rest, rfl⟩
    | left w1 y c1 k1 r1 g un hy hcl =>
      have hj1 : w1.cs[j]? = some d := by rw [g.only.cs, List.getElem?_set_ne ne]; exact hj
      have hnx := nextOf_spec r1.inv hj1 h'
      have cp : CopiedAt w w1 i j k c c1 d d s t [] [] := .nil ne hj g
      obtain ⟨w3, c3, d3, done, gone, took, q, tk, r3, f⟩ := copyLoop_spec (last := last) (m := m) (u := u ++ [x]) (v := v) (s := s) (t := t) (n := n) ok ne hl (a + 1) r1 g.only.post hj1
        (by rw [g.only.asked]; exact hS) (by simpa using g.inlaid.after) (by rw [g.only.hd]; exact hp) (by simpa using h) (by simpa using hn) hla
      have hdone : ∀ z ∈ done, z ∈ m := by
        rcases f with ⟨-, rfl⟩ | ⟨-, -, y, rest, rfl⟩
        · exact fun _ h => h
        · intro z hz; simp [hz]
      have pm := Inlaid.perm I r1.inv hi g.only.post g.inlaid
      refine ⟨w3, c3, d3, x :: done, [] ++ gone, [] ++ took, cp.trans I r1.inv ne (by simpa using q), ?_, r3, ?_⟩
      · refine .skip ⟨y, hy, hcl⟩ ?_
        rw [g.only.asked] at tk
        refine tk.congr_val (fun b => ?_) fun z hz => (g.val z (hconsd z (hmd z (by simp [hdone z hz])))).symm
        rw [(pm.map w1.m.val).mem_iff]
        have e' : c.elems.map w1.m.val = c.elems.map w.m.val := List.map_congr_left fun z hz => g.val z (hcons z hz)
        simp [e']
      · rw [show World.copyLoop H i j k l pos last (n + 1) w x a = World.copyLoop H i j k l pos last n w1 ((m ++ v).headD d.hd) (a + 1) by
          rw [World.copyLoop, if_neg hne]; simp [k1, hnx]]
        rcases f with ⟨f1, rfl⟩ | ⟨f1, f2, z, rest, rfl⟩
        · exact Or.inl ⟨f1, rfl⟩
        · exact Or.inr ⟨f1, f2, z, rest, rfl⟩
    | threw w1 c1 ret k1 r1 g un nc =>
      exact ⟨w1, c1, d, [], [], [], .nil ne hj g, .nil, r1, Or.inr ⟨by rw [World.copyLoop, if_neg hne]; simp only [k1], nc, x, m, rfl⟩⟩

theorem spliceRange_copy {S : Spec V} {s t u m v : List Id} {pos : Id} (ok : H.Ok) (ne : i ≠ j) (r : Reach w) (hi : w.cs[i]? = some c) (hj : w.cs[j]? = some d)
    (hS : c.asked[k]? = some S) (hl : S.list) (hk : c.seqs[k]? = some (s ++ t)) (hp : At c.hd pos t) (hm : d.seqs[l]? = some (u ++ m ++ v)) :
    Copies H w i j k c d s t m (World.spliceRange H false i j k l pos w ((m ++ v).headD d.hd) (v.headD d.hd)) := by
  have I := r.inv
  obtain ⟨-, -, -, -, hb, -⟩ := I.seq hj hm
  have hb : m.length < d.budget := by simp only [List.length_append] at hb; omega
  obtain ⟨L, hL, kd, h4⟩ := layer_list hS hl
  cases L with
  | ord => exact nomatch kd
  | hash => exact nomatch kd
  | seq h =>
    rw [show World.spliceRange H false i j k l pos w ((m ++ v).headD d.hd) (v.headD d.hd) =
      World.copyLoop H i j k l pos (v.headD d.hd) d.budget w ((m ++ v).headD d.hd) 0 by simp [World.spliceRange, hi, hj, hL]]
    exact copyLoop_spec ok ne hl 0 r hi hj hS hk hp hm hb rfl
  | rnd a0 =>
    obtain rfl : Spec.rnd = S := h4
    obtain ⟨w1, c1, d1, done, gone, took, a, tk, r1, q⟩ := copyLoop_spec (pos := c.hd) (last := v.headD d.hd) (n := d.budget) (s := s ++ t) (t := []) ok ne hl 0 r hi hj hS
      (by simpa using hk) rfl hm hb rfl
    have hk1 : c1.seqs[k]? = some (s ++ t ++ took) := by simpa using a.inlaid.after
    obtain ⟨w2, c2, g1, g2, g3, g4, g5, g6, g7⟩ := gather_spec (pos := pos) r1 (a.only.post ne) (by rw [a.only.asked]; exact hS) hk1 (by rw [a.only.hd]; exact hp)
    rw [show (s ++ t).length = c.count from (count_seq I hi hk).symm] at g1
    refine ⟨w2, c2, d1, done, gone, took, a.gathered ne g3 g4 g5 g6 g7, tk, g2, ?_⟩
    rcases q with ⟨q1, q2⟩ | ⟨q1, q2, x, rest, q3⟩
    · exact Or.inl ⟨by simp only [World.spliceRange, hi, hj, hL, Bool.false_eq_true, if_false, q1, World.afterAll, g1], q2⟩
    · exact Or.inr ⟨by simp only [World.spliceRange, hi, hj, hL, Bool.false_eq_true, if_false, q1, World.afterAll, g1], q2, x, rest, q3⟩

theorem spliceOne_copy {S : Spec V} {x : Id} {s t : List Id} {pos : Id} (ok : H.Ok) (ne : i ≠ j) (r : Reach w) (hi : w.cs[i]? = some c) (hj : w.cs[j]? = some d) (hx : x ∈ d.elems)
    (hS : c.asked[k]? = some S) (hl : S.list) (hk : c.seqs[k]? = some (s ++ t)) (hp : At c.hd pos t) :
    (∃ w' c' d' y, World.spliceOne H false i j k pos w x = .ok (w', ⟨y, true⟩) ∧ Reach w' ∧ CopiedAt w w' i j k c c' d d' s t [x] [y] ∧
      (∀ y ∈ c.elems, ¬ Clash c.asked (w.m.val x) (w.m.val y))) ∨
    (∃ w' y, World.spliceOne H false i j k pos w x = .ok (w', ⟨y, false⟩) ∧ Reach w' ∧ Unchanged w w' i ∧ SameMemory w w' ∧ y ∈ c.elems ∧ Clash c.asked (w.m.val x) (w.m.val y)) ∨
    (∃ w' ret, World.spliceOne H false i j k pos w x = .threw (w', ret) ∧ Reach w' ∧ Unchanged w w' i ∧ SameMemory w w' ∧ ¬ H.Calm) := by
  have I := r.inv
  have sm : ∀ {w1 : World V} {c1 : Container V} {vs : List V}, InsertedAt w w1 i k c c1 s t vs [] → SameMemory w w1 := fun g =>
    ⟨by simpa using g.alloc, by simpa using g.cons, g.val, g.hs⟩
  cases insertAt_spec (em := false) (n := 0) (v := w.m.val x) ok r hi hS hl hk hp with
  | took w1 x' c1 k1 r1 g hx' hcl =>
    left
    have hj1 : w1.cs[j]? = some d := by rw [g.only.cs, List.getElem?_set_ne ne]; exact hj
    have lg : w1.Legal (.erase j x) := ⟨d, hj1, hx⟩
    obtain ⟨w2, e1, e2, e3, e4⟩ := eff_erase r1.inv lg
    obtain ⟨d2, cp⟩ := CopiedAt.one I r1.inv ne hj hx g hx' (purged_one r1.inv e2 e3 e4)
    exact ⟨w2, c1, d2, x', by simp only [World.spliceOne, hi, Bool.false_eq_true, if_false, k1, if_true, e1], r1.ok lg e1, cp, hcl⟩
  | left w1 y c1 k1 r1 g un hy hcl =>
    right; left
    exact ⟨w1, y, by simp [World.spliceOne, hi, k1], r1, un, sm g, hy, hcl⟩
  | threw w1 c1 ret k1 r1 g un nc =>
    right; right
    exact ⟨w1, ret, by simp [World.spliceOne, hi, k1], r1, un, sm g, nc⟩

end MI.Cont
