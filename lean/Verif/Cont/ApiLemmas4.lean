import Verif.Cont.ApiLemmas3
/-!
Insertion of ranges of values; construction from a range.
-/
set_option linter.unusedVariables false
set_option linter.unusedSimpArgs false
namespace MI.Cont
open MI
variable {V : Type} {w w' : World V} {i j k : Nat} {c c' : Container V} {H : Host V}

theorem where_congr {S : Spec V} {val val' : Id → V} {hint : Option Id} {x : Id} {u v : List Id} (h : ∀ z ∈ x :: (u ++ v), val' z = val z)
    (s : S.Where val hint x u v) : S.Where val' hint x u v := by
  cases S with
  | ord un lt =>
    have hx : val' x = val x := h x (by simp)
    have hu : ∀ a ∈ u, val' a = val a := fun a ha => h a (by simp [ha])
    have hv : ∀ a ∈ v, val' a = val a := fun a ha => h a (by simp [ha])
    obtain ⟨s1, s2, s3, s4⟩ := s
    refine ⟨fun a ha => by rw [hx, hu a ha]; exact s1 a ha, fun a ha => by rw [hx, hv a ha]; exact s2 a ha,
      fun e a ha => by rw [hx, hv a ha]; exact s3 e a ha, fun p e => ?_⟩
    obtain ⟨b, a, k1, k2, k3⟩ := s4 p e
    refine ⟨b, a, k1, k2, ?_⟩
    rcases k3 with k | ⟨k, k'⟩ | ⟨k, k'⟩
    · exact Or.inl k
    · exact Or.inr (Or.inl ⟨k, fun z hz => by rw [hx, hu z hz]; exact k' z hz⟩)
    · exact Or.inr (Or.inr ⟨k, fun z hz => by rw [hx, hv z hz]; exact k' z hz⟩)
  | hash cat eq hf => exact fun a ha => by rw [h x (by simp), h a (by simp [ha])]; exact s a ha
  | seq => exact s
  | rnd => exact s

theorem added_congr {S : Spec V} {val val' : Id → V} {hint : Option Id} {x : Id} {xs ys : List Id} (h : ∀ z ∈ x :: xs, val' z = val z)
    (s : Added val hint x S xs ys) : Added val' hint x S xs ys := by
  obtain ⟨u, v, rfl, h2, h3⟩ := s
  refine ⟨u, v, rfl, same_congr (fun z hz => h z (List.mem_cons_of_mem _ hz)) h2, where_congr (fun z hz => h z ?_) h3⟩
  rcases List.mem_cons.1 hz with rfl | hz
  · exact List.mem_cons_self ..
  · exact List.mem_cons_of_mem _ ((Same.perm h2).mem_iff.1 hz)

/-- What one insertion of a range does. -/
inductive Fedd (H : Host V) (em : Bool) (i t : Nat) (w : World V) (c : Container V) (v : V) (hint : Option Id) : Prop
  | took (w1 : World V) (x : Id) (c1 : Container V) : w.step (insertOp H em i w t v hint) = .ok (w1, ⟨x, true⟩) → Reach w1 → OnlyAt w w1 i c c1 →
      c1.count = c.count + 1 → Each (Added w1.m.val hint x) c.asked c.seqs c1.seqs → w1.m.val x = v → w1.m.alloc = x :: w.m.alloc →
      w1.m.cons = x :: w.m.cons → w1.hs = w.hs → (∀ z ∈ w.m.cons, w1.m.val z = w.m.val z) → (∀ y ∈ c.elems, ¬ Clash c.asked v (w.m.val y)) → Fedd H em i t w c v hint
  | left (w1 : World V) (y : Id) (c1 : Container V) : w.step (insertOp H em i w t v hint) = .ok (w1, ⟨y, false⟩) → Reach w1 → OnlyAt w w1 i c c1 →
      c1.count = c.count → Each (fun S xs ys => S.Same w.m.val xs ys) c.asked c.seqs c1.seqs → SameMemory w w1 → y ∈ c.elems → Clash c.asked v (w.m.val y) → Fedd H em i t w c v hint
  | threw (w1 : World V) (c1 : Container V) (ret : Ret) : w.step (insertOp H em i w t v hint) = .threw (w1, ret) → Reach w1 → OnlyAt w w1 i c c1 →
      c1.count = c.count → Each (fun S xs ys => S.Same w.m.val xs ys) c.asked c.seqs c1.seqs → SameMemory w w1 → ¬ H.Calm → Fedd H em i t w c v hint

theorem trouble_calm {t : Nat} (h : Trouble (H.fault w t) (H.env w t)) : ¬ H.Calm := by
  intro hc
  obtain ⟨a, b, q⟩ := hc w t
  rcases h with h | h | ⟨n, h⟩
  · rw [a] at h; exact nomatch h
  · rw [b] at h; exact nomatch h
  · exact h (q n)

theorem feed_step {em : Bool} {t : Nat} {v : V} {hint : Option Id} (ok : H.Ok) (r : Reach w) (hi : w.cs[i]? = some c) (hh : c.HintOk hint) :
    Fedd H em i t w c v hint := by
  have I := r.inv
  obtain ⟨hf, env⟩ := ok w r t
  have env := env c (List.mem_of_getElem? hi)
  have eff : ∀ o, o = insertOp H em i w t v hint → w.Legal o →
      ((∃ w', w.step o = .ok (w', ⟨H.node w t, true⟩) ∧ Gained w w' i hint (H.node w t) ∧ w'.m.val (H.node w t) = v ∧ w'.m.alloc = H.node w t :: w.m.alloc ∧
        w'.m.cons = H.node w t :: w.m.cons ∧ w'.hs = w.hs ∧ (∀ c, w.cs[i]? = some c → ¬ c.Bans w.m.val [] v)) ∨
      (∃ w' y, w.step o = .ok (w', ⟨y, false⟩) ∧ Unchanged w w' i ∧
        ∀ c, w.cs[i]? = some c → y ∈ c.elems ∧ ∃ S ∈ c.asked, S.unique = true ∧ S.equiv v (w.m.val y) = true) ∨
      (∃ w', w.step o = .threw (w', ⟨0, false⟩) ∧ Unchanged w w' i ∧ Trouble (H.fault w t) (H.env w t))) → Fedd H em i t w c v hint := by
    rintro o rfl l (⟨w1, k1, k2, k3, k4, k5, k6, k7⟩ | ⟨w1, y, k1, k2, k3⟩ | ⟨w1, k1, k2, k3⟩)
    · obtain ⟨q1, c0, c1, o, q2, q3⟩ := k2
      obtain rfl := Option.some.inj (o.pre.symm.trans hi)
      exact .took w1 _ c1 k1 (r.ok l k1) o q2 q3 k3 k4 k5 k6 q1 (fun y hy hc => k7 _ hi (bans_clash.1 ⟨y, hy, hc⟩))
    · obtain ⟨q1, c0, c1, o, q2, q3⟩ := k2
      obtain rfl := Option.some.inj (o.pre.symm.trans hi)
      exact .left w1 y c1 k1 (r.ok l k1) o q2 q3 q1 (k3 _ hi).1 (k3 _ hi).2
    · obtain ⟨q1, c0, c1, o, q2, q3⟩ := k2
      obtain rfl := Option.some.inj (o.pre.symm.trans hi)
      exact .threw w1 c1 _ k1 (r.threw l k1) o q2 q3 q1 (trouble_calm k3)
  cases em with
  | true =>
    have l : w.Legal (.emplace i v (H.node w t) (H.fault w t) hint (H.env w t)) := ⟨c, hi, hf, hh, env⟩
    refine eff _ (by simp [insertOp]) l ?_
    rcases eff_emplace I l with ⟨w1, k1, k2, k3, k4, k5, k6, k7, -⟩ | k | k
    · exact Or.inl ⟨w1, k1, k2, k3, k4, k5, k6, k7⟩
    · exact Or.inr (Or.inl k)
    · exact Or.inr (Or.inr k)
  | false =>
    have l : w.Legal (.insert i v (H.node w t) (H.fault w t) hint (H.env w t)) := ⟨c, hi, hf, hh, env⟩
    refine eff _ (by simp [insertOp]) l ?_
    rcases eff_insert I l with ⟨w1, k1, k2, k3, k4, k5, k6, k7, -⟩ | k | k
    · exact Or.inl ⟨w1, k1, k2, k3, k4, k5, k6, k7⟩
    · exact Or.inr (Or.inl k)
    · exact Or.inr (Or.inr k)

/-- What a sequence of insertions has done: the values `done` have been processed. -/
structure Filled (chained : Bool) (w w' : World V) (i : Nat) (c c' : Container V) (hint : Option Id) (done : List V) (took : List Id) (yss : List (List Id)) : Prop where
  only : OnlyAt w w' i c c'
  count : c'.count = c.count + took.length
  alloc : w'.m.alloc = took.reverse ++ w.m.alloc
  cons : w'.m.cons = took.reverse ++ w.m.cons
  hs : w'.hs = w.hs
  val : ∀ z ∈ w.m.cons, w'.m.val z = w.m.val z
  fed : Fed chained w'.m.val c.asked c.hd hint done c.seqs took yss

theorem elem_seqs (I : Inv w) (hi : w.cs[i]? = some c) {xs : List Id} (h : xs ∈ c.seqs) : ∀ z ∈ xs, z ∈ w.m.cons := by
  obtain ⟨k, hk⟩ := List.mem_iff_getElem?.1 h
  obtain ⟨L, -, -, p, -⟩ := I.seq hi hk
  intro z hz
  exact (I.facts hi).2.2.2.2.1 z (p.mem_iff.1 hz)

theorem Filled.take {chained : Bool} {w1 w2 : World V} {c1 c2 : Container V} {hint hint' : Option Id} {v : V} {x : Id} {done : List V} {took : List Id} {yss : List (List Id)}
    (I : Inv w) (I1 : Inv w1) (o : OnlyAt w w1 i c c1) (hcnt : c1.count = c.count + 1) (ha : Each (Added w1.m.val hint x) c.asked c.seqs c1.seqs) (hx : w1.m.val x = v)
    (hal : w1.m.alloc = x :: w.m.alloc) (hco : w1.m.cons = x :: w.m.cons) (hhs : w1.hs = w.hs) (hval : ∀ z ∈ w.m.cons, w1.m.val z = w.m.val z)
    (hcl : ∀ y ∈ c.elems, ¬ Clash c.asked v (w.m.val y)) (hn : if chained then ∃ q, hint' = some q ∧ After c.hd x c1.elems q else hint' = none)
    (f : Filled chained w1 w2 i c1 c2 hint' done took yss) : Filled chained w w2 i c c2 hint (v :: done) (x :: took) yss := by
  have v2 : ∀ z ∈ w.m.cons, w2.m.val z = w.m.val z := fun z hz => (f.val z (by rw [hco]; exact List.mem_cons_of_mem _ hz)).trans (hval z hz)
  refine ⟨o.trans f.only, by rw [f.count, hcnt, List.length_cons]; omega, by rw [f.alloc, hal]; simp, by rw [f.cons, hco]; simp, f.hs.trans hhs, v2, ?_⟩
  refine Fed.take (hint' := hint') (yss := c1.seqs) ?_ ?_ ?_ hn ?_
  · rw [f.val x (by rw [hco]; simp), hx]
  · intro y hy
    rw [v2 y ((I.facts o.pre).2.2.2.2.1 y hy)]
    exact hcl y hy
  · refine each_congr (fun S hS xs hxs ys a => added_congr (fun z hz => ?_) a) ha
    refine f.val z ?_
    rw [hco]
    rcases List.mem_cons.1 hz with rfl | hz
    · exact List.mem_cons_self ..
    · exact List.mem_cons_of_mem _ (elem_seqs I o.pre hxs z hz)
  · have := f.fed
    rw [o.asked, o.hd] at this
    exact this

theorem Filled.skip {chained : Bool} {w1 w2 : World V} {c1 c2 : Container V} {hint hint' : Option Id} {v : V} {y : Id} {done : List V} {took : List Id} {yss : List (List Id)}
    (I : Inv w) (o : OnlyAt w w1 i c c1) (hcnt : c1.count = c.count) (ha : Each (fun S xs ys => S.Same w.m.val xs ys) c.asked c.seqs c1.seqs) (sm : SameMemory w w1)
    (hy : y ∈ c.elems) (hcl : Clash c.asked v (w.m.val y)) (hn : if chained then ∃ q, hint' = some q ∧ After c.hd y c1.elems q else hint' = none)
    (f : Filled chained w1 w2 i c1 c2 hint' done took yss) : Filled chained w w2 i c c2 hint (v :: done) took yss := by
  have v2 : ∀ z ∈ w.m.cons, w2.m.val z = w.m.val z := fun z hz => (f.val z (by rw [sm.cons]; exact hz)).trans (sm.val z hz)
  refine ⟨o.trans f.only, by rw [f.count, hcnt], by rw [f.alloc, sm.alloc], by rw [f.cons, sm.cons], f.hs.trans sm.hs, v2, ?_⟩
  refine Fed.skip (hint' := hint') (yss := c1.seqs) (y := y) hy ?_ ?_ hn ?_
  · rw [v2 y ((I.facts o.pre).2.2.2.2.1 y hy)]
    exact hcl
  · exact each_congr (fun S hS xs hxs ys a => same_congr (fun z hz => v2 z (elem_seqs I o.pre hxs z hz)) a) ha
  · have := f.fed
    rw [o.asked, o.hd] at this
    exact this

theorem filled_nil {chained : Bool} {hint : Option Id} (hi : w.cs[i]? = some c) : Filled chained w w i c c hint [] [] c.seqs :=
  ⟨⟨hi, (set_same hi).symm, rfl, rfl⟩, rfl, rfl, rfl, rfl, fun _ _ => rfl, .nil⟩

theorem filled_threw {chained : Bool} {hint : Option Id} {w1 : World V} {c1 : Container V} (o : OnlyAt w w1 i c c1) (h : c1.count = c.count) (sm : SameMemory w w1) :
    Filled chained w w1 i c c1 hint [] [] c.seqs :=
  ⟨o, h, sm.alloc, sm.cons, sm.hs, sm.val, .nil⟩

/-- How a sequence of insertions ends. -/
def Ends (H : Host V) (chained : Bool) (w : World V) (i : Nat) (c : Container V) (hint : Option Id) (vs : List V) (o : Out (World V)) : Prop :=
  ∃ w' c' done took yss, Filled chained w w' i c c' hint done took yss ∧ Reach w' ∧
    ((o = .ok w' ∧ done = vs ∧ yss = c'.seqs) ∨
     (o = .threw w' ∧ ¬ H.Calm ∧ (∃ v rest, vs = done ++ v :: rest) ∧ Each (fun S xs ys => S.Same w'.m.val xs ys) c.asked yss c'.seqs))

theorem insertRange_spec {em : Bool} (ok : H.Ok) : ∀ {vs : List V} {w : World V} {c : Container V} (t : Nat), Reach w → w.cs[i]? = some c →
    Ends H false w i c none vs (World.insertRange H em i w vs t)
  | [], w, c, t, r, hi => ⟨w, c, [], [], c.seqs, filled_nil hi, r, Or.inl ⟨rfl, rfl, rfl⟩⟩
  | v :: vs, w, c, t, r, hi => by
    have I := r.inv
    cases feed_step (em := em) (t := t) (v := v) (hint := none) ok r hi (fun p e => nomatch e) with
    | took w1 x c1 k1 r1 o hcnt ha hx hal hco hhs hval hcl =>
      obtain ⟨w2, c2, done, took, yss, f, r2, q⟩ := insertRange_spec (em := em) (vs := vs) ok (t + 1) r1 o.post
      refine ⟨w2, c2, v :: done, x :: took, yss, Filled.take I r1.inv o hcnt ha hx hal hco hhs hval hcl (by simp) f, r2, ?_⟩
      rw [show World.insertRange H em i w (v :: vs) t = World.insertRange H em i w1 vs (t + 1) by simp only [World.insertRange, k1]]
      rcases q with ⟨a, b, d⟩ | ⟨a, b, ⟨z, rest, d⟩, e⟩
      · exact Or.inl ⟨a, by rw [b], d⟩
      · refine Or.inr ⟨a, b, ⟨z, rest, by rw [d]; rfl⟩, by rw [o.asked] at e; exact e⟩
    | left w1 y c1 k1 r1 o hcnt ha sm hy hcl =>
      obtain ⟨w2, c2, done, took, yss, f, r2, q⟩ := insertRange_spec (em := em) (vs := vs) ok (t + 1) r1 o.post
      refine ⟨w2, c2, v :: done, took, yss, Filled.skip I o hcnt ha sm hy hcl (by simp) f, r2, ?_⟩
      rw [show World.insertRange H em i w (v :: vs) t = World.insertRange H em i w1 vs (t + 1) by simp only [World.insertRange, k1]]
      rcases q with ⟨a, b, d⟩ | ⟨a, b, ⟨z, rest, d⟩, e⟩
      · exact Or.inl ⟨a, by rw [b], d⟩
      · refine Or.inr ⟨a, b, ⟨z, rest, by rw [d]; rfl⟩, by rw [o.asked] at e; exact e⟩
    | threw w1 c1 ret k1 r1 o hcnt ha sm nc =>
      refine ⟨w1, c1, [], [], c.seqs, filled_threw o hcnt sm, r1, Or.inr ⟨by simp only [World.insertRange, k1], nc, ⟨v, vs, rfl⟩, ?_⟩⟩
      exact each_congr (fun S hS xs hxs ys a => same_congr (fun z hz => sm.val z (elem_seqs I hi hxs z hz)) a) ha

theorem seqs_head (I : Inv w) (hi : w.cs[i]? = some c) : c.seqs[0]? = some c.elems := by
  have ne := asked_ne' I hi
  unfold Container.elems
  cases hs : c.seqs with
  | nil =>
    unfold Container.seqs at hs
    unfold Container.asked at ne
    rw [List.map_eq_nil_iff] at hs
    rw [hs] at ne
    exact absurd rfl ne
  | cons a l => rfl

theorem next_head {x : Id} (I : Inv w) (hi : w.cs[i]? = some c) (hx : x ∈ c.elems) : ∃ q, w.nextOf i 0 x = some q ∧ After c.hd x c.elems q ∧ q ∈ c.hd :: c.elems := by
  obtain ⟨u, v, e⟩ := List.append_of_mem hx
  have h : c.seqs[0]? = some (u ++ x :: v) := by rw [seqs_head I hi, e]
  refine ⟨_, nextOf_spec I hi h, ⟨u, v, e, rfl⟩, ?_⟩
  cases v with
  | nil => simp
  | cons a v => rw [e]; simp

theorem hintedRange_spec {em : Bool} (ok : H.Ok) : ∀ {vs : List V} {w : World V} {c : Container V} {hint : Id} (t : Nat), Reach w → w.cs[i]? = some c → hint ∈ c.hd :: c.elems →
    Ends H true w i c (some hint) vs (World.hintedRange H em i w vs hint t)
  | [], w, c, hint, t, r, hi, hh => ⟨w, c, [], [], c.seqs, filled_nil hi, r, Or.inl ⟨rfl, rfl, rfl⟩⟩
  | v :: vs, w, c, hint, t, r, hi, hh => by
    have I := r.inv
    cases feed_step (em := em) (t := t) (v := v) (hint := some hint) ok r hi (fun p e => by cases e; exact hh) with
    | took w1 x c1 k1 r1 o hcnt ha hx hal hco hhs hval hcl =>
      obtain ⟨S0, -, e0⟩ := each_head ha (asked_ne' I hi)
      have he1 : c1.elems.Perm (x :: c.elems) := e0.perm
      obtain ⟨q0, n1, n2, n3⟩ := next_head (x := x) r1.inv o.post (he1.mem_iff.2 (by simp))
      obtain ⟨w2, c2, done, took, yss, f, r2, q⟩ := hintedRange_spec (em := em) (vs := vs) ok (t + 1) r1 o.post n3
      refine ⟨w2, c2, v :: done, x :: took, yss, Filled.take I r1.inv o hcnt ha hx hal hco hhs hval hcl ?_ f, r2, ?_⟩
      · rw [if_pos rfl]; exact ⟨q0, rfl, by rw [← o.hd]; exact n2⟩
      rw [show World.hintedRange H em i w (v :: vs) hint t = World.hintedRange H em i w1 vs q0 (t + 1) by simp only [World.hintedRange, k1, n1]]
      rcases q with ⟨a, b, d⟩ | ⟨a, b, ⟨z, rest, d⟩, e⟩
      · exact Or.inl ⟨a, by rw [b], d⟩
      · refine Or.inr ⟨a, b, ⟨z, rest, by rw [d]; rfl⟩, by rw [o.asked] at e; exact e⟩
    | left w1 y c1 k1 r1 o hcnt ha sm hy hcl =>
      obtain ⟨S0, -, e0⟩ := each_head ha (asked_ne' I hi)
      have he1 : c1.elems.Perm c.elems := Same.perm e0
      obtain ⟨q0, n1, n2, n3⟩ := next_head r1.inv o.post (he1.mem_iff.2 hy)
      obtain ⟨w2, c2, done, took, yss, f, r2, q⟩ := hintedRange_spec (em := em) (vs := vs) ok (t + 1) r1 o.post n3
      refine ⟨w2, c2, v :: done, took, yss, Filled.skip I o hcnt ha sm hy hcl ?_ f, r2, ?_⟩
      · rw [if_pos rfl]; exact ⟨q0, rfl, by rw [← o.hd]; exact n2⟩
      rw [show World.hintedRange H em i w (v :: vs) hint t = World.hintedRange H em i w1 vs q0 (t + 1) by simp only [World.hintedRange, k1, n1]]
      rcases q with ⟨a, b, d⟩ | ⟨a, b, ⟨z, rest, d⟩, e⟩
      · exact Or.inl ⟨a, by rw [b], d⟩
      · refine Or.inr ⟨a, b, ⟨z, rest, by rw [d]; rfl⟩, by rw [o.asked] at e; exact e⟩
    | threw w1 c1 ret k1 r1 o hcnt ha sm nc =>
      refine ⟨w1, c1, [], [], c.seqs, filled_threw o hcnt sm, r1, Or.inr ⟨by simp only [World.hintedRange, k1], nc, ⟨v, vs, rfl⟩, ?_⟩⟩
      exact each_congr (fun S hS xs hxs ys a => same_congr (fun z hz => sm.val z (elem_seqs I hi hxs z hz)) a) ha

theorem Keeps.congr {Ss : List (Spec V)} : ∀ {xs ys vs ks : List V}, (∀ x, x ∈ xs ↔ x ∈ ys) → Keeps Ss xs vs ks → Keeps Ss ys vs ks := by
  intro xs ys vs ks h k
  induction k generalizing ys with
  | nil => exact .nil
  | take a _ ih => exact .take (fun y hy => a y ((h y).2 hy)) (ih fun z => by simp [h z])
  | skip a _ ih =>
    obtain ⟨y, hy, hc⟩ := a
    exact .skip ⟨y, (h y).1 hy, hc⟩ (ih h)

/-- Which values are accepted does not depend on hints. -/
theorem Fed.keeps {chained : Bool} {val : Id → V} {Ss : List (Spec V)} {hd : Id} {hint : Option Id} {vs : List V} {xss yss : List (List Id)} {took : List Id}
    (ne : Ss ≠ []) (f : Fed chained val Ss hd hint vs xss took yss) : Keeps Ss ((xss.headD []).map val) vs (took.map val) := by
  induction f with
  | nil => exact .nil
  | take hx hcl ha hn _ ih =>
    subst hx
    obtain ⟨S0, -, e0⟩ := each_head ha ne
    rw [List.map_cons]
    refine .take ?_ (ih.congr fun z => ?_)
    · intro v' hv'
      obtain ⟨y, hy, rfl⟩ := List.mem_map.1 hv'
      exact hcl y hy
    · rw [← List.map_cons]
      exact (e0.perm.map val).mem_iff
  | skip hy hcl ha hn _ ih =>
    obtain ⟨S0, -, e0⟩ := each_head ha ne
    refine .skip ⟨_, List.mem_map_of_mem hy, hcl⟩ (ih.congr fun z => ?_)
    exact ((Same.perm e0).map val).mem_iff

theorem Fed.elems {chained : Bool} {val : Id → V} {Ss : List (Spec V)} {hd : Id} {hint : Option Id} {vs : List V} {xss yss : List (List Id)} {took : List Id}
    (ne : Ss ≠ []) (f : Fed chained val Ss hd hint vs xss took yss) : (yss.headD []).Perm (took ++ xss.headD []) := by
  induction f with
  | nil => exact .refl _
  | take hx hcl ha hn _ ih =>
    obtain ⟨S0, -, e0⟩ := each_head ha ne
    refine ih.trans ((e0.perm.append_left _).trans ?_)
    exact List.perm_middle
  | skip hy hcl ha hn _ ih =>
    obtain ⟨S0, -, e0⟩ := each_head ha ne
    exact ih.trans ((Same.perm e0).append_left _)

theorem init_spec_layer (hd z : Id) (a : Init V) : (a.layer hd z).spec = a.spec := by cases a <;> rfl

/-- The empty container. -/
theorem eff_new {hd z : Id} {is : List (Init V)} (r : Reach w) (l : w.Legal (.new hd z is)) :
    ∃ w' c, w.step (.new hd z is) = .ok (w', ⟨0, true⟩) ∧ Reach w' ∧ w'.cs = w.cs ++ [c] ∧ w'.cs[w.cs.length]? = some c ∧ c.hd = hd ∧ c.count = 0 ∧ c.asked = is.map Init.spec ∧
      c.seqs = is.map (fun _ => []) ∧ w'.m = w.m.allocate hd ∧ w'.hs = w.hs := by
  have hi : (w.cs ++ [Container.new hd z is])[w.cs.length]? = some (Container.new hd z is) := by simp
  have r' : Reach { w with m := w.m.allocate hd, cs := w.cs ++ [Container.new hd z is] } := r.ok l rfl
  have I := r'.inv
  have s := (I.facts hi).2.1
  have he : (Container.new hd z is).elems = [] := List.length_eq_zero_iff.1 s.count.symm
  refine ⟨_, _, rfl, r', rfl, hi, rfl, rfl, ?_, ?_, rfl, rfl⟩
  · unfold Container.asked Container.new
    rw [List.map_map]
    exact List.map_congr_left fun a _ => init_spec_layer hd z a
  · have hl : (Container.new hd z is).seqs.length = is.length := by simp [Container.seqs, Container.new]
    refine List.ext_getElem? fun n => ?_
    rw [List.getElem?_map]
    cases hn : (Container.new hd z is).seqs[n]? with
    | none =>
      rw [List.getElem?_eq_none_iff, hl] at hn
      rw [List.getElem?_eq_none_iff.2 hn]; rfl
    | some xs =>
      obtain ⟨L, -, -, p, -⟩ := I.seq hi hn
      rw [he] at p
      rw [p.eq_nil]
      have := (List.getElem?_eq_some_iff.1 hn).1
      rw [hl] at this
      rw [List.getElem?_eq_getElem this]; rfl

/-- The destructor of an empty container only deallocates its header. -/
theorem destroy_empty (r : Reach w) (hi : w.cs[i]? = some c) (he : c.elems = []) :
    ∃ m', w.m.deallocate c.hd = some m' ∧ m' = { w.m with alloc := w.m.alloc.erase c.hd } ∧ Reach { w with m := m', cs := w.cs.eraseIdx i } := by
  have I := r.inv
  obtain ⟨hc, s, cl, sa, sc, z0, h0⟩ := I.facts hi
  have ha : c.hd ∈ w.m.alloc := I.mem_alloc hc (by simp)
  obtain ⟨m', k1, k2, k3, k4⟩ := deleteAll_spec (m := w.m) s (I.count_le_alloc hc) (I.count_le_cons hc)
  have hm : m' = w.m := by
    rw [he] at k3 k4
    cases m'
    cases hw : w.m
    rw [hw] at k2 k3 k4
    simp only [List.diff_nil] at k2 k3 k4
    subst k2 k3 k4
    rfl
  subst hm
  refine ⟨_, by simp only [Mem.deallocate, ha, if_true], rfl, ?_⟩
  exact r.ok (o := .destroy i) (List.getElem?_eq_some_iff.1 hi).1 (by simp only [World.step, hi, k1, Mem.deallocate, ha, if_true]; try rfl)

/-- Construction from a range. -/
theorem construct_spec {em : Bool} {hd z : Id} {is : List (Init V)} (ok : H.Ok) (r : Reach w) (l : w.Legal (.new hd z is)) (vs : List V) :
    (∃ w' c took, w.construct H em hd z is vs = .ok w' ∧ Reach w' ∧ w'.cs = w.cs ++ [c] ∧ c.hd = hd ∧ c.asked = is.map Init.spec ∧ c.count = took.length ∧
      w'.m.alloc = took.reverse ++ hd :: w.m.alloc ∧ w'.m.cons = took.reverse ++ w.m.cons ∧ w'.hs = w.hs ∧ (∀ x ∈ w.m.cons, w'.m.val x = w.m.val x) ∧
      Fed true w'.m.val (is.map Init.spec) hd (some hd) vs (is.map fun _ => []) took c.seqs) ∨
    (∃ w', w.construct H em hd z is vs = .threw w' ∧ Reach w' ∧ ¬ H.Calm ∧ w'.cs = w.cs ∧ w'.hs = w.hs ∧ w'.m.alloc.Perm w.m.alloc ∧ w'.m.cons.Perm w.m.cons ∧
      ∀ x ∈ w.m.cons, w'.m.val x = w.m.val x) := by
  have I := r.inv
  obtain ⟨w1, c1, k1, r1, k2, k3, k4, k5, k6, k7, k8, k9⟩ := eff_new r l
  obtain ⟨w2, c2, done, took, yss, f, r2, q⟩ := hintedRange_spec (em := em) (vs := vs) ok 0 r1 k3 (hint := hd) (by rw [k4]; simp)
  have hcs : w2.cs = w.cs ++ [c2] := by
    rw [f.only.cs, k2, List.set_append_right _ _ (Nat.le_refl _)]
    simp
  have hv : ∀ x ∈ w.m.cons, w2.m.val x = w.m.val x := fun x hx => by
    rw [f.val x (by rw [k8]; exact hx), k8]; rfl
  rcases q with ⟨a, b, d⟩ | ⟨a, b, -, -⟩
  · subst b d
    refine Or.inl ⟨w2, c2, took, ?_, r2, hcs, f.only.hd.trans k4, f.only.asked.trans k6, by rw [f.count, k5, Nat.zero_add], by rw [f.alloc, k8]; rfl, by rw [f.cons, k8]; rfl, f.hs.trans k9, hv, ?_⟩
    · simp only [World.construct, k1, a]
    · have := f.fed
      rw [k4, k6, k7] at this
      exact this
  · right
    have lc : w2.Legal (.clear w.cs.length) := (List.getElem?_eq_some_iff.1 f.only.post).1
    obtain ⟨w3, c3, c4, e1, o3, ⟨m1, m2, m3, m4⟩, -, e3⟩ := eff_clear r2.inv lc
    obtain rfl := Option.some.inj (o3.pre.symm.trans f.only.post)
    have r3 := r2.ok lc e1
    have he : c4.elems = [] := e3 _ (mem_seqs_of_get (seqs_head r3.inv o3.post))
    obtain ⟨m', g1, g2, g3⟩ := destroy_empty r3 o3.post he
    have hcs3 : w3.cs = w.cs ++ [c4] := by
      rw [o3.cs, hcs, List.set_append_right _ _ (Nat.le_refl _)]
      simp
    have hi2 := f.only.post
    have hpos : ∀ x, x ∈ c3.elems ↔ x ∈ took := by
      intro x
      have I2 := r2.inv
      have q1 := I2.count_cons x
      have q2 := I.count_cons x
      rw [hcs, f.cons] at q1
      rw [f.hs, k9] at q1
      rw [k8] at q1
      simp only [List.flatMap_append, List.flatMap_cons, List.flatMap_nil, List.append_nil, List.count_append, List.count_reverse] at q1
      have : c3.elems.count x = took.count x := by
        have : (w.m.allocate hd).cons.count x = w.m.cons.count x := rfl
        omega
      rw [← List.count_pos_iff, ← List.count_pos_iff, this]
    have nd := r2.inv.nodup
    have ndc := r2.inv.cons_nodup
    rw [f.alloc, k8] at nd
    rw [f.cons, k8] at ndc
    have nd' : (took.reverse ++ hd :: w.m.alloc).Nodup := nd
    have ndc' : (took.reverse ++ w.m.cons).Nodup := ndc
    rw [List.nodup_append] at nd' ndc'
    refine ⟨_, by simp only [World.construct, k1, a, e1, o3.post, g1]; try rfl, g3, b, ?_, ?_, ?_, ?_, ?_⟩
    · show w3.cs.eraseIdx _ = _
      rw [hcs3]
      rw [List.eraseIdx_append_of_length_le (Nat.le_refl _)]; simp
    · exact m4.trans (f.hs.trans k9)
    · have hh : c4.hd = hd := o3.hd.trans (f.only.hd.trans k4)
      refine (List.perm_ext_iff_of_nodup (by rw [g2]; exact r3.inv.nodup.erase _) I.nodup).2 fun x => ?_
      subst g2
      show x ∈ w3.m.alloc.erase c4.hd ↔ _
      rw [r3.inv.nodup.mem_erase_iff, m2, hpos, f.alloc, k8, hh]
      simp only [Mem.allocate, List.mem_append, List.mem_reverse, List.mem_cons]
      constructor
      · rintro ⟨h1, h2 | h2 | h2, h3⟩
        · exact absurd h2 h3
        · exact absurd h2 h1
        · exact h2
      · intro h
        refine ⟨?_, Or.inr (Or.inr h), ?_⟩
        · rintro rfl; exact (List.nodup_cons.1 nd'.2.1).1 h
        · intro h'; exact nd'.2.2 x (by simp [h']) x (by simp [h]) rfl
    · subst g2
      refine (List.perm_ext_iff_of_nodup r3.inv.cons_nodup I.cons_nodup).2 fun x => ?_
      show x ∈ w3.m.cons ↔ _
      rw [m1, hpos, f.cons, k8]
      simp only [Mem.allocate, List.mem_append, List.mem_reverse]
      constructor
      · rintro ⟨h2 | h2, h3⟩
        · exact absurd h2 h3
        · exact h2
      · intro h
        exact ⟨Or.inr h, fun h' => ndc'.2.2 x (by simp [h']) x h rfl⟩
    · intro x hx
      subst g2
      show w3.m.val x = _
      rw [m3]
      exact hv x hx

end MI.Cont
