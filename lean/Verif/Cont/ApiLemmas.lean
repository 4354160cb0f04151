import Verif.Cont.ApiSpec
import Verif.Cont.EffectLemmas2
import Verif.Ord.SearchLemmas
/-!
Erasure through an index.
-/
set_option linter.unusedVariables false
set_option linter.unusedSimpArgs false
namespace MI.Cont
open MI
variable {V : Type} {w w' : World V} {i k : Nat} {c c' : Container V}

theorem Inv.seq (I : Inv w) (hi : w.cs[i]? = some c) {xs : List Id} (h : c.seqs[k]? = some xs) :
    ∃ L, c.ls[k]? = some L ∧ L.Holds w.m.val c.hd xs ∧ xs.Perm c.elems ∧ xs.length + 3 ≤ c.budget ∧ L.spec.Ok := by
  obtain ⟨hc, s, -⟩ := I.facts hi
  unfold Container.seqs at h
  rw [List.getElem?_map] at h
  cases hL : c.ls[k]? with
  | none => rw [hL] at h; exact nomatch h
  | some L =>
    obtain ⟨ys, g1, g2, g3⟩ := fit_get s.fit hL
    rw [hL] at h
    have : c.seqs[k]? = some xs := by unfold Container.seqs; rw [List.getElem?_map, hL]; exact h
    obtain rfl := Option.some.inj (g1.symm.trans this)
    exact ⟨L, rfl, g2, g3, by rw [g3.length_eq, Container.budget, s.count]; omega, okAll_get s.ok hL⟩

theorem Inv.seq_nodup (I : Inv w) (hi : w.cs[i]? = some c) {xs : List Id} (h : c.seqs[k]? = some xs) : (c.hd :: xs).Nodup := by
  obtain ⟨L, -, h2, -⟩ := I.seq hi h
  exact h2.nodup

theorem erase_filter {l : List Id} (nd : l.Nodup) (x : Id) : l.erase x = l.filter (· ∉ [x]) := by
  rw [nd.erase_eq_filter]
  refine List.filter_congr fun z _ => ?_
  by_cases h : z = x <;> simp [h]

theorem filter_split {u m v : List Id} (nd : (u ++ m ++ v).Nodup) : (u ++ m ++ v).filter (· ∉ m) = u ++ v := by
  simp only [List.nodup_append, List.mem_append] at nd
  rw [List.filter_append, List.filter_append]
  rw [List.filter_eq_self.2, List.filter_eq_nil_iff.2, List.filter_eq_self.2]
  · simp
  · intro a ha; simp only [decide_eq_true_eq]; intro h; exact nd.2.2 a (Or.inr h) a ha rfl
  · intro a ha; simp [ha]
  · intro a ha; simp only [decide_eq_true_eq]; intro h; exact nd.1.2.2 a ha a h rfl

theorem mem_seqs_of_get {xs : List Id} (h : c.seqs[k]? = some xs) : xs ∈ c.seqs := List.mem_of_getElem? h

theorem purged_one {x : Id} (I : Inv w) (l : Lost w w' i x) (d : Deleted w w' x) (hv : w'.m.val = w.m.val) : Purged w w' i [x] := by
  obtain ⟨-, c, c', o, h1, h2, h3⟩ := l
  obtain ⟨hc, s, cl, sa, sc, z0, h0⟩ := I.facts o.pre
  refine ⟨⟨c, c', o, by simpa using h1, by simpa using h2, ?_⟩, by simp, ?_, ?_, hv, d.hs⟩
  · rw [h3]
    refine List.map_congr_left fun xs hxs => erase_filter ?_ x
    obtain ⟨k, hk⟩ := List.mem_iff_getElem?.1 hxs
    exact (List.nodup_cons.1 (I.seq_nodup o.pre hk)).2
  · rw [d.alloc]; exact erase_filter I.nodup x
  · rw [d.cons]; exact erase_filter I.cons_nodup x

theorem Purged.elems {m : List Id} (p : Purged w w' i m) (hi : w.cs[i]? = some c) (hi' : w'.cs[i]? = some c') :
    OnlyAt w w' i c c' ∧ (∀ x ∈ m, x ∈ c.elems) ∧ c'.count + m.length = c.count ∧ c'.seqs = c.seqs.map (·.filter (· ∉ m)) ∧ c'.elems = c.elems.filter (· ∉ m) := by
  obtain ⟨d, d', o, h1, h2, h3⟩ := p.cont
  obtain rfl := Option.some.inj (o.pre.symm.trans hi)
  have lt := (List.getElem?_eq_some_iff.1 hi).1
  rw [o.cs, List.getElem?_set_self lt] at hi'
  obtain rfl := Option.some.inj hi'
  refine ⟨o, h1, h2, h3, ?_⟩
  unfold Container.elems
  rw [h3]
  cases d.seqs <;> rfl

theorem OnlyAt.post (o : OnlyAt w w' i c c') : w'.cs[i]? = some c' := by
  have lt := (List.getElem?_eq_some_iff.1 o.pre).1
  rw [o.cs, List.getElem?_set_self lt]

theorem OnlyAt.trans {w'' : World V} {c'' : Container V} (o : OnlyAt w w' i c c') (o' : OnlyAt w' w'' i c' c'') : OnlyAt w w'' i c c'' :=
  ⟨o.pre, by rw [o'.cs, o.cs, List.set_set], o'.asked.trans o.asked, o'.hd.trans o.hd⟩

theorem filter_both {a b l : List Id} : (l.filter (· ∉ a)).filter (· ∉ b) = l.filter (· ∉ a ++ b) := by
  rw [List.filter_filter]
  exact List.filter_congr fun z _ => by by_cases h : z ∈ a <;> by_cases h' : z ∈ b <;> simp [h, h']

theorem Purged.trans {w'' : World V} {a b : List Id} (p : Purged w w' i a) (q : Purged w' w'' i b) : Purged w w'' i (a ++ b) := by
  obtain ⟨c, c', o, h1, h2, h3⟩ := p.cont
  obtain ⟨-, -, -, -, he⟩ := p.elems o.pre o.post
  obtain ⟨d, d', o', k1, k2, k3⟩ := q.cont
  obtain rfl := Option.some.inj (o.post.symm.trans o'.pre)
  have hb : ∀ x ∈ b, x ∈ c.elems ∧ x ∉ a := fun x hx => by
    have := k1 x hx
    rw [he] at this
    simpa using this
  refine ⟨⟨c, d', o.trans o', ?_, ?_, ?_⟩, ?_, ?_, ?_, q.val.trans p.val, q.hs.trans p.hs⟩
  · intro x hx
    rcases List.mem_append.1 hx with h | h
    · exact h1 x h
    · exact (hb x h).1
  · rw [List.length_append]; omega
  · rw [k3, h3, List.map_map]
    exact List.map_congr_left fun xs _ => filter_both
  · rw [List.nodup_append]
    exact ⟨p.nodup, q.nodup, fun x hx y hy => by rintro rfl; exact (hb x hy).2 hx⟩
  · rw [q.alloc, p.alloc, filter_both]
  · rw [q.cons, p.cons, filter_both]

theorem purged_nil (hi : w.cs[i]? = some c) : Purged w w i [] := by
  refine ⟨⟨c, c, ⟨hi, (set_same hi).symm, rfl, rfl⟩, by simp, rfl, ?_⟩, by simp, by simp, by simp, rfl, rfl⟩
  simp

theorem Reach.ok {o : Op V} {r : Ret} (h : Reach w) (l : w.Legal o) (e : w.step o = .ok (w', r)) : Reach w' := .step h l (Or.inl e)
theorem Reach.threw {o : Op V} {r : Ret} (h : Reach w) (l : w.Legal o) (e : w.step o = .threw (w', r)) : Reach w' := .step h l (Or.inr e)

theorem nextOf_spec {x : Id} {u v : List Id} (I : Inv w) (hi : w.cs[i]? = some c) (h : c.seqs[k]? = some (u ++ x :: v)) :
    w.nextOf i k x = some (v.headD c.hd) := by
  obtain ⟨L, hL, h2, h3, h4, -⟩ := I.seq hi h
  simp only [World.nextOf, hi, hL]
  exact Layer.next_spec h2 h4

/-- `erase(position)` through an index. -/
theorem eraseIt_spec {x : Id} {u v : List Id} (r : Reach w) (hi : w.cs[i]? = some c) (h : c.seqs[k]? = some (u ++ x :: v)) :
    ∃ w', w.eraseIt i k x = .ok (w', v.headD c.hd) ∧ Purged w w' i [x] ∧ Reach w' := by
  have I := r.inv
  obtain ⟨L, hL, h2, h3, -⟩ := I.seq hi h
  have l : w.Legal (.erase i x) := ⟨c, hi, h3.mem_iff.1 (by simp)⟩
  obtain ⟨w', k1, k2, k3, k4⟩ := eff_erase I l
  exact ⟨w', by simp only [World.eraseIt, nextOf_spec I hi h, k1], purged_one I k2 k3 k4, r.ok l k1⟩

theorem headD_ne {hd x : Id} {u m v : List Id} (nd : (hd :: (u ++ x :: m ++ v)).Nodup) : x ≠ v.headD hd := by
  cases v with
  | nil => rintro rfl; simp at nd
  | cons y v =>
    rintro rfl
    simp [List.nodup_append] at nd

/-- The loop erasing a range. -/
theorem eraseLoop_spec {u v : List Id} : ∀ {m : List Id} {n : Nat} {w : World V} {c : Container V} (s : Nat), Reach w → w.cs[i]? = some c →
    c.seqs[k]? = some (u ++ m ++ v) → m.length < n →
    ∃ w', World.eraseLoop i k (v.headD c.hd) n w ((m ++ v).headD c.hd) s = .ok (w', v.headD c.hd, s + m.length) ∧ Purged w w' i m ∧ Reach w'
  | [], n + 1, w, c, s, r, hi, h, hn => ⟨w, by simp only [World.eraseLoop, List.nil_append, if_true]; rfl, purged_nil hi, r⟩
  | x :: m, n + 1, w, c, s, r, hi, h, hn => by
    have I := r.inv
    have nd := I.seq_nodup hi h
    have h' : c.seqs[k]? = some (u ++ x :: (m ++ v)) := by rw [h]; simp
    obtain ⟨w1, k1, k2, k3⟩ := eraseIt_spec r hi h'
    obtain ⟨c0, c1, o, -⟩ := k2.cont
    obtain rfl := Option.some.inj (o.pre.symm.trans hi)
    obtain ⟨-, -, -, hs, -⟩ := k2.elems hi o.post
    have h1 : c1.seqs[k]? = some (u ++ m ++ v) := by
      rw [hs, List.getElem?_map, h]
      simp only [Option.map_some, Option.some.injEq]
      have := filter_split (u := u) (m := [x]) (v := m ++ v) (by simpa using (List.nodup_cons.1 nd).2)
      simpa using this
    obtain ⟨w2, k4, k5, k6⟩ := eraseLoop_spec (s + 1) k3 o.post h1 (by simpa using hn)
    refine ⟨w2, ?_, k2.trans k5, k6⟩
    rw [o.hd] at k4
    have hne : ¬ ((x :: m ++ v).headD c0.hd = v.headD c0.hd) := headD_ne nd
    unfold World.eraseLoop
    rw [if_neg hne]
    simp only [List.cons_append, List.headD_cons, k1, k4, List.length_cons]
    rw [Nat.add_assoc, Nat.add_comm 1]

/-- The loop of `pop_back`s. -/
theorem popLoop_spec {u : List Id} : ∀ {n : Nat} {m : List Id} {w : World V} {c : Container V} {s : Rnd.Arr}, Reach w → w.cs[i]? = some c →
    c.ls[k]? = some (.rnd s) → c.seqs[k]? = some (u ++ m) → n = m.length → ∃ w' m', World.popLoop i k n w = .ok w' ∧ m'.Perm m ∧ Purged w w' i m' ∧ Reach w'
  | 0, m, w, c, s, r, hi, hL, h, hn => ⟨w, [], rfl, by simp [List.length_eq_zero_iff.1 hn.symm], purged_nil hi, r⟩
  | n + 1, m, w, c, s, r, hi, hL, h, hn => by
    have I := r.inv
    obtain ⟨m, x, rfl⟩ : ∃ m0 x, m = m0 ++ [x] := by
      rcases List.eq_nil_or_concat m with rfl | ⟨a, b, rfl⟩
      · exact nomatch hn
      · exact ⟨a, b, by simp⟩
    obtain ⟨L, hL', h2, h3, -⟩ := I.seq hi h
    obtain rfl := Option.some.inj (hL.symm.trans hL')
    have nd := I.seq_nodup hi h
    have hx : s.arr (s.size - 1) = x := by
      have h2 : Rnd.Rep s c.hd (u ++ (m ++ [x])) := h2
      have := h2.arr (i := (u ++ m).length) (by simp)
      rw [h2.1]
      simp only [List.length_append, List.length_cons, List.length_nil] at this ⊢
      rw [show u.length + (m.length + (0 + 1)) - 1 = u.length + m.length by omega, this]
      simp [List.getElem_append]
    have h' : c.seqs[k]? = some ((u ++ m) ++ x :: []) := by rw [h]; simp
    obtain ⟨w1, k1, k2, k3⟩ := eraseIt_spec r hi h'
    obtain ⟨c0, c1, o, -⟩ := k2.cont
    obtain rfl := Option.some.inj (o.pre.symm.trans hi)
    obtain ⟨-, -, -, hs, -⟩ := k2.elems hi o.post
    have h1 : c1.seqs[k]? = some (u ++ m) := by
      rw [hs, List.getElem?_map, h]
      simp only [Option.map_some, Option.some.injEq]
      have := filter_split (u := u ++ m) (m := [x]) (v := []) (by simpa using (List.nodup_cons.1 nd).2)
      simpa using this
    obtain ⟨L1, hL1, -⟩ := k3.inv.seq o.post h1
    have : L1.spec = .rnd := by
      have := o.asked
      have e := congrArg (·[k]?) this
      simp only [Container.asked, List.getElem?_map, hL1, hL, Option.map_some, Option.some.injEq] at e
      exact e
    obtain ⟨s1, rfl⟩ : ∃ s1, L1 = .rnd s1 := by cases L1 <;> first | exact ⟨_, rfl⟩ | cases this
    obtain ⟨w2, m', k4, k5, k6, k7⟩ := popLoop_spec (u := u) k3 o.post hL1 h1 (by simpa using hn)
    refine ⟨w2, [x] ++ m', ?_, ?_, k2.trans k6, k7⟩
    · simp only [World.popLoop, hi, hL, hx, k1, k4]
    · exact (List.perm_append_comm.trans (k5.append_right [x]))

theorem Purged.perm {m m' : List Id} (p : Purged w w' i m) (h : m.Perm m') : Purged w w' i m' := by
  have e : ∀ l : List Id, l.filter (· ∉ m) = l.filter (· ∉ m') := fun l => List.filter_congr fun z _ => by simp [h.mem_iff]
  obtain ⟨c, c', o, h1, h2, h3⟩ := p.cont
  exact ⟨⟨c, c', o, fun x hx => h1 x (h.mem_iff.2 hx), by rw [← h.length_eq]; exact h2, by rw [h3]; exact List.map_congr_left fun xs _ => e xs⟩,
    h.nodup_iff.1 p.nodup, by rw [p.alloc, e], by rw [p.cons, e], p.val, p.hs⟩

theorem list_set_filter {xss : List (List Id)} {k : Nat} {xs ys m : List Id} (h : xss[k]? = some xs) (e : ys.filter (· ∉ m) = xs.filter (· ∉ m)) :
    (xss.set k ys).map (·.filter (· ∉ m)) = xss.map (·.filter (· ∉ m)) := by
  rw [List.map_set, e]
  exact set_same (by rw [List.getElem?_map, h]; rfl)

/-- `erase(first,last)`. -/
theorem eraseRange_spec {u m v : List Id} (r : Reach w) (hi : w.cs[i]? = some c) (h : c.seqs[k]? = some (u ++ m ++ v)) :
    ∃ w', w.eraseRange i k ((m ++ v).headD c.hd) (v.headD c.hd) = .ok (w', v.headD c.hd) ∧ Purged w w' i m ∧ Reach w' := by
  have I := r.inv
  obtain ⟨L, hL, h2, h3, h4, -⟩ := I.seq hi h
  have hb : m.length < c.budget := by simp only [List.length_append] at h4; omega
  have nd := I.seq_nodup hi h
  by_cases kd : L.spec = .rnd
  · obtain ⟨s, rfl⟩ : ∃ s1, L = .rnd s1 := by cases L <;> first | exact ⟨_, rfl⟩ | cases kd
    have h2 : Rnd.Rep s c.hd (u ++ m ++ v) := h2
    have hdist : (Rnd.distance s ((m ++ v).headD c.hd) (v.headD c.hd)).toNat = m.length := by
      have a1 := Rnd.Rep.up_hdOr (u := u) (v := m ++ v) (by simpa using h2)
      have a2 := Rnd.Rep.up_hdOr (u := u ++ m) (v := v) h2
      unfold Rnd.distance
      rw [show s.up ((m ++ v).headD c.hd) = u.length from a1.1, show s.up (v.headD c.hd) = (u ++ m).length from a2.1]
      rw [List.length_append]
      omega
    have l : w.Legal (.rearrange i k (.relocateRange c.hd ((m ++ v).headD c.hd) (v.headD c.hd))) :=
      ⟨c, .rnd s, _, hi, hL, rfl, h, u, m, v, u ++ v, [], rfl, by simp, rfl, rfl, rfl⟩
    obtain ⟨w1, c0, c1, S, xs, xs', o, k2, k3, k4, -, k5, k6, -, k7, k8⟩ := eff_rearrange I l
    obtain rfl := Option.some.inj (o.pre.symm.trans hi)
    obtain rfl := Option.some.inj (k5.symm.trans h)
    obtain ⟨s', e1, r1, -⟩ := Rnd.rep_relocateRange h2 (p := u ++ v) (q := []) (by simp)
    have e1' : Rnd.relocateRange s c0.hd ((m ++ v).headD c0.hd) (v.headD c0.hd) = some s' := e1
    have st : w.step (.rearrange i k (.relocateRange c0.hd ((m ++ v).headD c0.hd) (v.headD c0.hd))) =
        .ok ({ w with cs := w.cs.set i { c0 with ls := c0.ls.set k (.rnd s') } }, ⟨0, true⟩) := by
      simp only [World.step, hi, hL, Layer.rearrange, e1']
    have k8' : w.step (.rearrange i k (.relocateRange c0.hd ((m ++ v).headD c0.hd) (v.headD c0.hd))) = .ok (w1, ⟨0, true⟩) := by
      rcases k8 with k | k
      · exact k.1
      · exact k.2.elim
    have rw1 : Reach w1 := r.ok l k8'
    have hw1 : w1.cs = w.cs.set i { c0 with ls := c0.ls.set k (.rnd s') } := by
      rw [st] at k8'
      exact (congrArg (fun p => p.1.cs) (Out.ok.inj k8')).symm
    have hc1 : c1 = { c0 with ls := c0.ls.set k (.rnd s') } := by
      have := o.post
      rw [hw1, List.getElem?_set_self (List.getElem?_eq_some_iff.1 hi).1] at this
      exact (Option.some.inj this).symm
    have hL1 : c1.ls[k]? = some (.rnd s') := by
      rw [hc1]
      exact List.getElem?_set_self (List.getElem?_eq_some_iff.1 hL).1
    have hlk : k < c0.seqs.length := (List.getElem?_eq_some_iff.1 h).1
    have hs1 : c1.seqs[k]? = some xs' := by rw [k6, List.getElem?_set_self hlk]
    obtain ⟨L1, hL1', q2, q3, -⟩ := rw1.inv.seq o.post hs1
    obtain rfl := Option.some.inj (hL1.symm.trans hL1')
    have hxs : xs' = u ++ v ++ m := by
      have q2 : Rnd.Rep s' c1.hd xs' := q2
      rw [o.hd] at q2
      have r1 : Rnd.Rep s' c0.hd (u ++ v ++ m) := by simpa using r1
      exact q2.slots.symm.trans r1.slots
    subst hxs
    obtain ⟨w2, m', p1, p2, p3, p4⟩ := popLoop_spec (u := u ++ v) rw1 o.post hL1 hs1 rfl
    refine ⟨w2, ?_, ?_, p4⟩
    · simp only [World.eraseRange, hi, hL, hdist, k8', p1]
    · have p3 := p3.perm p2
      obtain ⟨d, d', o', t1, t2, t3⟩ := p3.cont
      obtain rfl := Option.some.inj (o.post.symm.trans o'.pre)
      refine ⟨⟨c0, d', o.trans o', fun x hx => k7.mem_iff.1 (t1 x hx), by omega, ?_⟩, p3.nodup, by rw [p3.alloc, k2], by rw [p3.cons, k2], by rw [p3.val, k2], by rw [p3.hs, k3]⟩
      rw [t3, k6]
      refine list_set_filter h ?_
      rw [filter_split (List.nodup_cons.1 nd).2]
      have := filter_split (u := u ++ v) (m := m) (v := []) (by simpa using (List.nodup_cons.1 (rw1.inv.seq_nodup o.post hs1)).2)
      simpa using this
  · obtain ⟨w', k1, k2, k3⟩ := eraseLoop_spec (k := k) (u := u) (v := v) 0 r hi h hb
    refine ⟨w', ?_, k2, k3⟩
    cases L with
    | rnd => exact absurd rfl kd
    | ord => simp only [World.eraseRange, hi, hL, k1]
    | hash => simp only [World.eraseRange, hi, hL, k1]
    | seq => simp only [World.eraseRange, hi, hL, k1]

end MI.Cont
