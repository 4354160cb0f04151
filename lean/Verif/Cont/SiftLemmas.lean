import Verif.Cont.SiftApi
import Verif.Cont.ListLemmas3
/-!
`remove_if` and `unique`.
-/
set_option linter.unusedVariables false
set_option linter.unusedSimpArgs false
namespace MI.Cont
open MI
variable {V : Type} {w w' : World V} {i j k l : Nat} {c c' d d' : Container V} {H : Host V}

theorem sift_kept {ask : Nat → Id → Id → Option Bool} {t : Nat} {l : Id} {xs kept gone : List Id} (h : Sift ask t l xs kept gone) (nd : xs.Nodup) :
    kept = xs.filter (· ∉ gone) := by
  induction h with
  | nil => rfl
  | @keep t l x xs kept gone h s ih =>
    have n1 := List.nodup_cons.1 nd
    have hx : x ∉ gone := fun q => n1.1 (s.perm.mem_iff.1 (by simp [q]))
    rw [List.filter_cons, if_pos (by simpa using hx), ← ih n1.2]
  | @drop t l x xs kept gone h s ih =>
    have n1 := List.nodup_cons.1 nd
    rw [List.filter_cons, if_neg (by simp), ih n1.2]
    refine List.filter_congr fun z hz => ?_
    have : z ≠ x := by rintro rfl; exact n1.1 hz
    simp [this]

theorem sift_congr {ask ask' : Nat → Id → Id → Option Bool} {t : Nat} {l : Id} {xs kept gone : List Id} (h : Sift ask t l xs kept gone) (e : ∀ t l x, ask t l x = ask' t l x) :
    Sift ask' t l xs kept gone := by
  have : ask = ask' := by funext t l x; exact e t l x
  rw [← this]; exact h

theorem sift_gone {p : Id → Bool} {t : Nat} {l : Id} {xs kept gone : List Id} (h : Sift (fun _ _ x => some (p x)) t l xs kept gone) : gone = xs.filter p := by
  induction h with
  | nil => rfl
  | keep h _ ih => rw [List.filter_cons, if_neg (by rw [Option.some.inj h]; exact Bool.false_ne_true), ih]
  | drop h _ ih => rw [List.filter_cons, if_pos (Option.some.inj h), ih]

theorem sift_unique {p : Id → Id → Bool} {t : Nat} {l : Id} {xs kept gone : List Id} (h : Sift (fun _ l x => some (p x l)) t l xs kept gone) : kept = keepUnique p l xs := by
  induction h with
  | nil => rfl
  | keep h _ ih => rw [keepUnique, if_neg (by rw [Option.some.inj h]; exact Bool.false_ne_true), ih]
  | drop h _ ih => rw [keepUnique, if_pos (Option.some.inj h), ih]

theorem sift_gone_filter {ask : Nat → Id → Id → Option Bool} {t : Nat} {l : Id} {xs kept gone : List Id} (h : Sift ask t l xs kept gone) (nd : xs.Nodup) :
    gone = xs.filter (· ∉ kept) := by
  induction h with
  | nil => rfl
  | @drop t l x xs kept gone h s ih =>
    have n1 := List.nodup_cons.1 nd
    have hx : x ∉ kept := fun q => n1.1 (s.perm.mem_iff.1 (by simp [q]))
    rw [List.filter_cons, if_pos (by simpa using hx), ← ih n1.2]
  | @keep t l x xs kept gone h s ih =>
    have n1 := List.nodup_cons.1 nd
    rw [List.filter_cons, if_neg (by simp), ih n1.2]
    refine List.filter_congr fun z hz => ?_
    have : z ≠ x := by rintro rfl; exact n1.1 hz
    simp [this]

theorem seqs_mem {xs ys : List Id} {z : Id} {n : Nat} (I : Inv w) (hi : w.cs[i]? = some c) (h : c.seqs[n]? = some ys) (hk : c.seqs[k]? = some xs) (hz : z ∈ ys) : z ∈ xs := by
  obtain ⟨-, -, -, p, -⟩ := I.seq hi h
  obtain ⟨-, -, -, q, -⟩ := I.seq hi hk
  exact q.mem_iff.2 (p.mem_iff.1 hz)

/-- How the loops of sequenced indices end. -/
def Sifts (ask : Nat → Id → Id → Option Bool) (t : Nat) (l : Id) (xs : List Id) (w : World V) (i : Nat) (o : Out (World V)) : Prop :=
  ∃ w' kept gone, Purged w w' i gone ∧ Reach w' ∧
    ((o = .ok w' ∧ Sift ask t l xs kept gone) ∨ (o = .threw w' ∧ ∃ done, SiftStops ask t l xs done kept gone))

theorem Sifts.nil {ask : Nat → Id → Id → Option Bool} {t : Nat} {l : Id} (r : Reach w) (hi : w.cs[i]? = some c) : Sifts ask t l [] w i (.ok w) :=
  ⟨w, [], [], purged_nil hi, r, Or.inl ⟨rfl, .nil⟩⟩

theorem Sifts.stop {ask : Nat → Id → Id → Option Bool} {t : Nat} {l x : Id} {xs : List Id} (r : Reach w) (hi : w.cs[i]? = some c) (h : ask t l x = none) :
    Sifts ask t l (x :: xs) w i (.threw w) :=
  ⟨w, [], [], purged_nil hi, r, Or.inr ⟨rfl, [], x, xs, rfl, .nil, h⟩⟩

theorem Sifts.keep {ask : Nat → Id → Id → Option Bool} {t : Nat} {l x : Id} {xs : List Id} {o : Out (World V)} (h : ask t l x = some false)
    (s : Sifts ask (t + 1) x xs w i o) : Sifts ask t l (x :: xs) w i o := by
  obtain ⟨w', kept, gone, p, r, ⟨e, q⟩ | ⟨e, dn, q⟩⟩ := s
  · exact ⟨w', x :: kept, gone, p, r, Or.inl ⟨e, .keep h q⟩⟩
  · exact ⟨w', x :: kept, gone, p, r, Or.inr ⟨e, x :: dn, q.keep' h⟩⟩

theorem Sifts.drop {ask : Nat → Id → Id → Option Bool} {t : Nat} {l x : Id} {xs : List Id} {o : Out (World V)} {w1 : World V} (h : ask t l x = some true)
    (p : Purged w w1 i [x]) (s : Sifts ask (t + 1) l xs w1 i o) : Sifts ask t l (x :: xs) w i o := by
  obtain ⟨w', kept, gone, q, r, ⟨e, g⟩ | ⟨e, dn, g⟩⟩ := s
  · exact ⟨w', kept, x :: gone, p.trans q, r, Or.inl ⟨e, .drop h g⟩⟩
  · exact ⟨w', kept, x :: gone, p.trans q, r, Or.inr ⟨e, x :: dn, g.drop' h⟩⟩

theorem removeLoop_spec {pred : Nat → V → Option Bool} : ∀ {xs : List Id} {u : List Id} {n t : Nat} {l : Id} {w : World V} {c : Container V}, Reach w → w.cs[i]? = some c →
    c.seqs[k]? = some (u ++ xs) → xs.length < n →
    Sifts (fun t _ x => pred t (w.m.val x)) t l xs w i (World.removeLoop pred i k c.hd n w (xs.headD c.hd) t)
  | [], u, n + 1, t, l, w, c, r, hi, h, hn => by
    simp only [World.removeLoop, List.headD_nil, if_true]
    exact .nil r hi
  | x :: xs, u, n + 1, t, l, w, c, r, hi, h, hn => by
    have I := r.inv
    have nd := I.seq_nodup hi h
    have hne : ¬ (x :: xs).headD c.hd = c.hd := by
      intro e
      have e : x = c.hd := e
      subst e; simp at nd
    rw [World.removeLoop, if_neg hne]
    simp only [List.headD_cons]
    rcases hp : pred t (w.m.val x) with - | b
    · exact .stop r hi hp
    · cases b with
      | true =>
        obtain ⟨w1, k1, k2, k3⟩ := eraseIt_spec r hi h
        obtain ⟨c0, c1, o, -⟩ := k2.cont
        obtain rfl := Option.some.inj (o.pre.symm.trans hi)
        have h1 : c1.seqs[k]? = some (u ++ xs) := k2.at (m := [x]) I hi o.post (by simpa using h)
        have ih := removeLoop_spec (pred := pred) (t := t + 1) (l := l) k3 o.post h1 (by simpa using hn)
        rw [o.hd, k2.val] at ih
        simp only [k1]
        exact .drop hp k2 ih
      | false =>
        simp only [nextOf_spec I hi h]
        exact .keep hp (removeLoop_spec (u := u ++ [x]) r hi (by simpa using h) (by simpa using hn))

theorem uniqueLoop_spec {pred : Nat → V → V → Option Bool} : ∀ {xs : List Id} {u : List Id} {n t : Nat} {f : Id} {w : World V} {c : Container V}, Reach w → w.cs[i]? = some c →
    c.seqs[k]? = some (u ++ f :: xs) → xs.length < n →
    Sifts (fun t l x => pred t (w.m.val x) (w.m.val l)) t f xs w i (World.uniqueLoop pred i k c.hd n w f t)
  | [], u, n + 1, t, f, w, c, r, hi, h, hn => by
    simp only [World.uniqueLoop, nextOf_spec r.inv hi h, List.headD_nil, if_true]
    exact .nil r hi
  | x :: xs, u, n + 1, t, f, w, c, r, hi, h, hn => by
    have I := r.inv
    have nd := I.seq_nodup hi h
    have hne : ¬ x = c.hd := by rintro rfl; simp at nd
    simp only [World.uniqueLoop, nextOf_spec I hi h, List.headD_cons, if_neg hne]
    rcases hp : pred t (w.m.val x) (w.m.val f) with - | b
    · exact .stop r hi hp
    · cases b with
      | true =>
        obtain ⟨w1, k1, k2, k3⟩ := eraseIt_spec (u := u ++ [f]) (x := x) (v := xs) r hi (by simpa using h)
        obtain ⟨c0, c1, o, -⟩ := k2.cont
        obtain rfl := Option.some.inj (o.pre.symm.trans hi)
        have h1 : c1.seqs[k]? = some (u ++ f :: xs) := by simpa using k2.at (m := [x]) (u := u ++ [f]) (v := xs) I hi o.post (by simpa using h)
        have ih := uniqueLoop_spec (pred := pred) (t := t + 1) k3 o.post h1 (by simpa using hn)
        rw [o.hd, k2.val] at ih
        simp only [k1]
        exact .drop hp k2 ih
      | false => exact .keep hp (uniqueLoop_spec (u := u ++ [f]) r hi (by simpa using h) (by simpa using hn))

/-- The elements at the end are removed, after a rearrangement. -/
theorem popped {u g gone xs : List Id} {w1 : World V} {c1 : Container V} (r1 : Reach w1) (hS : c.asked[k]? = some .rnd) (hk : c.seqs[k]? = some xs)
    (o : OnlyAt w w1 i c c1) (hm : w1.m = w.m) (hh : w1.hs = w.hs) (hc : c1.count = c.count) (hs : c1.seqs = c.seqs.set k (u ++ g)) (hp : c1.elems.Perm c.elems)
    (pg : g.Perm gone) (hu : u = xs.filter (· ∉ gone)) :
    ∃ w2, World.popBacks i k g.length w1 = .ok w2 ∧ Purged w w2 i gone ∧ Reach w2 := by
  have hs1 : c1.seqs[k]? = some (u ++ g) := by rw [hs]; exact set_at (l := 0) hk
  obtain ⟨w2, p1, p2, p3⟩ := popBacks_spec (S := .rnd) trivial r1 o.post (by rw [o.asked]; exact hS) hs1 rfl
  refine ⟨w2, p1, ?_, p3⟩
  have p2 := p2.perm pg
  obtain ⟨d, d', o', t1, t2, t3⟩ := p2.cont
  obtain rfl := Option.some.inj (o.post.symm.trans o'.pre)
  refine ⟨⟨c, d', o.trans o', fun x hx => hp.mem_iff.1 (t1 x hx), by omega, ?_⟩, p2.nodup, by rw [p2.alloc, hm], by rw [p2.cons, hm], by rw [p2.val, hm], by rw [p2.hs, hh]⟩
  rw [t3, hs]
  refine list_set_filter hk ?_
  rw [List.filter_append, hu, List.filter_filter]
  have : g.filter (· ∉ gone) = [] := by
    rw [List.filter_eq_nil_iff]
    intro a ha
    simpa using pg.mem_iff.1 ha
  rw [this, List.append_nil]
  exact List.filter_congr fun z _ => by simp

theorem dist_last {s : Rnd.Arr} {hd : Id} {u g : List Id} (h : Rnd.Rep s hd (u ++ g)) : (Rnd.distance s (s.arr u.length) hd).toNat = g.length := by
  have a1 := Rnd.Rep.up_hdOr (u := u) (v := g) h
  have a2 := Rnd.Rep.up_hdOr (u := u ++ g) (v := []) (by simpa using h)
  have e : s.arr u.length = g.headD hd := a1.2
  unfold Rnd.distance
  rw [e, show s.up (g.headD hd) = u.length from a1.1, show s.up hd = (u ++ g).length from a2.1, List.length_append]
  omega

/-- The array after a rearrangement is the one the rearrangement returns. -/
theorem array_is {s s' : Rnd.Arr} {xs xs' zs : List Id} {w1 : World V} {c1 : Container V} {a : Rearr V} {q : Ret} (r1 : Reach w1) (hi : w.cs[i]? = some c) (hL : c.ls[k]? = some (.rnd s))
    (hk : c.seqs[k]? = some xs) (o : OnlyAt w w1 i c c1) (hs : c1.seqs = c.seqs.set k xs') (e : (Layer.rnd s).rearrange c.budget c.hd w.m.val a = .ok (.rnd s'))
    (st : w.step (.rearrange i k a) = .ok (w1, q)) (rp : Rnd.Rep s' c.hd zs) : xs' = zs := by
  have st' : w.step (.rearrange i k a) = .ok ({ w with cs := w.cs.set i { c with ls := c.ls.set k (.rnd s') } }, ⟨0, true⟩) := by
    simp only [World.step, hi, hL, e]
  have hc1 : c1 = { c with ls := c.ls.set k (.rnd s') } := by
    have q := o.post
    rw [(congrArg (fun p => p.1.cs) (Out.ok.inj (st'.symm.trans st))).symm] at q
    simp only at q
    rw [List.getElem?_set_self (List.getElem?_eq_some_iff.1 hi).1] at q
    exact (Option.some.inj q).symm
  have hL1 : c1.ls[k]? = some (.rnd s') := by
    rw [hc1]
    exact List.getElem?_set_self (List.getElem?_eq_some_iff.1 hL).1
  have hs1 : c1.seqs[k]? = some xs' := by rw [hs]; exact set_at (l := 0) hk
  obtain ⟨L1, hL1', q2, -⟩ := r1.inv.seq o.post hs1
  obtain rfl := Option.some.inj (hL1.symm.trans hL1')
  have q2 : Rnd.Rep s' c1.hd xs' := q2
  exact q2.slots.symm.trans rp.slots

theorem removeIf_spec {S : Spec V} {pred : Nat → V → Option Bool} {xs : List Id} (r : Reach w) (hi : w.cs[i]? = some c) (hS : c.asked[k]? = some S) (hl : S.list)
    (hk : c.seqs[k]? = some xs) :
    (∃ w' kept gone, World.removeIf pred i k w = .ok w' ∧ Sift (fun t _ x => pred t (w.m.val x)) 0 c.hd xs kept gone ∧ Purged w w' i gone ∧ Reach w') ∨
    (∃ w' done kept gone, World.removeIf pred i k w = .threw w' ∧ SiftStops (fun t _ x => pred t (w.m.val x)) 0 c.hd xs done kept gone ∧ Halfway S w w' i k c xs gone ∧ Reach w') := by
  have I := r.inv
  obtain ⟨L, hL, h2, h3, h4, h5⟩ := I.seq' hi hS hk
  obtain ⟨-, -, -, -, hb, -⟩ := I.seq hi hk
  have nd := (List.nodup_cons.1 (I.seq_nodup hi hk)).2
  subst h4
  cases L with
  | ord => exact hl.elim
  | hash => exact hl.elim
  | seq h =>
    have hf : h.next c.hd = xs.headD c.hd := Layer.first_spec h2
    obtain ⟨w', kept, gone, p, r', ⟨e, q⟩ | ⟨e, dn, q⟩⟩ := removeLoop_spec (pred := pred) (u := []) (t := 0) (l := c.hd) (n := c.budget) r hi hk (by omega)
    · exact Or.inl ⟨w', kept, gone, by simp only [World.removeIf, hi, hL, hf, e], q, p, r'⟩
    · exact Or.inr ⟨w', dn, kept, gone, by simp only [World.removeIf, hi, hL, hf, e], q, Or.inl ⟨rfl, p⟩, r'⟩
  | rnd s =>
    have h2 : Rnd.Rep s c.hd xs := h2
    have lg : w.Legal (.rearrange i k (.remove pred)) := ⟨c, .rnd s, xs, hi, hL, rfl, hk, rfl⟩
    obtain ⟨w1, c0, c1, S, ys, xs', o, k2, k3, k4, -, k5, k6, kp, k7, k8⟩ := eff_rearrange I lg
    obtain rfl := Option.some.inj (o.pre.symm.trans hi)
    obtain rfl := Option.some.inj (k5.symm.trans hk)
    rcases k8 with ⟨k8, -⟩ | ⟨k8, dn, kept, gone, si⟩
    · left
      rcases Rnd.removeGo_sift (fun t x => pred t (w.m.val x)) h2 with ⟨s', kept, gone, g, e, si, p, rp⟩ | ⟨s', m, zs, dn, kept, gone, e, si, rp, p⟩
      · have r1 := r.ok lg k8
        obtain rfl := array_is r1 hi hL hk o k6 (by simp only [Layer.rearrange, e]) k8 rp
        obtain ⟨w2, p1, p2, p3⟩ := popped r1 hS hk o k2 k3 k4 k6 k7 p (sift_kept si nd)
        exact ⟨w2, kept, gone, by simp only [World.removeIf, hi, hL, k8, e, World.popFrom, dist_last rp, p1], si, p2, p3⟩
      · simp only [World.step, hi, hL, Layer.rearrange, e] at k8
        exact nomatch k8
    · right
      exact ⟨w1, dn, kept, gone, by simp only [World.removeIf, hi, hL, k8, World.popFrom], si, Or.inr ⟨rfl, c1, xs', o, k2, k3, k4, k6, kp⟩, r.threw lg k8⟩

theorem unique_spec {S : Spec V} {pred : Nat → V → V → Option Bool} {f : Id} {xs : List Id} (r : Reach w) (hi : w.cs[i]? = some c) (hS : c.asked[k]? = some S) (hl : S.list)
    (hk : c.seqs[k]? = some (f :: xs)) {ask : Nat → Id → Id → Option Bool} (h1 : S = .seq → ask = fun t l x => pred t (w.m.val x) (w.m.val l))
    (h2 : S = .rnd → ask = fun t l x => pred t (w.m.val l) (w.m.val x)) :
    (∃ w' kept gone, World.unique pred i k w = .ok w' ∧ Sift ask 0 f xs kept gone ∧ Purged w w' i gone ∧ Reach w') ∨
    (∃ w' done kept gone, World.unique pred i k w = .threw w' ∧ SiftStops ask 0 f xs done kept gone ∧ Halfway S w w' i k c (f :: xs) gone ∧ Reach w') := by
  have I := r.inv
  obtain ⟨L, hL, h3, -, h4, -⟩ := I.seq' hi hS hk
  obtain ⟨-, -, -, -, hb, -⟩ := I.seq hi hk
  have nd := I.seq_nodup hi hk
  subst h4
  cases L with
  | ord => exact hl.elim
  | hash => exact hl.elim
  | seq h =>
    rw [h1 rfl]
    have hf : h.next c.hd = f := Layer.first_spec h3
    have hne : ¬ f = c.hd := by rintro rfl; simp at nd
    have eq : World.unique pred i k w = World.uniqueLoop pred i k c.hd c.budget w f 0 := by simp only [World.unique, hi, hL, hf, if_neg hne]
    rw [eq]
    obtain ⟨w', kept, gone, p, r', ⟨e, q⟩ | ⟨e, dn, q⟩⟩ := uniqueLoop_spec (pred := pred) (u := []) (t := 0) (n := c.budget) r hi hk (by simp only [List.length_cons] at hb; omega)
    · exact Or.inl ⟨w', kept, gone, e, q, p, r'⟩
    · exact Or.inr ⟨w', dn, kept, gone, e, q, Or.inl ⟨rfl, p⟩, r'⟩
  | rnd s =>
    rw [h2 rfl]
    have h3 : Rnd.Rep s c.hd (f :: xs) := h3
    have lg : w.Legal (.rearrange i k (.unique pred)) := ⟨c, .rnd s, f :: xs, hi, hL, rfl, hk, rfl⟩
    obtain ⟨w1, c0, c1, S, ys, xs', o, k2, k3, k4, -, k5, k6, kp, k7, k8⟩ := eff_rearrange I lg
    obtain rfl := Option.some.inj (o.pre.symm.trans hi)
    obtain rfl := Option.some.inj (k5.symm.trans hk)
    rcases k8 with ⟨k8, -⟩ | ⟨k8, f', ys, dn, kept, gone, e, si⟩
    · left
      rcases Rnd.uniqueAll_sift (fun t x y => pred t (w.m.val x) (w.m.val y)) h3 with ⟨e, -⟩ | ⟨f', ys, e0, ⟨s', kept, gone, g, e, si, p, rp⟩ | ⟨s', m, zs, dn, kept, gone, e, si, rp, p⟩⟩
      · exact nomatch e
      · obtain ⟨rfl, rfl⟩ := List.cons.inj e0
        have r1 := r.ok lg k8
        obtain rfl := array_is r1 hi hL hk o k6 (by simp only [Layer.rearrange, e]) k8 rp
        have n2 := List.nodup_cons.1 (List.nodup_cons.1 nd).2
        have hfg : f ∉ gone := fun q => n2.1 (si.perm.mem_iff.1 (by simp [q]))
        obtain ⟨w2, p1, p2, p3⟩ := popped (u := f :: kept) r1 hS hk o k2 k3 k4 k6 k7 p (by
          rw [List.filter_cons, if_pos (by simpa using hfg), ← sift_kept si n2.2])
        have dl := dist_last (u := f :: kept) rp
        rw [List.length_cons] at dl
        exact ⟨w2, kept, gone, by simp only [World.unique, hi, hL, k8, e, World.popFrom, dl, p1], si, p2, p3⟩
      · simp only [World.step, hi, hL, Layer.rearrange, e] at k8
        exact nomatch k8
    · right
      obtain ⟨rfl, rfl⟩ := List.cons.inj e
      exact ⟨w1, dn, kept, gone, by simp only [World.unique, hi, hL, k8, World.popFrom], si, Or.inr ⟨rfl, c1, xs', o, k2, k3, k4, k6, kp⟩, r.threw lg k8⟩

theorem unique_nil {S : Spec V} {pred : Nat → V → V → Option Bool} (r : Reach w) (hi : w.cs[i]? = some c) (hS : c.asked[k]? = some S) (hl : S.list) (hk : c.seqs[k]? = some []) :
    ∃ w', World.unique pred i k w = .ok w' ∧ Purged w w' i [] ∧ Reach w' := by
  have I := r.inv
  obtain ⟨L, hL, h3, -, h4, -⟩ := I.seq' hi hS hk
  subst h4
  cases L with
  | ord => exact hl.elim
  | hash => exact hl.elim
  | seq h =>
    have hf : h.next c.hd = c.hd := Layer.first_spec h3
    exact ⟨w, by simp only [World.unique, hi, hL, if_pos hf], purged_nil hi, r⟩
  | rnd s =>
    have h3 : Rnd.Rep s c.hd [] := h3
    have lg : w.Legal (.rearrange i k (.unique pred)) := ⟨c, .rnd s, [], hi, hL, rfl, hk, rfl⟩
    obtain ⟨w1, c0, c1, S, ys, xs', o, k2, k3, k4, -, k5, k6, kp, k7, k8⟩ := eff_rearrange I lg
    obtain rfl := Option.some.inj (o.pre.symm.trans hi)
    obtain rfl := Option.some.inj (k5.symm.trans hk)
    rcases k8 with ⟨k8, -⟩ | ⟨k8, f', ys, dn, kept, gone, e, si⟩
    · rcases Rnd.uniqueAll_sift (fun t x y => pred t (w.m.val x) (w.m.val y)) h3 with ⟨-, e⟩ | ⟨f', ys, e0, -⟩
      · have r1 := r.ok lg k8
        obtain rfl := array_is r1 hi hL hk o k6 (by simp only [Layer.rearrange, e]) k8 h3
        obtain ⟨w2, p1, p2, p3⟩ := popped (u := []) (g := []) r1 hS hk o k2 k3 k4 k6 k7 (.refl []) rfl
        have dl := dist_last (u := []) (g := []) h3
        rw [List.length_nil] at dl
        exact ⟨w2, by simp only [World.unique, hi, hL, k8, e, World.popFrom, dl]; exact p1, p2, p3⟩
      · exact nomatch e0
    · exact nomatch e

end MI.Cont
