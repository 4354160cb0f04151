import Verif.Cont.TwinStep
/-!
One operation of two programs that look alike (continued): removal, changes of value, transfers.
-/
set_option linter.unusedVariables false
set_option linter.unusedSimpArgs false
namespace MI.Cont
open MI
variable {V : Type} {g : Prop} {φ ψ : Id → Id} {w v w1 v1 : World V} {i j k : Nat} {c d c1 d1 : Container V} {x x' : Id} {r r' : Ret}

/-- An element has been removed: what becomes of its container. -/
theorem lost_cont (A : w.Alike g φ v) (I : Inv w) (J : Inv v) (k1 : ∀ z ∈ w.m.cons, z ≠ x → w1.m.val z = w.m.val z)
    (k2 : ∀ z ∈ v.m.cons, z ≠ φ x → v1.m.val z = v.m.val z) (p : Pair g φ w v i c d) (a : c1.asked = c.asked) (a' : d1.asked = d.asked) (hx : x ∈ c.elems)
    (hc : c1.count + 1 = c.count) (hc' : d1.count + 1 = d.count) (e : c1.seqs = c.seqs.map (·.erase x)) (e' : d1.seqs = d.seqs.map (·.erase (φ x))) :
    c1.Alike g φ w1.m.val v1.m.val d1 := by
  refine alike_of p.like a a' (by have := p.like.count; omega) fun l S xs ys xs1 ys1 h1 h2 h3 h4 h5 h6 => ?_
  obtain ⟨q1, q2, q3, q4, q5⟩ := p.index I J h2 h3
  rw [e, List.getElem?_map, h2] at h4
  rw [e', List.getElem?_map, h3] at h5
  cases h4; cases h5
  have b := h6.erase q3 q4 (q1.mem_iff.2 hx)
  have me : ∀ z ∈ xs.erase x, z ∈ w.m.cons ∧ z ≠ x := fun z hz => ⟨p.cons z (q1.mem_iff.1 (List.mem_of_mem_erase hz)), ((q3.mem_erase_iff).1 hz).1⟩
  exact b.congr (fun _ _ => rfl) (fun z hz => k1 z (me z hz).1 (me z hz).2)
    (fun z hz => k2 _ (A.node z (me z hz).1) fun q => (me z hz).2 (A.inj z (me z hz).1 x (p.cons x hx) q))

theorem lost_like (A : w.Alike g φ v) (I : Inv w) (J : Inv v) (lw : Lost w w1 i x) (lv : Lost v v1 i (φ x))
    (val : ∀ z ∈ w1.m.cons, v1.m.val (φ z) = w1.m.val z) (sub : ∀ z ∈ w1.m.cons, z ∈ w.m.cons) (node : ∀ z ∈ w1.m.cons, φ z ∈ v1.m.cons)
    (hs : v1.hs = w1.hs.map (Option.map φ)) : w1.Alike g φ v1 := by
  obtain ⟨k1, c, c1, o, hx, hc, e⟩ := lw
  obtain ⟨k2, d, d1, o', -, hc', e'⟩ := lv
  have p := A.pair' I J o.pre o'.pre
  refine A.put I o.pre o.cs o'.cs (lost_cont A I J k1 k2 p o.asked o'.asked hx hc hc' e e') (fun _ _ _ => rfl) (fun z hz hn => k1 z hz ?_) (fun z hz hn => k2 _ (A.node z hz) ?_) val node
    (fun y hy z hz q => A.inj y (sub y hy) z (sub z hz) q) hs
  · rintro rfl; exact hn hx
  · intro q
    have := A.inj z hz x (p.cons x hx) q
    subst this
    exact hn hx

theorem deleted_like (A : w.Alike g φ v) (I : Inv w) (J : Inv v) (lw : Lost w w1 i x) (lv : Lost v v1 i (φ x)) (dw : Deleted w w1 x) (dv : Deleted v v1 (φ x)) :
    w1.Alike g φ v1 := by
  have xc : x ∈ w.m.cons := by
    obtain ⟨-, c, c1, o, hx, -⟩ := lw
    exact (I.facts o.pre).2.2.2.2.1 x hx
  have me : ∀ z ∈ w1.m.cons, z ∈ w.m.cons ∧ z ≠ x := fun z hz => by
    rw [dw.cons] at hz
    exact ⟨List.mem_of_mem_erase hz, (I.cons_nodup.mem_erase_iff.1 hz).1⟩
  have ne : ∀ z ∈ w1.m.cons, φ z ≠ φ x := fun z hz q => (me z hz).2 (A.inj z (me z hz).1 x xc q)
  refine lost_like A I J lw lv (fun z hz => ?_) (fun z hz => (me z hz).1) (fun z hz => ?_) ?_
  · rw [lw.1 z (me z hz).1 (me z hz).2, lv.1 _ (A.node z (me z hz).1) (ne z hz)]
    exact A.val z (me z hz).1
  · rw [dv.cons]
    exact (List.mem_erase_of_ne (ne z hz)).2 (A.node z (me z hz).1)
  · rw [dv.hs, dw.hs, A.hs]

theorem twin_erase (A : w.Alike g φ v) (I : Inv w) (J : Inv v) (l : w.Legal (.erase i x)) (l' : v.Legal (.erase i (φ x)))
    (s : w.step (.erase i x) = .ok (w1, r)) (s' : v.step (.erase i (φ x)) = .ok (v1, r')) : Outcome g φ w1 v1 r r' := by
  obtain ⟨w2, q, q1, q2, q3⟩ := eff_erase I l
  obtain ⟨v2, p, p1, p2, p3⟩ := eff_erase J l'
  rw [q] at s; rw [p] at s'
  cases s; cases s'
  have := deleted_like A I J q1 p1 q2 p2
  refine ⟨rfl, fun _ h => ?_, this⟩
  exfalso
  rw [q2.cons] at h
  exact I.nz (I.cons_sub (List.mem_of_mem_erase h))

theorem twin_extract (A : w.Alike g φ v) (I : Inv w) (J : Inv v) (l : w.Legal (.extract i x)) (l' : v.Legal (.extract i (φ x)))
    (s : w.step (.extract i x) = .ok (w1, r)) (s' : v.step (.extract i (φ x)) = .ok (v1, r')) : Outcome g φ w1 v1 r r' := by
  obtain ⟨w2, q, q1, q2, q3⟩ := eff_extract I l
  obtain ⟨v2, p, p1, p2, p3⟩ := eff_extract J l'
  rw [q] at s; rw [p] at s'
  cases s; cases s'
  refine ⟨rfl, fun _ _ => rfl, lost_like A I J q1 p1 ?_ ?_ ?_ ?_⟩
  · rw [q2, p2]; exact A.val
  · rw [q2]; exact fun _ h => h
  · rw [q2, p2]; exact A.node
  · rw [q3, p3, A.hs]; simp

theorem changed_like {a : V} (A : w.Alike g φ v) (I : Inv w) (J : Inv v) (hx : ∀ c, w.cs[i]? = some c → x ∈ c.elems)
    (hk : g → ∀ c, w.cs[i]? = some c → c.HashKept a (w.m.val x)) (cw : Changed w w1 i x a) (cv : Changed v v1 i (φ x) a) : w1.Alike g φ v1 := by
  obtain ⟨-, b1, b2, b3, b4, c, c1, o, hc, e⟩ := cw
  obtain ⟨-, b1', b2', b3', b4', d, d1, o', hc', e'⟩ := cv
  have p := A.pair' I J o.pre o'.pre
  have hx := hx c o.pre
  have xc := p.cons x hx
  have val : ∀ z ∈ w.m.cons, v1.m.val (φ z) = w1.m.val z := fun z hz => by
    by_cases q : z = x
    · rw [q, b3, b3']
    · rw [b4 z q, b4' _ fun h => q (A.inj z hz x xc h)]
      exact A.val z hz
  refine A.put I o.pre o.cs o'.cs ?_ (fun _ _ _ => rfl) (fun z hz hn => b4 z (by rintro rfl; exact hn hx)) (fun z hz hn => b4' _ ?_) ?_ ?_ ?_ ?_
  · refine alike_of p.like o.asked o'.asked (by rw [hc, hc', p.like.count]) fun l S xs ys xs1 ys1 h1 h2 h3 h4 h5 h6 => ?_
    obtain ⟨q1, q2, q3, q4, q5⟩ := p.index I J h2 h3
    refine h6.moved (p.ok S (List.mem_of_getElem? h1)) q3 q4 (q1.mem_iff.2 hx) (fun z hz => val z (p.cons z (q1.mem_iff.1 hz))) b4 b4' (A.val x xc) ?_
      (each_nth e h1 h2 h4) (each_nth e' (by rw [p.like.asked]; exact h1) h3 h5)
    rintro gg n eq hf rfl
    rw [b3]
    exact hk gg c o.pre n eq hf (List.mem_of_getElem? h1)
  · intro q
    have := A.inj z hz x xc q
    subst this
    exact hn hx
  · rw [b1]; exact val
  · rw [b1, b1']; exact A.node
  · rw [b1]; exact A.inj
  · rw [b2, b2']; exact A.hs

theorem identical_like (A : w.Alike g φ v) (I : Inv w) (cw : Identical w w1 i) (cv : Identical v v1 i) : w1.Alike g φ v1 := by
  obtain ⟨m, hs, c, c1, o, hc, e⟩ := cw
  obtain ⟨m', hs', d, d1, o', hc', e'⟩ := cv
  have k := A.cs i c d o.pre o'.pre
  refine A.put I o.pre o.cs o'.cs ⟨by rw [o.asked, o'.asked, k.asked], by rw [hc, hc', k.count], ?_⟩ (fun _ _ _ => rfl) (fun _ _ _ => by rw [m]) (fun _ _ _ => by rw [m']) ?_ ?_ ?_ ?_
  · rw [o.asked, e, e', m, m']; exact k.seqs
  · rw [m, m']; exact A.val
  · rw [m, m']; exact A.node
  · rw [m]; exact A.inj
  · rw [hs, hs']; exact A.hs

theorem twin_replace {a : V} {b b' : Bool} {e e' : Nat → Env} (A : w.Alike g φ v) (I : Inv w) (J : Inv v)
    (hk : g → ∀ c, w.cs[i]? = some c → c.HashKept a (w.m.val x)) (l : w.Legal (.replace i x a b e)) (l' : v.Legal (.replace i (φ x) a b' e'))
    (s : w.step (.replace i x a b e) = .ok (w1, r)) (s' : v.step (.replace i (φ x) a b' e') = .ok (v1, r')) : Outcome g φ w1 v1 r r' := by
  obtain ⟨c, hi, hx⟩ := id l
  obtain ⟨d, p⟩ := A.pair I J hi
  have hx' : ∀ c, w.cs[i]? = some c → x ∈ c.elems := fun c' h => by cases hi.symm.trans h; exact hx
  have bb := p.bans_but A (a := a) hx
  rcases eff_replace I l with ⟨w2, q, q1, q2⟩ | ⟨w2, q, q1, q2⟩ | ⟨w2, q, -⟩ <;> rw [q] at s <;> cases s <;>
    rcases eff_replace J l' with ⟨v2, o, o1, o2⟩ | ⟨v2, o, o1, o2⟩ | ⟨v2, o, -⟩ <;> rw [o] at s' <;> cases s'
  · exact ⟨rfl, fun _ _ => rfl, changed_like A I J hx' hk q1 o1⟩
  · exact absurd (bb.1 (o2 d p.hj)) (q2 c hi)
  · exact absurd (bb.2 (q2 c hi)) (o2 d p.hj)
  · exact ⟨rfl, (fun k => nomatch k), identical_like A I q1 o1⟩

theorem twin_modify {mod : V → V × Bool} {e e' : Nat → Env} (A : w.Alike g φ v) (I : Inv w) (J : Inv v)
    (hk : g → ∀ c, w.cs[i]? = some c → c.HashKept (mod (w.m.val x)).1 (w.m.val x)) (l : w.Legal (.modify i x mod e)) (l' : v.Legal (.modify i (φ x) mod e'))
    (s : w.step (.modify i x mod e) = .ok (w1, r)) (s' : v.step (.modify i (φ x) mod e') = .ok (v1, r')) : Outcome g φ w1 v1 r r' := by
  obtain ⟨c, hi, hx⟩ := id l
  obtain ⟨d, p⟩ := A.pair I J hi
  have hx' : ∀ c, w.cs[i]? = some c → x ∈ c.elems := fun c' h => by cases hi.symm.trans h; exact hx
  have vx : v.m.val (φ x) = w.m.val x := p.val x hx
  have bb := p.bans_but A (a := (mod (w.m.val x)).1) hx
  have E := eff_modify J l'
  rw [vx] at E
  rcases eff_modify I l with ⟨w2, q, q1, q2, -⟩ | ⟨w2, q, q1, q3, q2, -⟩ | ⟨w2, r2, q, -⟩ <;> rw [q] at s <;> cases s <;>
    rcases E with ⟨v2, o, o1, o2, -⟩ | ⟨v2, o, o1, o3, o2, -⟩ | ⟨v2, r3, o, -⟩ <;> rw [o] at s' <;> cases s'
  · exact ⟨rfl, fun _ _ => rfl, changed_like A I J hx' hk q1 o1⟩
  · exact absurd (bb.1 (o2 d p.hj)) (q2 c hi)
  · exact absurd (bb.2 (q2 c hi)) (o2 d p.hj)
  · exact ⟨rfl, (fun k => nomatch k), deleted_like A I J q1 o1 q3 o3⟩

/-- Changes of value that keep the keys of hashed indices. -/
theorem Spec.Alike.revalue {S : Spec V} {xs ys : List Id} {val val' val1 val1' : Id → V} (ok : S.Ok) (h : S.Alike g φ val val' xs ys)
    (h1 : ∀ n eq hf, S = .hash n eq hf → ∀ z ∈ xs, eq (val1 z) (val z) = true) (h2 : ∀ n eq hf, S = .hash n eq hf → ∀ z ∈ ys, eq (val1' z) (val' z) = true) :
    S.Alike g φ val1 val1' xs ys := by
  cases S with
  | hash n eq hf =>
    have eh : EqHash eq hf := ok
    refine ⟨h.1, fun k a => ?_⟩
    have f1 : xs.filter (fun z => eq a (val1 z)) = xs.filter (fun z => eq a (val z)) := List.filter_congr fun z hz =>
      Bool.eq_iff_iff.2 ⟨fun r => eh.trans r (h1 n eq hf rfl z hz), fun r => eh.trans r (eh.symm (h1 n eq hf rfl z hz))⟩
    have f2 : ys.filter (fun z => eq a (val1' z)) = ys.filter (fun z => eq a (val' z)) := List.filter_congr fun z hz =>
      Bool.eq_iff_iff.2 ⟨fun r => eh.trans r (h2 n eq hf rfl z hz), fun r => eh.trans r (eh.symm (h2 n eq hf rfl z hz))⟩
    rw [f1, f2]
    exact h.2 k a
  | ord => exact h
  | seq => exact h
  | rnd => exact h

theorem rolled_like {b : V} (A : w.Alike g φ v) (I : Inv w) (J : Inv v) (p : Pair g φ w v i c d) (hx : x ∈ c.elems) (sk : ∀ S ∈ c.asked, S.SameKey b (w.m.val x))
    (m : w1.m = w.m.assign x b) (m' : v1.m = v.m.assign (φ x) b) (hs : w1.hs = w.hs) (hs' : v1.hs = v.hs) (o : OnlyAt w w1 i c c1) (o' : OnlyAt v v1 i d d1)
    (hc : c1.count = c.count) (hc' : d1.count = d.count) (e : c1.seqs = c.seqs) (e' : d1.seqs = d.seqs) : w1.Alike g φ v1 := by
  have xc := p.cons x hx
  have vx := p.val x hx
  have n1 : ∀ z, z ≠ x → w1.m.val z = w.m.val z := fun z hz => by rw [m]; exact upd_other _ _ hz
  have n2 : ∀ z, z ≠ φ x → v1.m.val z = v.m.val z := fun z hz => by rw [m']; exact upd_other _ _ hz
  have y1 : w1.m.val x = b := by rw [m]; exact upd_same ..
  have y2 : v1.m.val (φ x) = b := by rw [m']; exact upd_same ..
  have cw : w1.m.cons = w.m.cons := by rw [m]; rfl
  have cv : v1.m.cons = v.m.cons := by rw [m']; rfl
  refine A.put I o.pre o.cs o'.cs ?_ (fun _ _ _ => rfl) (fun z hz hn => n1 z (by rintro rfl; exact hn hx)) (fun z hz hn => n2 _ ?_) ?_ ?_ ?_ ?_
  · refine alike_of p.like o.asked o'.asked (by rw [hc, hc', p.like.count]) fun l S xs ys xs1 ys1 h1 h2 h3 h4 h5 h6 => ?_
    rw [e, h2] at h4
    rw [e', h3] at h5
    cases h4; cases h5
    have ok := p.ok S (List.mem_of_getElem? h1)
    refine h6.revalue ok ?_ ?_
    · rintro n eq hf rfl z hz
      by_cases q : z = x
      · rw [q, y1]; exact sk _ (List.mem_of_getElem? h1)
      · rw [n1 z q]; exact EqHash.refl ok _
    · rintro n eq hf rfl z hz
      by_cases q : z = φ x
      · rw [q, y2, vx]; exact sk _ (List.mem_of_getElem? h1)
      · rw [n2 z q]; exact EqHash.refl ok _
  · intro q
    have := A.inj z hz x xc q
    subst this
    exact hn hx
  · intro z hz
    rw [cw] at hz
    by_cases q : z = x
    · rw [q, y1, y2]
    · rw [n1 z q, n2 _ fun h => q (A.inj z hz x xc h)]
      exact A.val z hz
  · rw [cw, cv]; exact A.node
  · rw [cw]; exact A.inj
  · rw [hs, hs']; exact A.hs

theorem twin_modifyRb {mod back : V → V × Bool} {e f e' f' : Nat → Env} (A : w.Alike g φ v) (I : Inv w) (J : Inv v)
    (hk : g → ∀ c, w.cs[i]? = some c → c.HashKept (mod (w.m.val x)).1 (w.m.val x)) (hr : ∀ c, w.cs[i]? = some c → Restores c.asked mod back (w.m.val x))
    (l : w.Legal (.modifyRb i x mod back e f)) (l' : v.Legal (.modifyRb i (φ x) mod back e' f'))
    (s : w.step (.modifyRb i x mod back e f) = .ok (w1, r)) (s' : v.step (.modifyRb i (φ x) mod back e' f') = .ok (v1, r')) : Outcome g φ w1 v1 r r' := by
  obtain ⟨c, hi, hx, -⟩ := id l
  obtain ⟨d, p⟩ := A.pair I J hi
  have hx' : ∀ c, w.cs[i]? = some c → x ∈ c.elems := fun c' h => by cases hi.symm.trans h; exact hx
  have vx : v.m.val (φ x) = w.m.val x := p.val x hx
  have bb := p.bans_but A (a := (mod (w.m.val x)).1) hx
  have E := eff_modifyRb J l'
  rw [vx] at E
  have R := hr c hi
  rcases eff_modifyRb I l with ⟨w2, q, q1, q2, -⟩ | ⟨w2, q, q1, q2, q3, q4, -⟩ | ⟨w2, q, q1, q2, q3, -⟩ | ⟨w2, r2, q, -⟩ <;> rw [q] at s <;> cases s <;>
    rcases E with ⟨v2, o, o1, o2, -⟩ | ⟨v2, o, o1, o2, o3, o4, -⟩ | ⟨v2, o, o1, o2, o3, -⟩ | ⟨v2, r3, o, -⟩ <;> rw [o] at s' <;> cases s'
  · exact ⟨rfl, fun _ _ => rfl, changed_like A I J hx' hk q1 o1⟩
  · exact absurd (bb.1 (o4 d p.hj)) (q2 c hi)
  · exact absurd (bb.1 (o3 d p.hj).1) (q2 c hi)
  · exact absurd (bb.2 (q4 c hi)) (o2 d p.hj)
  · obtain ⟨c', c1, oo, hc, ee⟩ := q3
    obtain ⟨d', d1, oo', hc', ee'⟩ := o3
    cases hi.symm.trans oo.pre
    cases p.hj.symm.trans oo'.pre
    exact ⟨rfl, (fun k => nomatch k), rolled_like A I J p hx R q1 o1 q2 o2 oo oo' hc hc' ee ee'⟩
  · exact absurd (by rw [p.like.asked]; exact R) (o3 d p.hj).2
  · exact absurd R (q3 c hi).2
  · exact absurd R (q3 c hi).2
  · exact absurd R (q3 c hi).2

/-- Containers without elements. -/
theorem empty_alike {val val' : Id → V} (a : d.asked = c.asked) (hc : c.count = 0) (hc' : d.count = 0) (e : ∀ xs ∈ c.seqs, xs = []) (e' : ∀ xs ∈ d.seqs, xs = []) :
    c.Alike g φ val val' d := by
  refine ⟨a, by rw [hc, hc'], each_intro seq_len (by rw [seq_len, a]) fun l S xs ys h1 h2 h3 => ?_⟩
  rw [e xs (List.mem_of_getElem? h2), e' ys (List.mem_of_getElem? h3)]
  cases S with
  | hash => exact ⟨.refl _, fun _ _ => rfl⟩
  | ord => rfl
  | seq => rfl
  | rnd => rfl

theorem emptied_mem {els els' freed freed' : List Id} (A : w.Alike g φ v) (p : Pair g φ w v i c d) (q : Emptied w w1 c.elems freed) (o : Emptied v v1 d.elems freed') :
    (∀ z ∈ w1.m.cons, v1.m.val (φ z) = w1.m.val z) ∧ (∀ z ∈ w1.m.cons, φ z ∈ v1.m.cons) ∧ (∀ y ∈ w1.m.cons, ∀ z ∈ w1.m.cons, φ y = φ z → y = z) ∧
      v1.hs = w1.hs.map (Option.map φ) := by
  obtain ⟨q1, -, q3, q4⟩ := q
  obtain ⟨o1, -, o3, o4⟩ := o
  refine ⟨fun z hz => by rw [q3, o3]; exact A.val z ((q1 z).1 hz).1, fun z hz => (o1 _).2 ⟨A.node z ((q1 z).1 hz).1, fun k => ((q1 z).1 hz).2 (p.mem' A ((q1 z).1 hz).1 k)⟩,
    fun y hy z hz => A.inj y ((q1 y).1 hy).1 z ((q1 z).1 hz).1, by rw [q4, o4, A.hs]⟩

theorem twin_clear (A : w.Alike g φ v) (I : Inv w) (J : Inv v) (l : w.Legal (.clear i)) (l' : v.Legal (.clear i))
    (s : w.step (.clear i) = .ok (w1, r)) (s' : v.step (.clear i) = .ok (v1, r')) : Outcome g φ w1 v1 r r' := by
  obtain ⟨w2, c, c1, q, o, q1, q2, q3⟩ := eff_clear I l
  obtain ⟨v2, d, d1, q', o', q1', q2', q3'⟩ := eff_clear J l'
  rw [q] at s; rw [q'] at s'
  cases s; cases s'
  have p := A.pair' I J o.pre o'.pre
  obtain ⟨h1, h2, h3, h4⟩ := emptied_mem (els := []) (els' := []) A p q1 q1'
  refine ⟨rfl, fun _ h => ?_, ?_⟩
  · exact absurd (I.cons_sub ((q1.1 _).1 h).1) I.nz
  · refine A.put I o.pre o.cs o'.cs (empty_alike (by rw [o.asked, o'.asked, p.like.asked]) q2 q2' q3 q3') (fun _ _ _ => rfl) (fun z _ _ => by rw [q1.2.2.1])
      (fun z _ _ => by rw [q1'.2.2.1]) h1 h2 h3 h4

/-- Containers that have been left alone. -/
theorem stay_alike (A : w.Alike g φ v) (I : Inv w) {l : Nat} (hc : w.cs[l]? = some c) (hd : v.cs[l]? = some d) (a1 : ∀ z ∈ c.elems, ψ z = φ z)
    (a2 : ∀ z ∈ c.elems, w1.m.val z = w.m.val z) (a3 : ∀ z ∈ c.elems, v1.m.val (φ z) = v.m.val (φ z)) : c.Alike g ψ w1.m.val v1.m.val d := by
  have k := A.cs l c d hc hd
  refine alike_of k rfl rfl k.count fun m S xs ys xs1 ys1 h1 h2 h3 h4 h5 h6 => ?_
  rw [h2] at h4
  rw [h3] at h5
  cases h4; cases h5
  have pm := (I.seq hc h2).choose_spec.2.2.1
  exact h6.congr (fun z hz => a1 z (pm.mem_iff.1 hz)) (fun z hz => a2 z (pm.mem_iff.1 hz)) (fun z hz => a3 z (pm.mem_iff.1 hz))

theorem twin_destroy (A : w.Alike g φ v) (I : Inv w) (J : Inv v) (l : w.Legal (.destroy i)) (l' : v.Legal (.destroy i))
    (s : w.step (.destroy i) = .ok (w1, r)) (s' : v.step (.destroy i) = .ok (v1, r')) : Outcome g φ w1 v1 r r' := by
  obtain ⟨w2, c, q, o, o1, q1⟩ := eff_destroy I l
  obtain ⟨v2, d, q', o', o1', q1'⟩ := eff_destroy J l'
  rw [q] at s; rw [q'] at s'
  cases s; cases s'
  have p := A.pair' I J o o'
  obtain ⟨h1, h2, h3, h4⟩ := emptied_mem (els := []) (els' := []) A p q1 q1'
  refine ⟨rfl, fun _ h => ?_, h1, h2, h3, h4, ?_, fun m e f he hf => ?_⟩
  · exact absurd (I.cons_sub ((q1.1 _).1 h).1) I.nz
  · rw [o1, o1', List.length_eraseIdx, List.length_eraseIdx, A.len]
  · rw [o1, List.getElem?_eraseIdx] at he
    rw [o1', List.getElem?_eraseIdx] at hf
    split at he
    · exact stay_alike A I he (by simpa [*] using hf) (fun _ _ => rfl) (fun z _ => by rw [q1.2.2.1]) (fun z _ => by rw [q1'.2.2.1])
    · exact stay_alike A I he (by simpa [*] using hf) (fun _ _ => rfl) (fun z _ => by rw [q1.2.2.1]) (fun z _ => by rw [q1'.2.2.1])

theorem twin_transfer {e e' : Nat → Env} (A : w.Alike g φ v) (I : Inv w) (J : Inv v) (l : w.Legal (.transfer i j x e)) (l' : v.Legal (.transfer i j (φ x) e'))
    (s : w.step (.transfer i j x e) = .ok (w1, r)) (s' : v.step (.transfer i j (φ x) e') = .ok (v1, r')) : Outcome g φ w1 v1 r r' := by
  obtain ⟨ne, c, cj, hi, hj, hx, -⟩ := id l
  obtain ⟨d, p⟩ := A.pair I J hi
  obtain ⟨dj, pj⟩ := A.pair I J hj
  have vx : v.m.val (φ x) = w.m.val x := pj.val x hx
  have bb := p.bans (a := w.m.val x)
  have mb : ∀ {w : World V} {x y : Id}, (∀ c, w.cs[i]? = some c → y ∈ c.elems ∧ ∃ S ∈ c.asked, S.unique = true ∧ S.equiv (w.m.val x) (w.m.val y) = true) →
      ∀ c, w.cs[i]? = some c → c.Bans w.m.val [] (w.m.val x) := fun h c hc => by
    obtain ⟨h1, S, h2, h3, h4⟩ := h c hc
    exact ⟨S, h2, h3, _, h1, by simp, h4⟩
  rcases eff_transfer I l with ⟨w2, q, q1, q2⟩ | ⟨w2, y, q, q1, q2, q3⟩ | ⟨w2, q, -⟩ <;> rw [q] at s <;> cases s <;>
    rcases eff_transfer J l' with ⟨v2, o, o1, o2⟩ | ⟨v2, y', o, o1, o2, o3⟩ | ⟨v2, o, -⟩ <;> rw [o] at s' <;> cases s'
  · refine ⟨rfl, fun _ _ => rfl, ?_⟩
    obtain ⟨m, hs, c', c1, cj', cj1, t1, t2, t3, t4, t5, t6, t7, t8, t9, t10, t11, t12⟩ := q1
    obtain ⟨m', hs', d', d1, dj', dj1, u1, u2, u3, u4, u5, u6, u7, u8, u9, u10, u11, u12⟩ := o1
    cases hi.symm.trans t1; cases hj.symm.trans t2; cases p.hj.symm.trans u1; cases pj.hj.symm.trans u2
    refine ⟨by rw [m, m']; exact A.val, by rw [m, m']; exact A.node, by rw [m]; exact A.inj, by rw [hs, hs']; exact A.hs, by rw [t3, u3]; simpa using A.len, ?_⟩
    intro n e f he hf
    rw [t3] at he
    rw [u3] at hf
    rw [m, m']
    by_cases nj : j = n
    · subst nj
      have b1 : j < (w.cs.set i c1).length := by rw [List.length_set]; exact (List.getElem?_eq_some_iff.1 hj).1
      have b2 : j < (v.cs.set i d1).length := by rw [List.length_set]; exact (List.getElem?_eq_some_iff.1 pj.hj).1
      rw [List.getElem?_set_self b1] at he
      rw [List.getElem?_set_self b2] at hf
      cases he; cases hf
      exact lost_cont (w1 := w) (v1 := v) A I J (fun _ _ _ => rfl) (fun _ _ _ => rfl) pj t6 u6 hx t10 u10 t12 u12
    · rw [List.getElem?_set_ne nj] at he hf
      by_cases ni : i = n
      · subst ni
        rw [List.getElem?_set_self (List.getElem?_eq_some_iff.1 hi).1] at he
        rw [List.getElem?_set_self (List.getElem?_eq_some_iff.1 p.hj).1] at hf
        cases he; cases hf
        exact gained_cont (w1 := ⟨w.m, w.cs.set i c1, w.hs⟩) (v1 := ⟨v.m, v.cs.set i d1, v.hs⟩) (hint := none) (hint' := none) A I J (fun _ _ => rfl) vx
          (fun _ _ _ _ => trivial) (fun _ _ => rfl) (fun _ _ => rfl) ⟨hi, rfl, t4, t5⟩ ⟨p.hj, rfl, u4, u5⟩ t9 u9 t11 u11
      · rw [List.getElem?_set_ne ni] at he hf
        exact A.cs n e f he hf
  · exact absurd (bb.1 (by rw [← vx]; exact mb o3 d p.hj)) (q2 c hi)
  · exact absurd (bb.2 (mb q3 c hi)) (by rw [← vx]; exact o2 d p.hj)
  · exact ⟨rfl, (fun k => nomatch k), unchanged_like A I J (fun _ _ => rfl) q1 o1⟩

end MI.Cont
