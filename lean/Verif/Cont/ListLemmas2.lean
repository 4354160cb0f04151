import Verif.Cont.ListLemmas
/-!
Node handles inserted at a position, `pop_back`, `resize`, `assign`, `splice` with equal allocators.
-/
set_option linter.unusedVariables false
set_option linter.unusedSimpArgs false
namespace MI.Cont
open MI
variable {V : Type} {w w' : World V} {i j k l : Nat} {c c' d d' : Container V} {H : Host V}

theorem insertNhAt_spec {S : Spec V} {x : Id} {h : Nat} {s t : List Id} {pos : Id} (ok : H.Ok) (r : Reach w) (hi : w.cs[i]? = some c) (hh : w.hs[h]? = some (some x))
    (hS : c.asked[k]? = some S) (hl : S.list) (hk : c.seqs[k]? = some (s ++ t)) (hp : At c.hd pos t) :
    (∃ w' c', World.insertNhAt H i k pos w h = .ok (w', ⟨x, true⟩) ∧ Reach w' ∧ OnlyAt w w' i c c' ∧ Inlaid w.m.val k s t [x] c c' ∧ w'.m = w.m ∧ w'.hs = w.hs.set h none ∧
      (∀ y ∈ c.elems, ¬ Clash c.asked (w.m.val x) (w.m.val y))) ∨
    (∃ w' y, World.insertNhAt H i k pos w h = .ok (w', ⟨y, false⟩) ∧ Reach w' ∧ Unchanged w w' i ∧ w'.m = w.m ∧ y ∈ c.elems ∧ Clash c.asked (w.m.val x) (w.m.val y)) ∨
    (∃ w', World.insertNhAt H i k pos w h = .threw (w', ⟨0, false⟩) ∧ Reach w' ∧ Unchanged w w' i ∧ w'.m = w.m ∧ ¬ H.Calm) := by
  have I := r.inv
  have env := envAll_mono (fun z hz => List.mem_cons_of_mem _ hz) ((ok w r 0).2 c (List.mem_of_getElem? hi))
  have lg : w.Legal (.insertNh i h none (H.env w 0)) := ⟨c, hi, (List.getElem?_eq_some_iff.1 hh).1, fun p e => (nomatch e), env⟩
  rcases eff_insertNh I lg hh with ⟨w1, k1, k2, k3, k4, k5⟩ | ⟨w1, y, k1, k2, k3, k4⟩ | ⟨w1, k1, k2, k3, n, k4⟩
  · left
    obtain ⟨q1, c0, c1, o, hcnt, ha⟩ := k2
    obtain rfl := Option.some.inj (o.pre.symm.trans hi)
    have a := inlaid_each (took := [x]) hS hl hk o.asked (each_mono (fun S xs ys e => .add rfl e (.same (same_refl S _ _))) ha) (by simpa using hcnt)
    have hk1 : c1.seqs[k]? = some (s ++ t ++ [x]) := by simpa using a.after
    obtain ⟨w2, c2, q1, q2, q3, q4, q5, q6, q7⟩ := place_step (r.ok lg k1) o.post (by rw [o.asked]; exact hS) hl hk1 (by rw [o.hd]; exact hp)
    rw [o.hd] at q1
    refine ⟨w2, c2, by simp only [World.insertNhAt, hi, k1]; exact q1, q2, o.trans q3, ?_, q4.trans k3, q5.trans k4, fun y hy hc => k5 _ hi (bans_clash.1 ⟨y, hy, hc⟩)⟩
    rw [k3] at a
    exact a.gathered q6 q7
  · right; left
    exact ⟨w1, y, by simp [World.insertNhAt, hi, k1, World.thenPlace], r.ok lg k1, k2, k3, k4 c hi⟩
  · right; right
    exact ⟨w1, by simp [World.insertNhAt, hi, k1, World.thenPlace], r.threw lg k1, k2, k3, fun hc => k4 ((hc w 0).2.2 n)⟩

theorem lastOf_spec {S : Spec V} {u : List Id} {x : Id} (I : Inv w) (hi : w.cs[i]? = some c) (hS : c.asked[k]? = some S) (hl : S.list) (hk : c.seqs[k]? = some (u ++ [x])) :
    w.lastOf i k = some x := by
  obtain ⟨L, hL, h2, -, h4, -⟩ := I.seq' hi hS hk
  subst h4
  cases L with
  | ord => exact hl.elim
  | hash => exact hl.elim
  | seq h =>
    have h2 : Seq.Fam h [(c.hd, u ++ [x])] := h2
    simp only [World.lastOf, hi, hL, Seq.prior_hd h2]
    simp [Seq.lastOr]
  | rnd a =>
    have h2 : Rnd.Rep a c.hd (u ++ [x]) := h2
    have e1 := (h2.2.2 (u.length + 1) c.hd (by simp)).2
    have e2 := (h2.2.2 u.length x (by simp)).1
    simp only [World.lastOf, hi, hL, Rnd.decrement, e1, Nat.add_sub_cancel, e2]

theorem popBack_spec {S : Spec V} {u : List Id} {x : Id} (r : Reach w) (hi : w.cs[i]? = some c) (hS : c.asked[k]? = some S) (hl : S.list) (hk : c.seqs[k]? = some (u ++ [x])) :
    ∃ w', w.popBack i k = .ok w' ∧ Purged w w' i [x] ∧ Reach w' := by
  obtain ⟨w1, k1, k2, k3⟩ := eraseIt_spec r hi hk
  exact ⟨w1, by simp only [World.popBack, lastOf_spec r.inv hi hS hl hk, k1], k2, k3⟩

theorem Purged.at {m u v : List Id} (I : Inv w) (p : Purged w w' i m) (hi : w.cs[i]? = some c) (hi' : w'.cs[i]? = some c') (h : c.seqs[k]? = some (u ++ m ++ v)) :
    c'.seqs[k]? = some (u ++ v) := by
  obtain ⟨-, -, -, e, -⟩ := p.elems hi hi'
  rw [e, List.getElem?_map, h]
  simp only [Option.map_some, Option.some.injEq]
  exact filter_split (List.nodup_cons.1 (I.seq_nodup hi h)).2

theorem popBacks_spec {S : Spec V} {u : List Id} (hl : S.list) : ∀ {n : Nat} {m : List Id} {w : World V} {c : Container V}, Reach w → w.cs[i]? = some c →
    c.asked[k]? = some S → c.seqs[k]? = some (u ++ m) → n = m.length → ∃ w', World.popBacks i k n w = .ok w' ∧ Purged w w' i m ∧ Reach w'
  | 0, m, w, c, r, hi, hS, h, hn => ⟨w, rfl, by rw [List.length_eq_zero_iff.1 hn.symm]; exact purged_nil hi, r⟩
  | n + 1, m, w, c, r, hi, hS, h, hn => by
    obtain ⟨m, x, rfl⟩ : ∃ m0 x, m = m0 ++ [x] := by
      rcases List.eq_nil_or_concat m with rfl | ⟨a, b, rfl⟩
      · exact nomatch hn
      · exact ⟨a, b, by simp⟩
    obtain ⟨w1, k1, k2, k3⟩ := popBack_spec (u := u ++ m) r hi hS hl (by simpa using h)
    obtain ⟨c0, c1, o, -⟩ := k2.cont
    obtain rfl := Option.some.inj (o.pre.symm.trans hi)
    have h1 : c1.seqs[k]? = some (u ++ m) := by simpa using k2.at (u := u ++ m) (v := []) r.inv hi o.post (by simpa using h)
    obtain ⟨w2, k4, k5, k6⟩ := popBacks_spec hl (n := n) (m := m) k3 o.post (by rw [o.asked]; exact hS) h1 (by simpa using hn)
    exact ⟨w2, by simp only [World.popBacks, k1, k4], (k2.trans k5).perm List.perm_append_comm, k6⟩

theorem insertRange_push {em : Bool} : ∀ {vs : List V} {w : World V} {n m : Nat}, World.insertRange H em i w vs n =
    match World.pushEach H em i w vs n m with
    | .ok (w, _) => .ok w
    | .threw (w, _) => .threw w
    | .ub => .ub
    | .hang => .hang
  | [], w, n, m => rfl
  | v :: vs, w, n, m => by
    simp only [World.insertRange, World.pushEach]
    cases w.step (insertOp H em i w n v none) with
    | ok p => exact insertRange_push
    | threw p => rfl
    | ub => rfl
    | hang => rfl

/-- Plain insertion of a range, as a sequenced or random access index sees it. -/
theorem insertRange_at {S : Spec V} {em : Bool} {vs : List V} {xs : List Id} {n : Nat} (ok : H.Ok) (r : Reach w) (hi : w.cs[i]? = some c) (hS : c.asked[k]? = some S) (hl : S.list)
    (hk : c.seqs[k]? = some xs) : EndsAt H w i k c xs [] vs (World.insertRange H em i w vs n) := by
  obtain ⟨w1, c1, done, took, f, r1, q⟩ := pushEach_spec (em := em) (vs := vs) ok hl n 0 r hi hS hk
  refine ⟨w1, c1, done, took, f, r1, ?_⟩
  rw [insertRange_push (m := 0)]
  rcases q with ⟨a, b⟩ | ⟨a, b⟩
  · exact Or.inl ⟨by rw [a], b⟩
  · exact Or.inr ⟨by rw [a], b⟩

theorem resize_grow {S : Spec V} {em : Bool} {v : V} {xs : List Id} {n : Nat} (ok : H.Ok) (r : Reach w) (hi : w.cs[i]? = some c) (hS : c.asked[k]? = some S) (hl : S.list)
    (hk : c.seqs[k]? = some xs) (hn : xs.length < n) : EndsAt H w i k c xs [] (List.replicate (n - xs.length) v) (World.resize H em i k w n v) := by
  have hc := count_seq r.inv hi hk
  rw [show World.resize H em i k w n v = World.insertRange H em i w (List.replicate (n - xs.length) v) 0 by simp only [World.resize, hi, hc, if_pos hn]]
  exact insertRange_at ok r hi hS hl hk

theorem resize_shrink {S : Spec V} {em : Bool} {v : V} {u m : List Id} (r : Reach w) (hi : w.cs[i]? = some c) (hS : c.asked[k]? = some S) (hl : S.list)
    (hk : c.seqs[k]? = some (u ++ m)) : ∃ w', World.resize H em i k w u.length v = .ok w' ∧ Purged w w' i m ∧ Reach w' := by
  have hc := count_seq r.inv hi hk
  rw [List.length_append] at hc
  cases m with
  | nil => exact ⟨w, by simp [World.resize, hi, hc], purged_nil hi, r⟩
  | cons x m =>
    have n1 : ¬ c.count < u.length := by omega
    have n2 : u.length < c.count := by rw [hc, List.length_cons]; omega
    have n3 : c.count - u.length = (x :: m).length := by omega
    obtain ⟨L, hL, h2, -, h4, -⟩ := r.inv.seq' hi hS hk
    subst h4
    cases L with
    | ord => exact hl.elim
    | hash => exact hl.elim
    | seq h =>
      obtain ⟨w1, k1, k2, k3⟩ := popBacks_spec hl r hi hS hk rfl
      exact ⟨w1, by simp only [World.resize, hi, if_neg n1, if_pos n2, hL, n3, k1], k2, k3⟩
    | rnd a =>
      have h2 : Rnd.Rep a c.hd (u ++ x :: m) := h2
      have e := (h2.2.2 u.length x (by simp)).1
      obtain ⟨w1, k1, k2, k3⟩ := eraseRange_spec (u := u) (m := x :: m) (v := []) r hi (by simpa using hk)
      have k1 : w.eraseRange i k (a.arr u.length) c.hd = .ok (w1, c.hd) := by rw [e]; exact k1
      exact ⟨w1, by simp only [World.resize, hi, if_neg n1, if_pos n2, hL, k1], k2, k3⟩

/-- `assign`: all elements are destroyed, and the values inserted in the empty container. -/
theorem assign_spec {S : Spec V} {em : Bool} {vs : List V} (ok : H.Ok) (r : Reach w) (hi : w.cs[i]? = some c) (hS : c.asked[k]? = some S) (hl : S.list) :
    ∃ w1 c1, OnlyAt w w1 i c c1 ∧ Emptied w w1 c.elems c.elems ∧ c1.count = 0 ∧ (∀ xs ∈ c1.seqs, xs = []) ∧ Reach w1 ∧
      EndsAt H w1 i k c1 [] [] vs (World.assignRange H em i w vs) := by
  have lg : w.Legal (.clear i) := (List.getElem?_eq_some_iff.1 hi).1
  obtain ⟨w1, c0, c1, k1, o, k2, k3, k4⟩ := eff_clear r.inv lg
  obtain rfl := Option.some.inj (o.pre.symm.trans hi)
  have hS1 : c1.asked[k]? = some S := by rw [o.asked]; exact hS
  obtain ⟨ys, hy⟩ := seq_get hS1
  have := k4 ys (List.mem_of_getElem? hy)
  subst this
  refine ⟨w1, c1, o, k2, k3, k4, r.ok lg k1, ?_⟩
  rw [show World.assignRange H em i w vs = World.insertRange H em i w1 vs 0 by simp only [World.assignRange, k1]]
  exact insertRange_at ok (r.ok lg k1) o.post hS1 hl hy

/-! ## `splice`, equal allocators -/

theorem OnlyAt2.post (o : OnlyAt2 w w' i j c c' d d') (ne : i ≠ j) : w'.cs[i]? = some c' := by
  rw [o.cs, List.getElem?_set_ne ne.symm, List.getElem?_set_self (List.getElem?_eq_some_iff.1 o.pre).1]

theorem OnlyAt2.post2 (o : OnlyAt2 w w' i j c c' d d') : w'.cs[j]? = some d' := by
  rw [o.cs, List.getElem?_set_self]
  rw [List.length_set]; exact (List.getElem?_eq_some_iff.1 o.pre2).1

theorem OnlyAt2.then {w1 : World V} {c1 : Container V} (o : OnlyAt2 w w1 i j c c1 d d') (ne : i ≠ j) (o' : OnlyAt w1 w' i c1 c') : OnlyAt2 w w' i j c c' d d' :=
  ⟨o.pre, o.pre2, by rw [o'.cs, o.cs, List.set_comm _ _ ne.symm, List.set_set], o'.asked.trans o.asked, o'.hd.trans o.hd, o.asked2, o.hd2⟩

theorem spliceOne_spec {S : Spec V} {x : Id} {s t : List Id} {pos : Id} (ok : H.Ok) (ne : i ≠ j) (r : Reach w) (hi : w.cs[i]? = some c) (hj : w.cs[j]? = some d) (hx : x ∈ d.elems)
    (hS : c.asked[k]? = some S) (hl : S.list) (hk : c.seqs[k]? = some (s ++ t)) (hp : At c.hd pos t) :
    (∃ w' c' d', World.spliceOne H true i j k pos w x = .ok (w', ⟨x, true⟩) ∧ Reach w' ∧ SplicedAt w w' i j k c c' d d' s t [x] ∧
      (∀ y ∈ c.elems, ¬ Clash c.asked (w.m.val x) (w.m.val y))) ∨
    (∃ w' y, World.spliceOne H true i j k pos w x = .ok (w', ⟨y, false⟩) ∧ Reach w' ∧ Unchanged w w' i ∧ w'.m = w.m ∧ y ∈ c.elems ∧ Clash c.asked (w.m.val x) (w.m.val y)) ∨
    (∃ w', World.spliceOne H true i j k pos w x = .threw (w', ⟨0, false⟩) ∧ Reach w' ∧ Unchanged w w' i ∧ w'.m = w.m ∧ ¬ H.Calm) := by
  have I := r.inv
  have lg := hostLegal (t := 0) ok r ne hi hj hx
  rcases eff_transfer I lg with ⟨w1, k1, k2, k3⟩ | ⟨w1, y, k1, k2, k3, k4⟩ | ⟨w1, k1, k2, k3, n, k4⟩
  · left
    obtain ⟨hm, hh, c0, c1, d0, d1, q1, q2, q3, q4, q5, q6, q7, q8, q9, q10, q11, q12⟩ := k2
    obtain rfl := Option.some.inj (q1.symm.trans hi)
    obtain rfl := Option.some.inj (q2.symm.trans hj)
    have o : OnlyAt2 w w1 i j c0 c1 d0 d1 := ⟨hi, hj, q3, q4, q5, q6, q7⟩
    have a := inlaid_each (took := [x]) hS hl hk q4 (each_mono (fun S xs ys e => .add rfl e (.same (same_refl S _ _))) q11) (by simpa using q9)
    have hk1 : c1.seqs[k]? = some (s ++ t ++ [x]) := by simpa using a.after
    obtain ⟨w2, c2, g1, g2, g3, g4, g5, g6, g7⟩ := place_step (r.ok lg k1) (o.post ne) (by rw [q4]; exact hS) hl hk1 (by rw [q5]; exact hp)
    rw [q5] at g1
    refine ⟨w2, c2, d1, by simp only [World.spliceOne, hi, if_true, k1]; exact g1, g2, ⟨o.then ne g3, a.gathered g6 g7, by simp, by simpa using hx, by simpa using q10, ?_, g4.trans hm, g5.trans hh⟩,
      fun y hy hc => k3 _ hi (bans_clash.1 ⟨y, hy, hc⟩)⟩
    rw [q12]
    refine List.map_congr_left fun xs hxs => erase_filter ?_ x
    obtain ⟨n, hn⟩ := List.mem_iff_getElem?.1 hxs
    exact (List.nodup_cons.1 (I.seq_nodup hj hn)).2
  · right; left
    exact ⟨w1, y, by simp [World.spliceOne, hi, k1, World.thenPlace], r.ok lg k1, k2, k3, k4 c hi⟩
  · right; right
    exact ⟨w1, by simp [World.spliceOne, hi, k1, World.thenPlace], r.threw lg k1, k2, k3, fun hc => k4 ((hc w 0).2.2 n)⟩

theorem Shifted.inlaid {S : Spec V} {xs took : List Id} (hS : c.asked[k]? = some S) (hl : S.list) (hi : w.cs[i]? = some c) (hj : w.cs[j]? = some d) (hk : c.seqs[k]? = some xs)
    (h : Shifted w w' i j took) : ∃ c' d', SplicedAt w w' i j k c c' d d' xs [] took := by
  obtain ⟨p1, p2, c0, c1, d0, d1, g1, g2, g3, g4, g5, g6, g7, g8, g9, g10, g11, g12, g13⟩ := h
  obtain rfl := Option.some.inj (g1.symm.trans hi)
  obtain rfl := Option.some.inj (g2.symm.trans hj)
  exact ⟨c1, d1, ⟨hi, hj, g3, g4, g5, g6, g7⟩, inlaid_each hS hl hk g4 g12 g10, g8, g9, g11, g13, p1, p2⟩

/-- The elements transferred, which are at the end of index `k`, are put in their place. -/
theorem SplicedAt.gathered {w1 w2 : World V} {c1 c2 : Container V} {s t took : List Id} (ne : i ≠ j) (p : SplicedAt w w1 i j k c c1 d d' (s ++ t) [] took)
    (o : OnlyAt w1 w2 i c1 c2) (hm : w2.m = w1.m) (hh : w2.hs = w1.hs) (hc : c2.count = c1.count) (hs : c2.seqs = c1.seqs.set k (s ++ took ++ t)) :
    SplicedAt w w2 i j k c c2 d d' s t took :=
  ⟨p.only.then ne o, p.inlaid.gathered hc hs, p.nodup, p.mem, p.count, p.left, hm.trans p.mm, hh.trans p.hs⟩

theorem SplicedAt.end {s took : List Id} (p : SplicedAt w w' i j k c c' d d' s [] took) {t : List Id} (h : t = []) : SplicedAt w w' i j k c c' d d' s t took := by
  subst h; exact p

/-- How `splice` of a range ends. -/
def Splices (H : Host V) (w : World V) (i j k : Nat) (c d : Container V) (s t m : List Id) (o : Out (World V)) : Prop :=
  ∃ w' c' d' done took, SplicedAt w w' i j k c c' d d' s t took ∧ Takes c.asked w.m.val c.elems done took ∧ Reach w' ∧
    ((o = .ok w' ∧ done = m) ∨ (o = .threw w' ∧ ¬ H.Calm ∧ ∃ x rest, m = done ++ x :: rest))

theorem spliceRange_spec {S : Spec V} {s t u m v : List Id} {pos : Id} (ok : H.Ok) (ne : i ≠ j) (r : Reach w) (hi : w.cs[i]? = some c) (hj : w.cs[j]? = some d)
    (hS : c.asked[k]? = some S) (hl : S.list) (hk : c.seqs[k]? = some (s ++ t)) (hp : At c.hd pos t) (hm : d.seqs[l]? = some (u ++ m ++ v))
    (hx : S = .rnd ∨ t = [] ∨ H.Calm) :
    Splices H w i j k c d s t m (World.spliceRange H true i j k l pos w ((m ++ v).headD d.hd) (v.headD d.hd)) := by
  have I := r.inv
  obtain ⟨-, -, -, -, hb, -⟩ := I.seq hj hm
  obtain ⟨w1, done, took, tk, sh, r1, q⟩ := transferLoop_spec (k := l) (last := v.headD d.hd) (u := u) (m := m) (v := v) (n := d.budget) ok ne 0 r hi hj hm
    (by simp only [List.length_append] at hb; omega) rfl
  obtain ⟨c1, d1, a⟩ := sh.inlaid hS hl hi hj hk
  have hk1 : c1.seqs[k]? = some (s ++ t ++ took) := by simpa using a.inlaid.after
  have hS1 : c1.asked[k]? = some S := by rw [a.only.asked]; exact hS
  obtain ⟨L, hL, kd, h4⟩ := layer_list hS hl
  cases L with
  | ord => exact nomatch kd
  | hash => exact nomatch kd
  | seq h =>
    obtain rfl : Spec.seq = S := h4
    obtain ⟨L', hL', h2, -⟩ := I.seq' hi hS hk
    obtain rfl := Option.some.inj (hL.symm.trans hL')
    have h2 : Seq.Fam h [(c.hd, s ++ t)] := h2
    cases t with
    | nil =>
      have hp : pos = c.hd := hp
      rw [show World.spliceRange H true i j k l pos w ((m ++ v).headD d.hd) (v.headD d.hd) =
        World.transferLoop H i j l (v.headD d.hd) d.budget w ((m ++ v).headD d.hd) 0 by simp only [World.spliceRange, hi, hj, hL, if_true, if_pos hp]]
      refine ⟨w1, c1, d1, done, took, by simpa using a, tk, r1, ?_⟩
      rcases q with q | ⟨q1, q2, x, rest, q3, -⟩
      · exact Or.inl q
      · exact Or.inr ⟨q1, q2, x, rest, q3⟩
    | cons p t =>
      have hp : pos = p := hp
      subst hp
      have nd := I.seq_nodup hi hk
      have nh : pos ≠ c.hd := by rintro rfl; simp at nd
      have hx : H.Calm := by rcases hx with h | h | h; exact nomatch h; exact nomatch h; exact h
      rcases q with ⟨q1, q2⟩ | ⟨-, q2, -⟩
      swap; exact absurd hx q2
      obtain ⟨f, y, hf⟩ : ∃ f y, s ++ pos :: t = f ++ [y] := by
        rcases List.eq_nil_or_concat (s ++ pos :: t) with e | ⟨f, y, e⟩
        · simp at e
        · exact ⟨f, y, by simpa using e⟩
      have hy : h.prior c.hd = y := by rw [Seq.prior_hd h2, hf]; simp [Seq.lastOr]
      have hn := nextOf_spec (x := y) (u := f) (v := took) r1.inv (a.only.post ne) (by rw [hk1, hf]; simp)
      rw [a.only.hd] at hn
      obtain ⟨w2, c2, g1, g2, g3, g4, g5, g6, g7⟩ := range_step (s := s) (t := pos :: t) (u := s ++ pos :: t) (blk := took) (v := []) r1 (a.only.post ne) hS1 hl (by simpa using hk1) (by simp)
      have g1 : w1.step (.rearrange i k (.relocateRange pos (took.headD c.hd) c.hd)) = .ok (w2, ⟨0, true⟩) := by
        rw [a.only.hd] at g1; simpa using g1
      refine ⟨w2, c2, d1, done, took, a.gathered ne g3 g4 g5 g6 g7, tk, g2, Or.inl ⟨?_, q2⟩⟩
      simp only [World.spliceRange, hi, hj, hL, if_true, if_neg nh, q1, World.relinked, World.relinkTail, hy, hn, g1]
  | rnd a0 =>
    obtain rfl : Spec.rnd = S := h4
    obtain ⟨w2, c2, g1, g2, g3, g4, g5, g6, g7⟩ := gather_spec (pos := pos) r1 (a.only.post ne) hS1 hk1 (by rw [a.only.hd]; exact hp)
    rw [show (s ++ t).length = c.count from (count_seq I hi hk).symm] at g1
    refine ⟨w2, c2, d1, done, took, a.gathered ne g3 g4 g5 g6 g7, tk, g2, ?_⟩
    rcases q with ⟨q1, q2⟩ | ⟨q1, q2, x, rest, q3, -⟩
    · exact Or.inl ⟨by simp only [World.spliceRange, hi, hj, hL, if_true, q1, World.afterAll, g1], q2⟩
    · exact Or.inr ⟨by simp only [World.spliceRange, hi, hj, hL, if_true, q1, World.afterAll, g1], q2, x, rest, q3⟩

end MI.Cont
