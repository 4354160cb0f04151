import Verif.Cont.IdealLemmas
/-!
One operation of a program and of its ideal.
-/
set_option linter.unusedVariables false
set_option linter.unusedSimpArgs false
namespace MI.Ideal
open MI MI.Cont
variable {V : Type} {w w1 : World V} {a a1 : State V} {i j k : Nat} {c c1 d d1 : Container V} {b b1 : Box V} {x y : Id} {r : Ret} {val : Id → V} {v : V}

theorem get_of_len {α β : Type} {l : List α} {l' : List β} {n : Nat} {x : α} (e : l'.length = l.length) (h : l[n]? = some x) : ∃ y, l'[n]? = some y :=
  ⟨_, List.getElem?_eq_getElem (by rw [e]; exact (List.getElem?_eq_some_iff.1 h).1)⟩

theorem Agrees.box (A : Agrees w a) (hi : w.cs[i]? = some c) : ∃ b, a.boxes[i]? = some b ∧ Looks c b := by
  obtain ⟨b, hb⟩ := get_of_len A.len hi
  exact ⟨b, hb, A.boxes i c b hi hb⟩

theorem Looks.index (L : Looks c b) {S : Spec V} {xs : List Id} (h : b[k]? = some (S, xs)) : c.asked[k]? = some S ∧ ∃ ys, c.seqs[k]? = some ys ∧ Shows xs ys S := by
  have hS : c.asked[k]? = some S := by rw [← L.asked, List.getElem?_map, h]; rfl
  obtain ⟨ys, hy⟩ := seq_get hS
  exact ⟨hS, ys, hy, L.seqs k S xs ys h hy⟩

theorem Looks.index' (L : Looks c b) {S : Spec V} (h : c.asked[k]? = some S) : ∃ xs, b[k]? = some (S, xs) := by
  rw [← L.asked, List.getElem?_map] at h
  obtain ⟨⟨T, xs⟩, h1, rfl⟩ := Option.map_eq_some_iff.1 h
  exact ⟨xs, h1⟩

/-- What is known about an index. -/
structure Known (w : World V) (c : Container V) (S : Spec V) (xs ys : List Id) : Prop where
  ok : S.Ok
  perm : xs.Perm c.elems
  perm' : ys.Perm c.elems
  good : S.Good w.m.val ys
  nd : ys.Nodup
  hd : c.hd ∉ ys
  cons : ∀ z ∈ ys, z ∈ w.m.cons

theorem Looks.known (L : Looks c b) (I : Inv w) (hi : w.cs[i]? = some c) {S : Spec V} {xs ys : List Id} (h : b[k]? = some (S, xs)) (h' : c.seqs[k]? = some ys) :
    Known w c S xs ys := by
  obtain ⟨hS, ys', hy, sh⟩ := L.index h
  obtain rfl := Option.some.inj (h'.symm.trans hy)
  obtain ⟨Ly, hL, h2, -, hs, ok⟩ := I.seq' hi hS hy
  have pm := (I.seq hi hy).choose_spec.2.2.1
  subst hs
  have nd := List.nodup_cons.1 (I.seq_nodup hi hy)
  exact ⟨ok, sh.perm.symm.trans pm, pm, h2.good ok, nd.2, nd.1, fun z hz => (I.facts hi).2.2.2.2.1 z (pm.mem_iff.1 hz)⟩

theorem Looks.mem (L : Looks c b) (I : Inv w) (hi : w.cs[i]? = some c) {S : Spec V} {xs : List Id} (h : (S, xs) ∈ b) : ∃ ys, Known w c S xs ys := by
  obtain ⟨k, hk⟩ := List.mem_iff_getElem?.1 h
  obtain ⟨-, ys, hy, -⟩ := L.index hk
  exact ⟨ys, L.known I hi hk hy⟩

/-! ## Obstacles -/

theorem obst_none {els : List Id} (h : ∀ p ∈ b, p.2.Perm els) (hv : ∀ z ∈ els, a.val z = val z) :
    obstacle a.val v b = none ↔ ¬ Banned (b.map Prod.fst) val els v := by
  unfold obstacle
  rw [List.findSome?_eq_none_iff]
  constructor
  · rintro k ⟨S, hS, u, y, hy, e⟩
    obtain ⟨⟨T, xs⟩, hp, rfl⟩ := List.mem_map.1 hS
    have u : T.unique = true := u
    have q := k _ hp
    simp only [u, if_true] at q
    have := List.find?_eq_none.1 q y ((h _ hp).mem_iff.2 hy)
    rw [hv y hy] at this
    exact this e
  · rintro k ⟨T, xs⟩ hp
    simp only
    split
    · rename_i u
      refine List.find?_eq_none.2 fun y hy e => k ⟨T, List.mem_map_of_mem (f := Prod.fst) hp, u, y, (h _ hp).mem_iff.1 hy, ?_⟩
      rw [← hv y ((h _ hp).mem_iff.1 hy)]
      exact e
    · rfl

theorem obst_first (L : Looks c b) (I : Inv w) (A : Agrees w a) (hi : w.cs[i]? = some c) (hy : y ∈ c.elems) (f : First c.asked w.m.val c.elems v y) :
    obstacle a.val v b = some y := by
  obtain ⟨pre, S, post, e, u, q, no⟩ := f
  rw [← L.asked] at e
  obtain ⟨b1, b2, rfl, e1, e2⟩ := List.map_eq_append_iff.1 e
  obtain ⟨⟨T, xs⟩, b3, rfl, rfl, rfl⟩ := List.map_eq_cons_iff.1 e2
  subst e1
  have vals : ∀ z ∈ c.elems, a.val z = w.m.val z := fun z hz => A.val z ((I.facts hi).2.2.2.2.1 z hz)
  have n1 : obstacle a.val v b1 = none := (obst_none (val := w.m.val) (els := c.elems) (fun p hp => by
    obtain ⟨ys, kn⟩ := L.mem I hi (S := p.1) (xs := p.2) (by simp [hp])
    exact kn.perm) vals).2 (by
      rintro ⟨S, hS, k⟩
      exact no S hS k)
  unfold obstacle at n1 ⊢
  rw [List.findSome?_append, n1, Option.none_or, List.findSome?_cons]
  obtain ⟨ys, kn⟩ := L.mem I hi (S := T) (xs := xs) (by simp)
  have u : T.unique = true := u
  simp only [u, if_true]
  have hx : y ∈ xs := kn.perm.mem_iff.2 hy
  cases hf : xs.find? (fun y => T.equiv v (a.val y)) with
  | none => exact absurd (by rw [vals y hy]; exact q) (List.find?_eq_none.1 hf y hx)
  | some z =>
    have hz : z ∈ c.elems := kn.perm.mem_iff.1 (List.mem_of_find?_eq_some hf)
    have ez := List.find?_some hf
    simp only [vals z hz] at ez
    rw [only_one kn.ok kn.good u (kn.perm'.mem_iff.2 hz) (kn.perm'.mem_iff.2 hy) ez q]

theorem bans_nil : c.Bans val [] v ↔ Banned c.asked val c.elems v := by
  unfold Container.Bans Banned
  simp

theorem Looks.none_iff (L : Looks c b) (I : Inv w) (A : Agrees w a) (hi : w.cs[i]? = some c) : obstacle a.val v b = none ↔ ¬ c.Bans w.m.val [] v := by
  rw [bans_nil, ← L.asked]
  exact obst_none (fun p hp => by
    obtain ⟨ys, kn⟩ := L.mem I hi (S := p.1) (xs := p.2) hp
    exact kn.perm) fun z hz => A.val z ((I.facts hi).2.2.2.2.1 z hz)

theorem Looks.none_but (L : Looks c b) (I : Inv w) (A : Agrees w a) (hi : w.cs[i]? = some c) : obstacle a.val v (drop x b) = none ↔ ¬ c.Bans w.m.val [x] v := by
  have nd := (List.nodup_cons.1 (I.facts hi).2.1.nodup).2
  rw [bans_sing nd, show MI.Cont.specs c.ls = (drop x b).map Prod.fst by
    unfold drop
    rw [List.map_map]
    exact L.asked.symm]
  refine obst_none (fun p hp => ?_) fun z hz => A.val z ((I.facts hi).2.2.2.2.1 z (List.mem_of_mem_erase hz))
  obtain ⟨⟨S, xs⟩, hq, rfl⟩ := List.mem_map.1 hp
  obtain ⟨ys, kn⟩ := L.mem I hi hq
  exact kn.perm.erase x

/-! ## States -/

theorem Agrees.put (A : Agrees w a) (I : Inv w) (hw : w1.cs = w.cs.set i c1) (hb : a1.boxes = a.boxes.set i b1) (L : Looks c1 b1)
    (val : ∀ z ∈ w1.m.cons, a1.val z = w1.m.val z) (hs : a1.hs = w1.hs) : Agrees w1 a1 := by
  refine ⟨val, hs, by rw [hw, hb]; simpa using A.len, fun l e f he hf => ?_⟩
  rw [hw] at he
  rw [hb] at hf
  by_cases q : i = l
  · subst q
    rw [List.getElem?_set] at he hf
    simp only [if_true] at he hf
    split at he
    · split at hf
      · cases he; cases hf; exact L
      · cases hf
    · cases he
  · rw [List.getElem?_set_ne q] at he hf
    exact A.boxes l e f he hf

/-- Containers, index by index. -/
theorem looks_of (L : Looks c b) (f : Index V → Index V) (h1 : c1.asked = c.asked) (hf : ∀ p, (f p).1 = p.1)
    (P : ∀ (k : Nat) S xs ys ys1, b[k]? = some (S, xs) → c.seqs[k]? = some ys → c1.seqs[k]? = some ys1 → Shows xs ys S → Shows (f (S, xs)).2 ys1 S) :
    Looks c1 (b.map f) := by
  refine ⟨?_, fun k S xs1 ys1 k1 k2 => ?_⟩
  · rw [List.map_map, h1, ← L.asked]
    exact List.map_congr_left fun p _ => hf p
  · rw [List.getElem?_map] at k1
    obtain ⟨⟨T, xs⟩, k3, k4⟩ := Option.map_eq_some_iff.1 k1
    obtain ⟨-, ys, hy, sh⟩ := L.index k3
    have e : T = S := by
      have := hf (T, xs)
      rw [k4] at this
      exact this.symm
    subst e
    have := P k T xs ys ys1 k3 hy k2 sh
    rw [k4] at this
    exact this

theorem Looks.same (L : Looks c b) (h1 : c1.asked = c.asked) (e : Each (fun S xs ys => S.Same val xs ys) c.asked c.seqs c1.seqs) : Looks c1 b := by
  have := looks_of (f := id) L h1 (fun _ => rfl) fun k S xs ys ys1 h1 h2 h3 sh => sh.same (each_nth e (L.index h1).1 h2 h3)
  simpa using this

theorem Looks.erase (L : Looks c b) (h1 : c1.asked = c.asked) (e : c1.seqs = c.seqs.map (·.erase x)) : Looks c1 (drop x b) := by
  refine looks_of (f := fun p => (p.1, p.2.erase x)) L h1 (fun _ => rfl) fun k S xs ys ys1 h1 h2 h3 sh => ?_
  rw [e, List.getElem?_map, h2] at h3
  cases h3
  exact sh.erase

theorem unchanged (A : Agrees w a) (I : Inv w) (u : Unchanged w w1 i) : Agrees w1 a := by
  obtain ⟨m, c, c1, o, -, e⟩ := u
  obtain ⟨b, hb, L⟩ := A.box o.pre
  have hl : i < a.boxes.length := (List.getElem?_eq_some_iff.1 hb).1
  refine A.put I o.cs (b1 := b) (by rw [set_same hb]) (L.same o.asked e) (fun z hz => ?_) (by rw [m.hs]; exact A.hs)
  rw [m.cons] at hz
  rw [m.val z hz]
  exact A.val z hz

theorem identical (A : Agrees w a) (I : Inv w) (u : Identical w w1 i) : Agrees w1 a := by
  obtain ⟨m, h, c, c1, o, -, e⟩ := u
  obtain ⟨b, hb, L⟩ := A.box o.pre
  refine A.put I o.cs (b1 := b) (by rw [set_same hb]) ⟨by rw [o.asked]; exact L.asked, by rw [e]; exact L.seqs⟩ (by rw [m]; exact A.val) (by rw [h]; exact A.hs)

theorem Agrees.setVal (A : Agrees w a) (hx : x ∉ w.m.cons) : Agrees w { a with val := upd a.val x v } :=
  ⟨fun z hz => by rw [← A.val z hz]; exact upd_other _ _ (by rintro rfl; exact hx hz), A.hs, A.len, A.boxes⟩

/-- What an operation that returned `r` and led to `w` should be to the ideal. -/
def Good (w : World V) (r : Ret) (o : Option (State V × Bool × Option Id)) : Prop :=
  ∃ a b p, o = some (a, b, p) ∧ Agrees w a ∧ r.b = b ∧ ∀ q, p = some q → r.pos = q

/-! ## Insertion -/

theorem enter_ok {hint : Option Id} (A : Agrees w a) (I : Inv w) (hi : w.cs[i]? = some c) (h1 : c1.asked = c.asked) (k1 : ∀ z ∈ w.m.cons, val z = w.m.val z)
    (hx : val x = a.val x) (e : Each (Added val hint x) c.asked c.seqs c1.seqs) (nb : ¬ c.Bans w.m.val [] (a.val x)) :
    ∃ b, a.boxes[i]? = some b ∧ a.enter i hint x = some ({ a with boxes := a.boxes.set i (add a.val hint x b) }, true, some x) ∧ Looks c1 (add a.val hint x b) := by
  obtain ⟨b, hb, L⟩ := A.box hi
  refine ⟨b, hb, ?_, ?_⟩
  · unfold State.enter
    simp only [hb, (L.none_iff I A hi).2 nb]
  · refine looks_of L (put a.val hint x) h1 ?_ fun k S xs ys ys1 q1 q2 q3 sh => ?_
    · rintro ⟨S, xs⟩
      cases S <;> rfl
    · have kn := L.known I hi q1 q2
      refine sh.added kn.nd (fun z hz => ?_) (each_nth e (L.index q1).1 q2 q3)
      rcases List.mem_cons.1 hz with rfl | hz
      · exact hx.symm
      · rw [k1 z (kn.cons z hz)]
        exact A.val z (kn.cons z hz)

theorem enter_no {hint : Option Id} (A : Agrees w a) (I : Inv w) (hi : w.cs[i]? = some c) (hy : y ∈ c.elems) (f : First c.asked w.m.val c.elems (a.val x) y) :
    a.enter i hint x = some (a, false, some y) := by
  obtain ⟨b, hb, L⟩ := A.box hi
  unfold State.enter
  simp only [hb, obst_first L I A hi hy f]

theorem ideal_insert {em : Bool} {f : Fault} {hint : Option Id} {e : Nat → Env} (A : Agrees w a) (I : Inv w)
    (l : w.Legal (if em then .emplace i v x f hint e else .insert i v x f hint e))
    (s : w.step (if em then .emplace i v x f hint e else .insert i v x f hint e) = .ok (w1, r)) :
    Good w1 r ({ a with val := upd a.val x v }.enter i hint x) := by
  have hx : x ∉ w.m.cons := by
    cases em <;> exact fun k => l.choose_spec.2.1.2.1 (I.cons_sub k)
  have A' := A.setVal (v := v) hx
  have vx : ({ a with val := upd a.val x v } : State V).val x = v := upd_same ..
  have eff : (r = ⟨x, true⟩ ∧ Gained w w1 i hint x ∧ w1.m.val x = v ∧ w1.m.cons = x :: w.m.cons ∧ w1.hs = w.hs ∧ (∀ c, w.cs[i]? = some c → ¬ c.Bans w.m.val [] v)) ∨
      (∃ y, r = ⟨y, false⟩ ∧ Unchanged w w1 i ∧ ∀ c, w.cs[i]? = some c → y ∈ c.elems ∧ First c.asked w.m.val c.elems v y) := by
    cases em with
    | true =>
      simp only [if_true] at l s
      rcases eff_emplace I l with ⟨w2, q, q1, q2, q3, q4, q5, q6, -⟩ | ⟨w2, y, q, q1, q2⟩ | ⟨w2, q, -⟩
      · rw [q] at s; cases s; exact Or.inl ⟨rfl, q1, q2, q4, q5, q6⟩
      · rw [q] at s; cases s; exact Or.inr ⟨y, rfl, q1, fun c hc => ⟨(q2 c hc).1, emplace_first I l hc q (q2 c hc).1⟩⟩
      · rw [q] at s; cases s
    | false =>
      simp only [Bool.false_eq_true, if_false] at l s
      rcases eff_insert I l with ⟨w2, q, q1, q2, q3, q4, q5, q6, -⟩ | ⟨w2, y, q, q1, q2⟩ | ⟨w2, q, -⟩
      · rw [q] at s; cases s; exact Or.inl ⟨rfl, q1, q2, q4, q5, q6⟩
      · rw [q] at s; cases s; exact Or.inr ⟨y, rfl, q1, fun c hc => ⟨(q2 c hc).1, insert_first I l hc q (q2 c hc).1⟩⟩
      · rw [q] at s; cases s
  rcases eff with ⟨rfl, ⟨k1, c, c1, o, -, ee⟩, q2, q3, q4, q5⟩ | ⟨y, rfl, q1, q2⟩
  · obtain ⟨b, hb, e1, L⟩ := enter_ok A' I o.pre o.asked k1 (by rw [vx]; exact q2) ee (by rw [vx]; exact q5 c o.pre)
    refine ⟨_, _, _, e1, ?_, rfl, fun q hq => by cases hq; rfl⟩
    refine A'.put I o.cs rfl L (fun z hz => ?_) (by rw [q4]; exact A.hs)
    rw [q3] at hz
    rcases List.mem_cons.1 hz with rfl | hz
    · rw [q2]; exact vx
    · rw [k1 z hz]; exact A'.val z hz
  · obtain ⟨m, c, c1, o, -⟩ := id q1
    refine ⟨_, _, _, enter_no A' I o.pre (q2 c o.pre).1 (by rw [vx]; exact (q2 c o.pre).2), unchanged A' I q1, rfl, fun q hq => by cases hq; rfl⟩

theorem ideal_insertNh {h : Nat} {hint : Option Id} {e : Nat → Env} (A : Agrees w a) (I : Inv w) (l : w.Legal (.insertNh i h hint e))
    (s : w.step (.insertNh i h hint e) = .ok (w1, r)) : Good w1 r (a.step (.insertNh i h hint e)) := by
  obtain ⟨c, hi, hl, -⟩ := id l
  have hw : w.hs[h]? = some w.hs[h] := List.getElem?_eq_getElem hl
  generalize w.hs[h] = nh at hw
  have ha : a.hs[h]? = some nh := by rw [A.hs, hw]
  obtain ⟨b, hb, L⟩ := A.box hi
  cases nh with
  | none =>
    have e1 : w.step (.insertNh i h hint e) = .ok (⟨w.m, w.cs.set i c, w.hs.set h none⟩, ⟨c.hd, false⟩) := by
      simp only [World.step, hi, hw, Container.insertNh]
    rw [e1] at s
    cases s
    refine ⟨a, false, none, by simp only [State.step, ha], ?_, rfl, fun q hq => nomatch hq⟩
    exact A.put I (b1 := b) rfl (by rw [set_same hb]) L A.val (by show _ = w.hs.set h none; rw [set_same hw]; exact A.hs)
  | some x =>
    have xc : x ∈ w.m.cons := I.handle_cons (mem_handled hw)
    have vx : a.val x = w.m.val x := A.val x xc
    rcases eff_insertNh I l hw with ⟨w2, q, ⟨k1, c', c1, o, -, ee⟩, q2, q3, q4⟩ | ⟨w2, y, q, q1, q2, q3⟩ | ⟨w2, q, -⟩
    · rw [q] at s; cases s
      obtain ⟨b, hb, e1, L⟩ := enter_ok A I o.pre o.asked k1 (by rw [vx, q2]) ee (by rw [vx]; exact q4 _ o.pre)
      refine ⟨_, _, _, by simp only [State.step, ha, e1, Option.map_some]; rfl, ?_, rfl, fun q hq => by cases hq; rfl⟩
      refine A.put I o.cs rfl L (by rw [q2]; exact A.val) ?_
      rw [q3]
      exact congrArg (·.set h none) A.hs
    · rw [q] at s; cases s
      have f := q3 c hi
      refine ⟨a, _, _, by simp only [State.step, ha, enter_no A I hi f.1 (by rw [vx]; exact insertNh_first I l hw hi q f.1), Option.map_some]; rfl,
        unchanged A I q1, rfl, fun q hq => by cases hq; rfl⟩
    · rw [q] at s; cases s

theorem ideal_transfer {e : Nat → Env} (A : Agrees w a) (I : Inv w) (l : w.Legal (.transfer i j x e))
    (s : w.step (.transfer i j x e) = .ok (w1, r)) : Good w1 r (a.step (.transfer i j x e)) := by
  obtain ⟨ne, c, d, hi, hj, hxd, -⟩ := id l
  have xc : x ∈ w.m.cons := I.elem_cons (List.mem_of_getElem? hj) hxd
  have vx : a.val x = w.m.val x := A.val x xc
  rcases eff_transfer I l with ⟨w2, q, ⟨k1, k2, c', c1, d', d1, o1, o2, o3, o4, o5, o6, o7, o8, o9, o10, o11, o12⟩, q2⟩ | ⟨w2, y, q, q1, q2, q3⟩ | ⟨w2, q, -⟩
  · rw [q] at s; cases s
    obtain ⟨b, hb, e1, L⟩ := enter_ok A I o1 o4 (fun _ _ => rfl) vx.symm o11 (by rw [vx]; exact q2 _ o1)
    obtain ⟨b', hb', L'⟩ := A.box o2
    have hb2 : (a.boxes.set i (add a.val none x b))[j]? = some b' := by rw [List.getElem?_set_ne ne]; exact hb'
    refine ⟨_, _, _, by simp only [State.step, e1, State.leave, hb2, Option.map_some]; rfl, ?_, rfl, fun q hq => by cases hq; rfl⟩
    have A1 : Agrees { w with cs := w.cs.set i c1 } { a with boxes := a.boxes.set i (add a.val none x b) } := A.put I rfl rfl L A.val A.hs
    refine ⟨by rw [k1]; exact A.val, by rw [k2]; exact A.hs, by rw [o3]; simpa using A.len, fun n e f he hf => ?_⟩
    rw [o3] at he
    by_cases q : j = n
    · subst q
      rw [List.getElem?_set] at he
      simp only [List.getElem?_set, if_true] at he hf
      split at he
      · split at hf
        · cases he; cases hf; exact L'.erase o6 o12
        · cases hf
      · cases he
    · rw [List.getElem?_set_ne q] at he
      simp only [List.getElem?_set_ne q] at hf
      exact A1.boxes n e f he hf
  · rw [q] at s; cases s
    have f := q3 c hi
    refine ⟨a, _, _, by simp only [State.step, enter_no A I hi f.1 (by rw [vx]; exact transfer_first I l hi q f.1)]; rfl,
      unchanged A I q1, rfl, fun q hq => by cases hq; rfl⟩
  · rw [q] at s; cases s

/-! ## Removal -/

theorem lost (A : Agrees w a) (I : Inv w) (u : Lost w w1 i x) : ∃ b, a.boxes[i]? = some b ∧ a.leave i x = some { a with boxes := a.boxes.set i (drop x b) } ∧
    ((∀ z ∈ w1.m.cons, a.val z = w1.m.val z) → ∀ hs, hs = w1.hs → Agrees w1 ⟨a.val, a.boxes.set i (drop x b), hs⟩) := by
  obtain ⟨k1, c, c1, o, hx, -, e⟩ := u
  obtain ⟨b, hb, L⟩ := A.box o.pre
  refine ⟨b, hb, by simp only [State.leave, hb], fun hv hs hh => ?_⟩
  exact A.put I o.cs rfl (L.erase o.asked e) hv hh

theorem deleted_val (A : Agrees w a) (k : ∀ z ∈ w.m.cons, z ≠ x → w1.m.val z = w.m.val z) (dl : Deleted w w1 x) : ∀ z ∈ w1.m.cons, a.val z = w1.m.val z := by
  intro z hz
  have nz : z ≠ x := by rintro rfl; exact dl.notin.2 hz
  rw [dl.cons] at hz
  have := List.mem_of_mem_erase hz
  rw [k z this nz]
  exact A.val z this

theorem ideal_erase (A : Agrees w a) (I : Inv w) (l : w.Legal (.erase i x)) (s : w.step (.erase i x) = .ok (w1, r)) : Good w1 r (a.step (.erase i x)) := by
  obtain ⟨w2, q, lo, dl, -⟩ := eff_erase I l
  rw [q] at s; cases s
  obtain ⟨b, hb, e, k⟩ := lost A I lo
  exact ⟨_, _, none, by simp only [State.step, e, Option.map_some]; rfl, k (deleted_val A lo.1 dl) _ (by rw [dl.hs]; exact A.hs), rfl, fun q hq => nomatch hq⟩

theorem ideal_extract (A : Agrees w a) (I : Inv w) (l : w.Legal (.extract i x)) (s : w.step (.extract i x) = .ok (w1, r)) : Good w1 r (a.step (.extract i x)) := by
  obtain ⟨w2, q, lo, m, h⟩ := eff_extract I l
  rw [q] at s; cases s
  obtain ⟨b, hb, e, k⟩ := lost A I lo
  exact ⟨_, _, _, by simp only [State.step, e, Option.map_some]; rfl, k (by rw [m]; exact A.val) _ (by rw [h, ← A.hs]), rfl, fun q hq => by cases hq; rfl⟩

/-! ## Changes of value -/

theorem change_ok {no : Option (State V)} (A : Agrees w a) (I : Inv w) (hi : w.cs[i]? = some c) (hx : x ∈ c.elems) (u : Changed w w1 i x v) (nb : ∀ c, w.cs[i]? = some c → ¬ c.Bans w.m.val [x] v) :
    Good w1 ⟨x, true⟩ (a.change i x v no) := by
  obtain ⟨u1, u2, u3, u4, u5, c', c1, o, -, e⟩ := u
  obtain rfl := Option.some.inj (hi.symm.trans o.pre)
  obtain ⟨b, hb, L⟩ := A.box o.pre
  have hv : ∀ z ∈ w.m.cons, upd a.val x v z = w1.m.val z := fun z hz => by
    by_cases q : z = x
    · subst q; rw [upd_same, u4]
    · rw [upd_other _ _ q, u5 z q]; exact A.val z hz
  refine ⟨_, _, _, by simp only [State.change, hb, (L.none_but I A hi).2 (nb c hi)]; rfl, ?_, rfl, fun q hq => by cases hq; rfl⟩
  refine A.put I o.cs rfl ?_ (by rw [u2]; exact hv) (by rw [u3]; exact A.hs)
  refine looks_of L (move (upd a.val x v) x) o.asked ?_ fun k S xs ys ys1 q1 q2 q3 sh => ?_
  · rintro ⟨S, xs⟩
    cases S <;> rfl
  · have kn := L.known I hi q1 q2
    exact sh.moved kn.nd (kn.perm'.mem_iff.2 hx) (fun z hz => hv z (kn.cons z hz)) (each_nth e (L.index q1).1 q2 q3)

theorem change_no {no : Option (State V)} (A : Agrees w a) (I : Inv w) (hi : w.cs[i]? = some c) (nb : ∀ c, w.cs[i]? = some c → c.Bans w.m.val [x] v) :
    a.change i x v no = no.map fun a => (a, false, none) := by
  obtain ⟨b, hb, L⟩ := A.box hi
  cases h : obstacle a.val v (drop x b) with
  | none => exact absurd (nb c hi) ((L.none_but I A hi).1 h)
  | some y => simp only [State.change, hb, h]

theorem ideal_replace {f : Bool} {e : Nat → Env} (A : Agrees w a) (I : Inv w) (l : w.Legal (.replace i x v f e)) (s : w.step (.replace i x v f e) = .ok (w1, r)) :
    Good w1 r (a.step (.replace i x v f e)) := by
  obtain ⟨c, hi, hx⟩ := id l
  rcases eff_replace I l with ⟨w2, q, u, nb⟩ | ⟨w2, q, u, nb⟩ | ⟨w2, q, -⟩
  · rw [q] at s; cases s
    exact change_ok A I hi hx u nb
  · rw [q] at s; cases s
    exact ⟨a, false, none, by simp only [State.step]; rw [change_no A I hi nb]; rfl, identical A I u, rfl, fun q hq => nomatch hq⟩
  · rw [q] at s; cases s

theorem ideal_modify {mod : V → V × Bool} {e : Nat → Env} (A : Agrees w a) (I : Inv w) (l : w.Legal (.modify i x mod e)) (s : w.step (.modify i x mod e) = .ok (w1, r)) :
    Good w1 r (a.step (.modify i x mod e)) := by
  obtain ⟨c, hi, hx⟩ := id l
  have vx : a.val x = w.m.val x := A.val x (I.elem_cons (List.mem_of_getElem? hi) hx)
  rcases eff_modify I l with ⟨w2, q, u, nb, -⟩ | ⟨w2, q, lo, dl, nb, -⟩ | ⟨w2, _, q, -⟩
  · rw [q] at s; cases s
    simp only [State.step]
    rw [vx]
    exact change_ok A I hi hx u nb
  · rw [q] at s; cases s
    obtain ⟨b, hb, e, k⟩ := lost A I lo
    refine ⟨_, false, none, by simp only [State.step]; rw [vx, change_no A I hi nb, e]; rfl, k (deleted_val A lo.1 dl) _ (by rw [dl.hs]; exact A.hs), rfl, fun q hq => nomatch hq⟩
  · rw [q] at s; cases s

theorem ideal_modifyRb {mod back : V → V × Bool} {e e' : Nat → Env} (A : Agrees w a) (I : Inv w) (l : w.Legal (.modifyRb i x mod back e e'))
    (cv : a.Covers (.modifyRb i x mod back e e')) (s : w.step (.modifyRb i x mod back e e') = .ok (w1, r)) : Good w1 r (a.step (.modifyRb i x mod back e e')) := by
  obtain ⟨c, hi, hx, -⟩ := id l
  have vx : a.val x = w.m.val x := A.val x (I.elem_cons (List.mem_of_getElem? hi) hx)
  obtain ⟨b, hb, L⟩ := A.box hi
  rcases eff_modifyRb I l with ⟨w2, q, u, nb, -⟩ | ⟨w2, q, m, h, ⟨c', c1, o, -, e⟩, nb, -⟩ | ⟨w2, q, -, -, no, -⟩ | ⟨w2, _, q, -⟩
  · rw [q] at s; cases s
    simp only [State.step]
    rw [vx]
    exact change_ok A I hi hx u nb
  · rw [q] at s; cases s
    obtain rfl := Option.some.inj (hi.symm.trans o.pre)
    refine ⟨_, false, none, by simp only [State.step]; rw [vx, change_no A I hi nb]; rfl, ?_, rfl, fun q hq => nomatch hq⟩
    refine A.put I o.cs (b1 := b) (by show a.boxes = _; rw [set_same hb]) ⟨by rw [o.asked]; exact L.asked, by rw [e]; exact L.seqs⟩ (fun z hz => ?_) (by rw [h]; exact A.hs)
    rw [m] at hz ⊢
    show upd a.val x _ z = upd w.m.val x _ z
    by_cases q : z = x
    · subst q; rw [upd_same, upd_same]
    · rw [upd_other _ _ q, upd_other _ _ q]; exact A.val z hz
  · exfalso
    refine (no c hi).2 ?_
    have := cv b hb
    rw [L.asked, vx] at this
    exact this
  · rw [q] at s; cases s

end MI.Ideal
