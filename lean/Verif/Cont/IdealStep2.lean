import Verif.Cont.IdealStep
import Verif.Cont.IdealSort
import Verif.Cont.PlaceLemmas
import Verif.Cont.TwinStep3
/-!
One operation of a program and of its ideal (concluded): handles, containers as a whole, rearrangements; and operations that throw.
-/
set_option linter.unusedVariables false
set_option linter.unusedSimpArgs false
namespace MI.Ideal
open MI MI.Cont
variable {V : Type} {w w1 : World V} {a a1 : State V} {i j k : Nat} {c c1 d d1 : Container V} {b b1 : Box V} {x y : Id} {r : Ret} {val : Id → V} {v : V}

/-- Containers are as they were. -/
theorem Agrees.rest {hs : List (Option Id)} (A : Agrees w a) (hw : w1.cs = w.cs) (mv : w1.m.val = w.m.val) (sub : ∀ z ∈ w1.m.cons, z ∈ w.m.cons) (h : hs = w1.hs) :
    Agrees w1 { a with hs := hs } :=
  ⟨fun z hz => by rw [mv]; exact A.val z (sub z hz), h, by rw [hw]; exact A.len, by rw [hw]; exact A.boxes⟩

/-! ## Handles -/

theorem drop_mem {nh : Option Id} {h : Nat} {m : Mem V} (I : Inv w) (hh : w.hs[h]? = some nh) (hm : w.m.deleteOpt nh = some m) :
    m.val = w.m.val ∧ ∀ z ∈ m.cons, z ∈ w.m.cons := by
  cases nh with
  | none => cases hm; exact ⟨rfl, fun _ h => h⟩
  | some x =>
    have xc : x ∈ w.m.cons := I.handle_cons (mem_handled hh)
    replace hm : w.m.deleteNode x = some m := hm
    rw [Mem.deleteNode_mem (I.cons_sub xc) xc] at hm
    cases hm
    exact ⟨rfl, fun z hz => List.mem_of_mem_erase hz⟩

theorem ideal_newHandle (A : Agrees w a) (s : w.step .newHandle = .ok (w1, r)) : Good w1 r (a.step .newHandle) := by
  simp only [World.step] at s
  cases s
  exact ⟨_, _, none, rfl, A.rest rfl rfl (fun _ h => h) (by rw [A.hs]), rfl, fun q hq => nomatch hq⟩

theorem ideal_dropHandle {h : Nat} (A : Agrees w a) (I : Inv w) (s : w.step (.dropHandle h) = .ok (w1, r)) : Good w1 r (a.step (.dropHandle h)) := by
  simp only [World.step] at s
  cases hh : w.hs[h]? with
  | none => simp [hh] at s
  | some nh =>
    simp only [hh] at s
    cases hm : w.m.deleteOpt nh with
    | none => simp [hm] at s
    | some m =>
      simp only [hm] at s
      cases s
      obtain ⟨h1, h2⟩ := drop_mem I hh hm
      exact ⟨_, _, none, rfl, A.rest rfl h1 h2 (by rw [A.hs]), rfl, fun q hq => nomatch hq⟩

theorem ideal_moveHandle {h g : Nat} (A : Agrees w a) (I : Inv w) (s : w.step (.moveHandle h g) = .ok (w1, r)) : Good w1 r (a.step (.moveHandle h g)) := by
  simp only [World.step] at s
  cases hh : w.hs[h]? with
  | none => simp [hh] at s
  | some nh =>
    cases hg : w.hs[g]? with
    | none => simp [hh, hg] at s
    | some ng =>
      have ha : a.hs[g]? = some ng := by rw [A.hs, hg]
      simp only [hh, hg] at s
      by_cases e : h = g
      · simp only [e, if_true] at s
        cases s
        exact ⟨a, _, none, by simp only [State.step, ha, e, if_true], A, rfl, fun q hq => nomatch hq⟩
      · simp only [e, if_false] at s
        cases hm : w.m.deleteOpt nh with
        | none => simp [hm] at s
        | some m =>
          simp only [hm] at s
          cases s
          obtain ⟨h1, h2⟩ := drop_mem I hh hm
          exact ⟨_, _, none, by simp only [State.step, ha, e, if_false]; rfl, A.rest rfl h1 h2 (by rw [A.hs]), rfl, fun q hq => nomatch hq⟩

theorem ideal_swapHandles {h g : Nat} (A : Agrees w a) (s : w.step (.swapHandles h g) = .ok (w1, r)) : Good w1 r (a.step (.swapHandles h g)) := by
  simp only [World.step] at s
  cases hh : w.hs[h]? with
  | none => simp [hh] at s
  | some nh =>
    cases hg : w.hs[g]? with
    | none => simp [hh, hg] at s
    | some ng =>
      have ha : a.hs[h]? = some nh := by rw [A.hs, hh]
      have ha' : a.hs[g]? = some ng := by rw [A.hs, hg]
      simp only [hh, hg] at s
      cases s
      exact ⟨_, _, none, by simp only [State.step, ha, ha']; rfl, A.rest rfl rfl (fun _ h => h) (by rw [A.hs]), rfl, fun q hq => nomatch hq⟩

/-! ## Containers as a whole -/

theorem looks_empty {Ss : List (Spec V)} (h1 : c.asked = Ss) (h2 : ∀ xs ∈ c.seqs, xs = []) : Looks c (Ss.map fun S => (S, [])) := by
  refine ⟨by rw [List.map_map, h1]; exact List.map_id' _, fun k S xs ys q1 q2 => ?_⟩
  obtain rfl := h2 ys (List.mem_of_getElem? q2)
  rw [List.getElem?_map] at q1
  obtain ⟨T, -, q⟩ := Option.map_eq_some_iff.1 q1
  cases q
  cases S <;> first | exact List.Perm.refl _ | rfl

theorem ideal_clear (A : Agrees w a) (I : Inv w) (l : w.Legal (.clear i)) (s : w.step (.clear i) = .ok (w1, r)) : Good w1 r (a.step (.clear i)) := by
  obtain ⟨w2, c, c1, q, o, ⟨e1, -, e3, e4⟩, -, em⟩ := eff_clear I l
  rw [q] at s; cases s
  obtain ⟨b, hb, L⟩ := A.box o.pre
  refine ⟨_, _, none, by simp only [State.step, hb]; rfl, ?_, rfl, fun q hq => nomatch hq⟩
  refine A.put I o.cs rfl ?_ (fun z hz => by rw [e3]; exact A.val z ((e1 z).1 hz).1) (by rw [e4]; exact A.hs)
  have := looks_empty (c := c1) (Ss := b.map Prod.fst) (by rw [o.asked, L.asked]) em
  rw [List.map_map] at this
  exact this

theorem ideal_destroy (A : Agrees w a) (I : Inv w) (l : w.Legal (.destroy i)) (s : w.step (.destroy i) = .ok (w1, r)) : Good w1 r (a.step (.destroy i)) := by
  obtain ⟨w2, c, q, hi, cs, e1, -, e3, e4⟩ := eff_destroy I l
  rw [q] at s; cases s
  refine ⟨_, _, none, rfl, ⟨fun z hz => by rw [e3]; exact A.val z ((e1 z).1 hz).1, by rw [e4]; exact A.hs, ?_, fun n c b h1 h2 => ?_⟩, rfl, fun q hq => nomatch hq⟩
  · simp only [cs, List.length_eraseIdx, A.len]
  · rw [cs, List.getElem?_eraseIdx] at h1
    simp only [List.getElem?_eraseIdx] at h2
    split at h1
    · rw [if_pos (by assumption)] at h2; exact A.boxes _ _ _ h1 h2
    · rw [if_neg (by assumption)] at h2; exact A.boxes _ _ _ h1 h2

theorem exchanged {f g : Box V} (A : Agrees w a) (hi : w.cs[i]? = some c) (hj : w.cs[j]? = some d) (bi : a.boxes[i]? = some f) (bj : a.boxes[j]? = some g) :
    Agrees ⟨w.m, (w.cs.set i d).set j c, w.hs⟩ ⟨a.val, (a.boxes.set i g).set j f, a.hs⟩ := by
  refine ⟨A.val, A.hs, by simpa using A.len, fun n e h he hh => ?_⟩
  have he : ((w.cs.set i d).set j c)[n]? = some e := he
  have hh : ((a.boxes.set i g).set j f)[n]? = some h := hh
  by_cases nj : j = n
  · subst nj
    rw [List.getElem?_set_self (by rw [List.length_set]; exact (List.getElem?_eq_some_iff.1 hj).1)] at he
    rw [List.getElem?_set_self (by rw [List.length_set]; exact (List.getElem?_eq_some_iff.1 bj).1)] at hh
    cases he; cases hh
    exact A.boxes i _ _ hi bi
  · rw [List.getElem?_set_ne nj] at he hh
    by_cases ni : i = n
    · subst ni
      rw [List.getElem?_set_self (List.getElem?_eq_some_iff.1 hi).1] at he
      rw [List.getElem?_set_self (List.getElem?_eq_some_iff.1 bi).1] at hh
      cases he; cases hh
      exact A.boxes j _ _ hj bj
    · rw [List.getElem?_set_ne ni] at he hh
      exact A.boxes n e h he hh

theorem ideal_swap (A : Agrees w a) (l : w.Legal (.swap i j)) (s : w.step (.swap i j) = .ok (w1, r)) : Good w1 r (a.step (.swap i j)) := by
  obtain ⟨ci, cj, hi, hj, k⟩ := l
  rw [eff_swap hi hj k] at s
  cases s
  obtain ⟨f, bi, -⟩ := A.box hi
  obtain ⟨g, bj, -⟩ := A.box hj
  exact ⟨_, _, none, by simp only [State.step, State.exchange, bi, bj, Option.map_some], exchanged A hi hj bi bj, rfl, fun q hq => nomatch hq⟩

theorem ideal_swapElements (A : Agrees w a) (l : w.Legal (.swapElements i j)) (s : w.step (.swapElements i j) = .ok (w1, r)) : Good w1 r (a.step (.swapElements i j)) := by
  obtain ⟨ci, cj, hi, hj, k⟩ := l
  rw [eff_swapElements hi hj k] at s
  cases s
  obtain ⟨f, bi, -⟩ := A.box hi
  obtain ⟨g, bj, -⟩ := A.box hj
  exact ⟨_, _, none, by simp only [State.step, State.exchange, bi, bj, Option.map_some], exchanged A hi hj bi bj, rfl, fun q hq => nomatch hq⟩

/-- A container has been added. -/
theorem Agrees.append {val : Id → V} (A : Agrees w a) (hw : w1.cs = w.cs ++ [c1]) (L : Looks c1 b1) (hv : ∀ z ∈ w1.m.cons, val z = w1.m.val z) (hs : w1.hs = w.hs) :
    Agrees w1 ⟨val, a.boxes ++ [b1], a.hs⟩ := by
  refine ⟨hv, by rw [hs]; exact A.hs, by rw [hw]; simpa using A.len, fun n e f he hf => ?_⟩
  rw [hw, List.getElem?_append] at he
  simp only [List.getElem?_append, A.len] at hf
  split at he
  · rw [if_pos (by assumption)] at hf
    exact A.boxes n e f he hf
  · rw [if_neg (by assumption)] at hf
    have : n - w.cs.length = 0 := by
      have := (List.getElem?_eq_some_iff.1 he).1
      simpa using this
    rw [this] at he hf
    cases he; cases hf
    exact L

theorem ideal_new {hd z : Id} {is : List (Init V)} (A : Agrees w a) (rc : Reach w) (l : w.Legal (.new hd z is)) (s : w.step (.new hd z is) = .ok (w1, r)) :
    Good w1 r (a.step (.new hd z is)) := by
  obtain ⟨w2, c, q, -, q1, -, -, q2, q3, q4, q5, q6⟩ := eff_new rc l
  rw [q] at s; cases s
  refine ⟨_, _, none, rfl, A.append q1 (looks_empty q3 ?_) (by rw [q5]; exact A.val) q6, rfl, fun q hq => nomatch hq⟩
  rw [q4]; intro xs h; obtain ⟨_, _, rfl⟩ := List.mem_map.1 h; rfl

theorem ideal_newLike {hd z : Id} {pol : Pol} {e : Nat → Env} {F : CopyFault} (A : Agrees w a) (I : Inv w) (l : w.Legal (.newLike i hd z pol e F))
    (s : w.step (.newLike i hd z pol e F) = .ok (w1, r)) : Good w1 r (a.step (.newLike i hd z pol e F)) := by
  rcases eff_newLike I l with ⟨w2, c, c1, q, hi, -, q1, q6, q5, -, q3, q2, q4⟩ | ⟨c, q, -⟩ <;> rw [q] at s <;> cases s
  obtain ⟨b, hb, L⟩ := A.box hi
  refine ⟨_, _, none, by simp only [State.step, hb]; rfl, A.append q1 (looks_empty (by rw [q3, L.asked]) ?_) (by rw [q5]; exact A.val) q6, rfl, fun q hq => nomatch hq⟩
  rw [q4]; intro xs h; obtain ⟨_, _, rfl⟩ := List.mem_map.1 h; rfl

theorem Shows.map {S : Spec V} {xs ys : List Id} {κ κ' : Id → Id} (sh : Shows xs ys S) (h : ∀ z ∈ xs, κ' z = κ z) : Shows (xs.map κ') (ys.map κ) S := by
  rw [List.map_congr_left h]
  cases S with
  | hash n eq hf => exact List.Perm.map κ sh
  | ord => exact congrArg _ sh
  | seq => exact congrArg _ sh
  | rnd => exact congrArg _ sh

theorem ideal_copy {hd z : Id} {ns : List Id} {e : Nat → Env} {F : CopyFault} (A : Agrees w a) (I : Inv w) (l : w.Legal (.copy i hd z ns e F))
    (cv : a.Covers (.copy i hd z ns e F)) (s : w.step (.copy i hd z ns e F) = .ok (w1, r)) : Good w1 r (a.step (.copy i hd z ns e F)) := by
  obtain ⟨-, -, -, nd, fr, -⟩ := id l
  rcases eff_copy I l with ⟨w2, c, c1, q, hi, -, Q⟩ | ⟨w2, c, q, -⟩ <;> rw [q] at s <;> cases s
  obtain ⟨b, hb, L⟩ := A.box hi
  obtain ⟨κ, e1, e2⟩ := Q.clone
  have ne := asked_ne (I.facts hi).2.1
  cases b with
  | nil => exact absurd L.asked.symm ne
  | cons p b =>
    obtain ⟨S, xs⟩ := p
    obtain ⟨-, ys, hy, sh⟩ := L.index (k := 0) (S := S) (xs := xs) rfl
    have ex : xs = c.elems := by
      have : c.elems = ys := by unfold Container.elems; rw [List.headD_eq_head?_getD, List.head?_eq_getElem?, hy]; rfl
      rw [this]
      cases S with
      | hash n eq hf => exact absurd hb (cv n eq hf xs b)
      | ord => exact sh.symm
      | seq => exact sh.symm
      | rnd => exact sh.symm
    have ndx : xs.Nodup := by rw [ex]; exact (List.nodup_cons.1 (I.facts hi).2.1.nodup).2
    have ndn := (List.nodup_cons.1 nd).2
    have hκ : ∀ z ∈ c.elems, ns.getD (xs.idxOf z) z = κ z := fun z hz => by
      rw [← ex] at hz
      have hl := List.idxOf_lt_length_of_mem hz
      rw [← e2, ← ex, List.getD_eq_getElem?_getD, List.getElem?_map, List.getElem?_eq_getElem hl, List.getElem_idxOf hl]
      rfl
    have hκ' : ∀ z ∈ c.elems, xs.getD (ns.idxOf (κ z)) (κ z) = z := fun z hz => by
      obtain ⟨n, hn⟩ := List.mem_iff_getElem?.1 hz
      have h2 : ns[n]? = some (κ z) := by rw [← e2, List.getElem?_map, hn]; rfl
      obtain ⟨hl, h3⟩ := List.getElem?_eq_some_iff.1 h2
      have : ns.idxOf (κ z) = n := by rw [← h3]; exact List.Nodup.idxOf_getElem ndn n hl
      rw [this, List.getD_eq_getElem?_getD, ex, hn]
      rfl
    have va : ∀ z ∈ c.elems, w1.m.val (κ z) = w.m.val z := by
      have := congrArg (·[0]?) Q.vals
      simp only [e1, List.getElem?_map, hy, Option.map_some, Option.some.injEq] at this
      intro z hz
      exact map_vals this z (sh.perm.mem_iff.2 (ex ▸ hz))
    refine ⟨_, _, none, by simp only [State.step, State.copy, hb, Option.map_some]; rfl, A.append Q.cs ?_ ?_ Q.hs, rfl, fun q hq => nomatch hq⟩
    · refine looks_of L (fun p => (p.1, p.2.map fun z => ns.getD (xs.idxOf z) z)) Q.asked (fun _ => rfl) fun k S xs ys ys1 q1 q2 q3 sh => ?_
      rw [e1, List.getElem?_map, q2] at q3
      cases q3
      exact sh.map fun z hz => hκ z ((L.known I hi q1 q2).perm.mem_iff.1 hz)
    · intro z hz
      rw [Q.cons, List.mem_append, List.mem_reverse] at hz
      show (if z ∈ ns then _ else _) = _
      by_cases hn : z ∈ ns
      · rw [if_pos hn]
        obtain ⟨u, hu, rfl⟩ := List.mem_map.1 (e2 ▸ hn)
        rw [hκ' u hu, va u hu]
        exact A.val u (I.elem_cons (List.mem_of_getElem? hi) hu)
      · rw [if_neg hn]
        have hz := hz.resolve_left hn
        rw [Q.val z (I.cons_sub hz)]
        exact A.val z hz

/-! ## Rearrangements -/

theorem idxOf_at {hd p : Id} {s t : List Id} (nd : (hd :: (s ++ t)).Nodup) (h : p = t.headD hd) : (s ++ t).idxOf p = s.length := by
  obtain ⟨n1, n2⟩ := List.nodup_cons.1 nd
  cases t with
  | nil =>
    have h : p = hd := h
    subst h
    rw [List.append_nil] at n1 ⊢
    exact List.idxOf_of_notMem n1
  | cons y t =>
    have h : p = y := h
    subst h
    rw [List.idxOf_append_of_notMem (List.disjoint_of_nodup_append n2 |> fun q h => q h List.mem_cons_self)]
    simp

theorem shows_plain {S : Spec V} {L : Layer V} {xs ys : List Id} (kd : L.keyed = false) : Shows xs ys L.spec ↔ ys = xs := by
  cases L with
  | ord => exact nomatch kd
  | hash => exact nomatch kd
  | seq => exact Iff.rfl
  | rnd => exact Iff.rfl

/-- The order of one index has changed. -/
theorem reordered {f : Spec V → List Id → Option (List Id)} {S : Spec V} {xs xs1 : List Id} (A : Agrees w a) (I : Inv w) (o : OnlyAt w w1 i c c1) (hS : c.asked[k]? = some S)
    (m : w1.m = w.m) (hs : w1.hs = w.hs) (h2 : c.seqs[k]? = some xs) (e : c1.seqs = c.seqs.set k xs1)
    (hf : ∀ b xs', a.boxes[i]? = some b → b[k]? = some (S, xs') → Shows xs' xs S → ∃ ys, f S xs' = some ys ∧ Shows ys xs1 S) :
    ∃ a1, a.reorder i k f = some a1 ∧ Agrees w1 a1 := by
  obtain ⟨b, hb, Lk⟩ := A.box o.pre
  obtain ⟨xs', hx⟩ := Lk.index' hS
  obtain ⟨ys', hy, sh⟩ := hf b xs' hb hx (Lk.seqs k _ _ _ hx h2)
  refine ⟨_, by simp only [State.reorder, hb, hx, hy]; rfl, A.put I o.cs rfl ⟨?_, fun n S zs ys q1 q2 => ?_⟩ (by rw [m]; exact A.val) (by rw [hs]; exact A.hs)⟩
  · rw [List.map_set, o.asked, Lk.asked]
    exact set_same hS
  · rw [e] at q2
    by_cases q : k = n
    · subst q
      rw [List.getElem?_set_self (List.getElem?_eq_some_iff.1 hx).1] at q1
      rw [List.getElem?_set_self (List.getElem?_eq_some_iff.1 h2).1] at q2
      cases q1; cases q2
      exact sh
    · rw [List.getElem?_set_ne q] at q1 q2
      exact Lk.seqs n S zs ys q1 q2

theorem asked_layer {L : Layer V} (hL : c.ls[k]? = some L) : c.asked[k]? = some L.spec := by rw [Container.asked, List.getElem?_map, hL]; rfl

theorem ideal_relocate {pos : Id} (A : Agrees w a) (I : Inv w) (l : w.Legal (.relocate i k pos x)) (s : w.step (.relocate i k pos x) = .ok (w1, r)) :
    Good w1 r (a.step (.relocate i k pos x)) := by
  obtain ⟨w2, c, c1, q, o, m, hs, hc, xs, xs1, h2, e, pm, pb, -⟩ := eff_relocate I l
  rw [q] at s; cases s
  obtain ⟨c', L, hi, hL, kd, hx, -⟩ := l
  obtain rfl := Option.some.inj (hi.symm.trans o.pre)
  have nd := I.seq_nodup hi h2
  have : putBefore pos x xs = xs1 := by
    unfold putBefore
    rcases pb with ⟨b1, b2⟩ | ⟨b1, u, t, b2, b3, b4⟩
    · rw [if_pos b1, b2]
    · rw [if_neg b1]
      simp only [b2]
      have nd' : (c'.hd :: (u ++ t)).Nodup := by
        rw [← b2]
        exact List.Nodup.sublist (List.Sublist.cons_cons _ List.erase_sublist) nd
      rw [idxOf_at nd' b4.symm, b3]
      simp
  obtain ⟨a1, e1, A1⟩ := reordered (f := fun _ xs => some (putBefore pos x xs)) A I o (asked_layer hL) m hs h2 e fun b xs' _ _ sh => by
    obtain rfl := (shows_plain (S := L.spec) kd).1 sh
    exact ⟨_, rfl, (shows_plain (S := L.spec) kd).2 this.symm⟩
  exact ⟨a1, true, some x, by simp only [State.step, e1, Option.map_some], A1, rfl, fun q hq => by cases hq; rfl⟩

theorem does_eq {S : Spec V} {u : Rearr V} {hd : Id} {xs xs1 : List Id} (nd : (hd :: xs).Nodup) (dd : u.Does hd w.m.val S xs xs1) (hv : ∀ z ∈ xs, a.val z = w.m.val z)
    (pm : xs1.Perm xs) (hb : a.boxes[i]? = some b) (hx : b[k]? = some (S, xs)) (cv : a.Covers (.rearrange i k u)) : rearrange a.val xs u = some xs1 := by
  cases u <;> try exact cv.elim
  · obtain ⟨u, blk, t, s, t2, e1, e2, at1, at2, at3, rfl⟩ := dd
    subst e1
    have n1 : (hd :: (u ++ (blk ++ t))).Nodup := by rw [← List.append_assoc]; exact nd
    have i1 := idxOf_at n1 at2
    have i2 := idxOf_at nd at3
    rw [← List.append_assoc] at i1
    have n3 : (hd :: (s ++ t2)).Nodup := by
      rw [← e2]
      refine List.Nodup.sublist ?_ n1
      exact List.Sublist.cons_cons _ ((List.Sublist.refl _).append (List.sublist_append_right _ _))
    have i3 := idxOf_at n3 at1
    have t1 : (u ++ blk ++ t).take u.length = u := by rw [List.append_assoc]; exact List.take_left
    have t2' : (u ++ blk ++ t).drop (u ++ blk).length = t := List.drop_left
    have t3 : (u ++ blk ++ t).take (u ++ blk).length = u ++ blk := List.take_left
    simp only [rearrange, i1, i2, t1, t2', t3, e2, i3, List.take_left, List.drop_left]
  · exact congrArg some (Eq.symm dd)
  · exact congrArg some (Eq.symm dd)
  · obtain ⟨s, t, rfl, at1, rfl⟩ := dd
    simp only [rearrange, idxOf_at nd at1, List.take_left, List.drop_left]
  · rename_i cmp carry cid ssort
    obtain ⟨lt, sw, hl, cv⟩ := cv
    have cv := cv b S xs hb hx
    have sw' : StrictWeak (fun x y => lt (a.val x) (a.val y)) := sw.comap a.val
    have fin : Sorted (fun x y => lt (a.val x) (a.val y)) xs1 → StableOf (fun x y => lt (a.val x) (a.val y)) xs xs1 → rearrange a.val xs (.sort cmp carry cid ssort) = some xs1 := fun h1 h2 => by
      simp only [rearrange, hl, Option.some.injEq, Bool.decide_eq_true]
      exact (sort_eq sw' h1 h2).symm
    have other : (∀ ys, ssort xs = some ys → Sorted (fun x y => lt (a.val x) (a.val y)) ys ∧ StableOf (fun x y => lt (a.val x) (a.val y)) xs ys) →
        (xs.length ≤ 1 ∧ xs1 = xs ∨ ssort xs = some xs1) → rearrange a.val xs (.sort cmp carry cid ssort) = some xs1 := fun cv dd => by
      rcases dd with ⟨d1, rfl⟩ | d1
      · refine fin ?_ fun _ => rfl
        match xs1, d1 with
        | [], _ => exact List.Pairwise.nil
        | [x], _ => exact List.pairwise_singleton _ _
      · exact fin (cv _ d1).1 (cv _ d1).2
    cases S with
    | seq =>
      refine fin ?_ (stable_of_distinct (List.nodup_cons.1 nd).2 pm (fun x hx y hy e => cv x hx y hy e) sw')
      have dd : Sorted _ xs1 := dd lt sw hl
      refine List.Pairwise.imp_of_mem (fun {p q} hp hq e => ?_) dd
      show lt (a.val q) (a.val p) = false
      rw [hv p (pm.mem_iff.1 hp), hv q (pm.mem_iff.1 hq)]
      exact e
    | ord => exact other cv dd
    | hash => exact other cv dd
    | rnd => exact other cv dd
  · exact congrArg some (Eq.symm dd)
  · exact congrArg some (Eq.symm dd)
  · rename_i n cmp fail
    obtain ⟨lt, hl⟩ := cv
    simp only [rearrange, hl, Option.some.injEq, Bool.decide_eq_true]
    have dd : Merges _ 0 (xs.take n) (xs.drop n) xs1 := dd
    refine (merge_merges (ask := fun t y x => cmp t (a.val y) (a.val x)) (fun t y x => hl t _ _) (merges_congr dd fun t y hy x hx => ?_)).symm
    rw [hv y (List.mem_of_mem_drop hy), hv x (List.mem_of_mem_take hx)]

theorem ideal_rearrange {u : Rearr V} (A : Agrees w a) (I : Inv w) (l : w.Legal (.rearrange i k u)) (cv : a.Covers (.rearrange i k u))
    (s : w.step (.rearrange i k u) = .ok (w1, r)) : Good w1 r (a.step (.rearrange i k u)) := by
  obtain ⟨w2, c, c1, S, xs, xs1, o, m, hs, hc, hS, h2, e, pm, -, dd⟩ := eff_rearrange I l
  rcases dd with ⟨q, dd⟩ | ⟨q, -⟩ <;> rw [q] at s <;> cases s
  obtain ⟨c', L, xs', hi, hL, kd, -⟩ := l
  obtain rfl := Option.some.inj (hi.symm.trans o.pre)
  obtain rfl := Option.some.inj (hS.symm.trans (asked_layer hL))
  obtain ⟨b, hb, Lk⟩ := A.box hi
  obtain ⟨a1, e1, A1⟩ := reordered (f := fun _ xs => rearrange a.val xs u) A I o hS m hs h2 e fun b' xs' hb' hx sh => by
    obtain rfl := (shows_plain (S := L.spec) kd).1 sh
    obtain rfl := Option.some.inj (hb.symm.trans hb')
    have kn := Lk.known I hi hx h2
    exact ⟨xs1, does_eq (I.seq_nodup hi h2) dd (fun z hz => A.val z (kn.cons z hz)) pm hb hx cv, (shows_plain (S := L.spec) kd).2 rfl⟩
  exact ⟨a1, true, none, by simp only [State.step, e1, Option.map_some], A1, rfl, fun q hq => nomatch hq⟩

/-- The instructions of an archive have the same effect on an index and on its ideal. -/
theorem moves_same {S : Spec V} {xs xs' : List Id} {ins : List (Option Id × Id)} (hv : ∀ z ∈ xs, a.val z = w.m.val z) (hi : ∀ p ∈ ins, p.2 ∈ xs ∧ ∀ q ∈ p.1, q ∈ xs)
    (sh : Shows xs' xs S) : Shows (S.moves a.val xs' ins).1 (S.moves w.m.val xs ins).1 S ∧ (S.moves a.val xs' ins).2 = (S.moves w.m.val xs ins).2 := by
  have go : ∀ {xs' : List Id}, xs = xs' → S.moves a.val xs' ins = S.moves w.m.val xs ins := fun e => by
    subst e
    exact moves_congr (Q := (· ∈ xs)) hv (fun _ h => h) hi
  cases S with
  | hash => rw [moves_still _ _ (fun _ _ _ => rfl), moves_still _ _ (fun _ _ _ => rfl)]; exact ⟨sh, rfl⟩
  | ord => rw [go sh]; exact ⟨rfl, rfl⟩
  | seq => rw [go sh]; exact ⟨rfl, rfl⟩
  | rnd => rw [go sh]; exact ⟨rfl, rfl⟩

theorem ideal_place {fail : Bool} {ins : List (Option Id × Id)} (A : Agrees w a) (I : Inv w) (l : w.Legal (.place i k fail ins))
    (s : w.step (.place i k fail ins) = .ok (w1, r)) : Good w1 r (a.step (.place i k fail ins)) := by
  obtain ⟨w2, c, c1, S, xs, xs1, o, m, hs, hc, hS, h2, e, pm, -, dd⟩ := eff_place I l
  rcases dd with ⟨q, dd⟩ | ⟨q, -⟩ <;> rw [q] at s <;> cases s
  obtain ⟨c', L, hi, hL, ok⟩ := l
  obtain rfl := Option.some.inj (hi.symm.trans o.pre)
  obtain ⟨b, hb, Lk⟩ := A.box hi
  obtain ⟨a1, e1, A1⟩ := reordered (f := fun S xs => some (S.moves a.val xs ins).1) A I o hS m hs h2 e fun b' xs' hb' hx sh => by
    obtain rfl := Option.some.inj (hb.symm.trans hb')
    have kn := Lk.known I hi hx h2
    obtain ⟨g1, -⟩ := moves_same (ins := ins) (fun z hz => A.val z (kn.cons z hz)) (fun p hp => ⟨kn.perm'.mem_iff.2 (ok p hp).1, fun q hq => kn.perm'.mem_iff.2 ((ok p hp).2 q hq).1⟩) sh
    rw [dd] at g1
    exact ⟨_, rfl, g1⟩
  exact ⟨a1, true, none, by simp only [State.step, e1, Option.map_some], A1, rfl, fun q hq => nomatch hq⟩

theorem ideal_place_throws {fail : Bool} {ins : List (Option Id × Id)} (A : Agrees w a) (I : Inv w) (l : w.Legal (.place i k fail ins)) (cv : a.Covers (.place i k fail ins))
    (s : w.step (.place i k fail ins) = .threw (w1, r)) : ∃ a1, a.fail (.place i k fail ins) = some a1 ∧ Agrees w1 a1 := by
  obtain ⟨w2, c, c1, S, xs, xs1, o, m, hs, hc, hS, h2, e, pm, -, dd⟩ := eff_place I l
  rcases dd with ⟨q, -⟩ | ⟨q, dd⟩ <;> rw [q] at s <;> cases s
  obtain ⟨c', L, hi, hL, ok⟩ := l
  obtain rfl := Option.some.inj (hi.symm.trans o.pre)
  obtain ⟨b, hb, Lk⟩ := A.box hi
  refine reordered (f := fun S xs => some (if (S.moves a.val xs ins).2 then xs else (S.moves a.val xs ins).1)) A I o hS m hs h2 e fun b' xs' hb' hx sh => ?_
  obtain rfl := Option.some.inj (hb.symm.trans hb')
  have kn := Lk.known I hi hx h2
  obtain ⟨g1, g2⟩ := moves_same (ins := ins) (fun z hz => A.val z (kn.cons z hz)) (fun p hp => ⟨kn.perm'.mem_iff.2 (ok p hp).1, fun q hq => kn.perm'.mem_iff.2 ((ok p hp).2 q hq).1⟩) sh
  rcases dd with dd | ⟨rfl, rfl⟩
  · rw [dd] at g1 g2
    refine ⟨_, rfl, ?_⟩
    rw [if_neg (by rw [g2]; simp)]
    exact g1
  · obtain rfl := cv rfl b S xs' hb hx
    refine ⟨_, rfl, ?_⟩
    rw [if_pos (by rw [g2, moves_fold])]
    exact sh

theorem ideal_rehash {n : Nat} {e : Env} (A : Agrees w a) (I : Inv w) (l : w.Legal (.rehash i k n e)) (s : w.step (.rehash i k n e) = .ok (w1, r)) :
    Good w1 r (a.step (.rehash i k n e)) := by
  obtain ⟨w2, q | ⟨q, -⟩, -, u⟩ := eff_rehash I l <;> rw [q] at s <;> cases s
  exact ⟨a, true, none, rfl, unchanged A I u, rfl, fun q hq => nomatch hq⟩

/-! ## All operations -/

theorem ideal_returns {o : Op V} (A : Agrees w a) (rc : Reach w) (l : w.Legal o) (cv : a.Covers o) (s : w.step o = .ok (w1, r)) : Good w1 r (a.step o) := by
  have I := rc.inv
  cases o with
  | new => exact ideal_new A rc l s
  | insert => exact ideal_insert (em := false) A I l s
  | emplace => exact ideal_insert (em := true) A I l s
  | extract => exact ideal_extract A I l s
  | insertNh => exact ideal_insertNh A I l s
  | dropHandle => exact ideal_dropHandle A I s
  | moveHandle => exact ideal_moveHandle A I s
  | newHandle => exact ideal_newHandle A s
  | swapHandles => exact ideal_swapHandles A s
  | erase => exact ideal_erase A I l s
  | clear => exact ideal_clear A I l s
  | destroy => exact ideal_destroy A I l s
  | replace => exact ideal_replace A I l s
  | modify => exact ideal_modify A I l s
  | modifyRb => exact ideal_modifyRb A I l cv s
  | transfer => exact ideal_transfer A I l s
  | swap => exact ideal_swap A l s
  | swapElements => exact ideal_swapElements A l s
  | copy => exact ideal_copy A I l cv s
  | newLike => exact ideal_newLike A I l s
  | relocate => exact ideal_relocate A I l s
  | rearrange => exact ideal_rearrange A I l cv s
  | rehash => exact ideal_rehash A I l s
  | place => exact ideal_place A I l s

theorem lost_fail (A : Agrees w a) (I : Inv w) (lo : Lost w w1 i x) (dl : Deleted w w1 x) : ∃ a1, a.leave i x = some a1 ∧ Agrees w1 a1 := by
  obtain ⟨b, hb, e, k⟩ := lost A I lo
  exact ⟨_, e, k (deleted_val A lo.1 dl) _ (by rw [dl.hs]; exact A.hs)⟩

theorem ideal_throws {o : Op V} (A : Agrees w a) (rc : Reach w) (l : w.Legal o) (cv : a.Covers o) (s : w.step o = .threw (w1, r)) :
    ∃ a1, a.fail o = some a1 ∧ Agrees w1 a1 := by
  have I := rc.inv
  cases o with
  | new => obtain ⟨w2, c, q, -⟩ := eff_new rc l; rw [q] at s; cases s
  | insert =>
    rcases eff_insert I l with ⟨w2, q, -⟩ | ⟨w2, y, q, -⟩ | ⟨w2, q, u, -⟩ <;> rw [q] at s <;> cases s
    exact ⟨a, rfl, unchanged A I u⟩
  | emplace =>
    rcases eff_emplace I l with ⟨w2, q, -⟩ | ⟨w2, y, q, -⟩ | ⟨w2, q, u, -⟩ <;> rw [q] at s <;> cases s
    exact ⟨a, rfl, unchanged A I u⟩
  | extract => obtain ⟨w2, q, -⟩ := eff_extract I l; rw [q] at s; cases s
  | insertNh i h hint e =>
    obtain ⟨c, hi, hl, -⟩ := id l
    have hw : w.hs[h]? = some w.hs[h] := List.getElem?_eq_getElem hl
    generalize w.hs[h] = nh at hw
    cases nh with
    | none =>
      have e1 : w.step (.insertNh i h hint e) = .ok (⟨w.m, w.cs.set i c, w.hs.set h none⟩, ⟨c.hd, false⟩) := by
        simp only [World.step, hi, hw, Container.insertNh]
      rw [e1] at s; cases s
    | some x =>
      rcases eff_insertNh I l hw with ⟨w2, q, -⟩ | ⟨w2, y, q, -⟩ | ⟨w2, q, u, -⟩ <;> rw [q] at s <;> cases s
      exact ⟨a, rfl, unchanged A I u⟩
  | dropHandle h =>
    simp only [World.step] at s
    split at s <;> try cases s
    split at s <;> cases s
  | moveHandle h =>
    simp only [World.step] at s
    split at s <;> try cases s
    split at s <;> try cases s
    split at s <;> cases s
  | newHandle => cases s
  | swapHandles =>
    simp only [World.step] at s
    split at s <;> cases s
  | erase => obtain ⟨w2, q, -⟩ := eff_erase I l; rw [q] at s; cases s
  | clear => obtain ⟨w2, c, c', q, -⟩ := eff_clear I l; rw [q] at s; cases s
  | destroy => obtain ⟨w2, c, q, -⟩ := eff_destroy I l; rw [q] at s; cases s
  | replace =>
    rcases eff_replace I l with ⟨w2, q, -⟩ | ⟨w2, q, -⟩ | ⟨w2, q, u, -⟩ <;> rw [q] at s <;> cases s
    exact ⟨a, rfl, identical A I u⟩
  | modify =>
    rcases eff_modify I l with ⟨w2, q, -⟩ | ⟨w2, q, -⟩ | ⟨w2, _, q, lo, dl, -⟩ <;> rw [q] at s <;> cases s
    exact lost_fail A I lo dl
  | modifyRb =>
    rcases eff_modifyRb I l with ⟨w2, q, -⟩ | ⟨w2, q, -⟩ | ⟨w2, q, -⟩ | ⟨w2, _, q, lo, dl, -⟩ <;> rw [q] at s <;> cases s
    exact lost_fail A I lo dl
  | transfer =>
    rcases eff_transfer I l with ⟨w2, q, -⟩ | ⟨w2, y, q, -⟩ | ⟨w2, q, u, -⟩ <;> rw [q] at s <;> cases s
    exact ⟨a, rfl, unchanged A I u⟩
  | swap =>
    obtain ⟨ci, cj, hi, hj, k⟩ := l
    rw [eff_swap hi hj k] at s; cases s
  | swapElements =>
    obtain ⟨ci, cj, hi, hj, k⟩ := l
    rw [eff_swapElements hi hj k] at s; cases s
  | copy =>
    rcases eff_copy I l with ⟨w2, c, c1, q, -⟩ | ⟨w2, c, q, -, -, h1, h2, -, h4, h5⟩ <;> rw [q] at s <;> cases s
    exact ⟨a, rfl, fun z hz => by rw [h4] at hz; rw [h5 z (I.cons_sub hz)]; exact A.val z hz, by rw [h2]; exact A.hs, by rw [h1]; exact A.len, by rw [h1]; exact A.boxes⟩
  | newLike =>
    rcases eff_newLike I l with ⟨w2, c, c1, q, -⟩ | ⟨c, q, -⟩ <;> rw [q] at s <;> cases s
    exact ⟨a, rfl, A⟩
  | relocate => obtain ⟨w2, c, c1, q, -⟩ := eff_relocate I l; rw [q] at s; cases s
  | rearrange i k u =>
    obtain ⟨w2, c, c1, S, xs, xs1, o, m, hs, hc, hS, h2, e, pm, -, dd⟩ := eff_rearrange I l
    rcases dd with ⟨q, -⟩ | ⟨q, dd⟩ <;> rw [q] at s <;> cases s
    have key : xs1 = xs → Agrees w1 a := fun q => by
      obtain ⟨b, hb, L⟩ := A.box o.pre
      rw [q, set_same h2] at e
      exact A.put I o.cs (b1 := b) (by rw [set_same hb]) ⟨by rw [o.asked]; exact L.asked, by rw [e]; exact L.seqs⟩ (by rw [m]; exact A.val) (by rw [hs]; exact A.hs)
    cases u with
    | sort =>
      obtain ⟨lt, -, hl, -⟩ := cv
      rcases dd with ⟨-, t, v, v', d⟩ | ⟨-, -, d⟩
      · rw [hl] at d; exact nomatch d
      · exact ⟨a, rfl, key d⟩
    | _ => first | exact cv.elim | exact dd.elim | exact ⟨a, rfl, key dd.2⟩
  | rehash =>
    obtain ⟨w2, q | ⟨q, -⟩, -, u⟩ := eff_rehash I l <;> rw [q] at s <;> cases s
    exact ⟨a, rfl, unchanged A I u⟩
  | place => exact ideal_place_throws A I l cv s

theorem Follows.reach (f : Follows w a) : Reach w ∧ Agrees w a := by
  induction f with
  | init val val' => exact ⟨.init val, fun z hz => absurd hz List.not_mem_nil, rfl, rfl, fun i c b h => absurd h (by simp)⟩
  | returns _ l cv s s' ih =>
    refine ⟨ih.1.ok l s, ?_⟩
    obtain ⟨a2, b, p, e, A, -⟩ := ideal_returns ih.2 ih.1 l cv s
    rw [s'] at e; cases e
    exact A
  | throws _ l cv s s' ih =>
    refine ⟨ih.1.threw l s, ?_⟩
    obtain ⟨a2, e, A⟩ := ideal_throws ih.2 ih.1 l cv s
    rw [s'] at e; cases e
    exact A

end MI.Ideal
