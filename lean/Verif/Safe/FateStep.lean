import Verif.Safe.Fate
/-!
Every legal operation of the library keeps the registry in order and does to the iterators what is specified.
-/
set_option linter.unusedVariables false
set_option linter.unusedSimpArgs false
namespace MI.Safe
open MI MI.Cont
variable {V : Type}

theorem zip_fst {α β : Type} : ∀ {l : List α} {m : List β}, (l.zip m).map (·.1) = l.take m.length
  | [], m => by simp
  | a :: l, [] => by simp
  | a :: l, b :: m => by simpa using zip_fst

section
variable {s : State V} {o : Op V} {w' : World V} {r' : Reg}

theorem shape_transfer {w w' : World V} {sid : List (List Nat)} {i j : Nat} {c c' d d' : Container V} (S : Shape w sid) (ij : i ≠ j) (hi : w.cs[i]? = some c) (hj : w.cs[j]? = some d)
    (h1 : c'.ls.length = c.ls.length) (h2 : d'.ls.length = d.ls.length) (h : w'.cs = (w.cs.set i c').set j d') : Shape w' sid := by
  have S1 : Shape (⟨w.m, w.cs.set i c', w.hs⟩ : World V) sid := shape_at S hi rfl h1
  have hj' : (⟨w.m, w.cs.set i c', w.hs⟩ : World V).cs[j]? = some d := by
    show (w.cs.set i c')[j]? = _
    rw [List.getElem?_set_ne ij]; exact hj
  exact shape_at S1 hj' h h2

theorem lib_transfer {i j : Nat} {x : Id} {e : Nat → Env} {c d : Container V} {t : Tmp} {n : Nat} {hd : Id} (I : SInv s) (ij : i ≠ j) (hi : s.w.cs[i]? = some c) (hj : s.w.cs[j]? = some d)
    (hl : d.ls.length = c.ls.length) (H : Handed s.w w' i j x) (nz : 0 ∉ [t.a, t.b, t.c]) (nd : [t.a, t.b, t.c].Nodup) (hn : ∀ y ∈ [t.a, t.b, t.c], y ∉ s.live)
    (hb : s.live.length + 3 < n) :
    ∃ r', transferR n t hd x ((s.sid.getD j []).zip ((s.sid.getD i []).zip (List.zipWith sameIter d.ls c.ls))) s.reg = some r' ∧ Rep r' s.live ∧ Shape w' s.sid ∧
      LibOk s (.transfer i j x e) w' s.sid r' := by
  obtain ⟨-, -, c1, c', d1, d', g1, g2, g3, g4, g5, g6, g7, g8, -, -, g9, g10⟩ := H
  obtain rfl := Option.some.inj (hi.symm.trans g1)
  obtain rfl := Option.some.inj (hj.symm.trans g2)
  have S := I.shape
  have li := (List.getElem?_eq_some_iff.1 hi).1
  have lj := (List.getElem?_eq_some_iff.1 hj).1
  have ri := S.row i _ hi
  have rj := S.row j _ hj
  generalize hss : s.sid.getD j [] = ss at *
  generalize htt : s.sid.getD i [] = tt at *
  have mem : ∀ p ∈ ss.zip (tt.zip (List.zipWith sameIter d.ls c.ls)), p.1 ∈ ss ∧ p.2.1 ∈ tt := by
    intro p hp
    obtain ⟨a, b, b'⟩ := p
    have := List.of_mem_zip hp
    exact ⟨this.1, (List.of_mem_zip this.2).1⟩
  have z1 : ∀ a ∈ ss, a ∈ s.sid.flatten := fun a ha => mem_row (i := j) (hss ▸ ha)
  have z2 : ∀ a ∈ tt, a ∈ s.sid.flatten := fun a ha => mem_row (i := i) (htt ▸ ha)
  have dj : ∀ a ∈ ss, a ∉ tt := fun a h1 h2 => ij (rows_disj S.nodup (htt ▸ h2) (hss ▸ h1))
  obtain ⟨r', k1, k2, k3⟩ := transferR_spec (hd := hd) (x := x) nz nd hn hb I.rep (l := ss.zip (tt.zip (List.zipWith sameIter d.ls c.ls)))
    (fun p hp => ⟨fun k => S.nz (k ▸ z1 _ (mem p hp).1), fun k => S.nz (k ▸ z2 _ (mem p hp).2)⟩)
    (by rw [zip_fst]; exact (hss ▸ row_nodup S.nodup j).sublist (List.take_sublist _ _))
    (fun p hp q hq k => dj _ (mem p hp).1 (k ▸ (mem q hq).2))
  refine ⟨r', k1, k2.rep, shape_transfer S ij hi hj (asked_len g4) (asked_len g6) g3, k2.node, k2.unchecked, fun y hy h0 => ?_, fun y hy a k L => ?_⟩
  · rw [(k3 y hy).2 (Or.inl fun p hp k => S.nz (by rw [← h0, k]; exact z1 _ (mem p hp).1)), h0]
  · have hm := L.mem
    obtain ⟨b, h1, h2, h3⟩ := L
    have hc' : w'.cs[i]? = some c' := by rw [g3, List.getElem?_set_ne (Ne.symm ij), List.getElem?_set_self li]
    have hd' : w'.cs[j]? = some d' := by rw [g3, List.getElem?_set_self (by simpa using lj)]
    obtain ⟨T, -, ad⟩ := each_head g9 (asked_ne (I.inv.facts hi).2.1)
    have hx : x ∈ c'.elems := by
      obtain ⟨u, v, e1, -⟩ := ad
      show x ∈ c'.seqs.headD []
      rw [e1]; simp
    have ndd := List.nodup_cons.1 (I.inv.facts hj).2.1.nodup
    by_cases e1 : s.reg.node y = x
    · have ja : j = a := owner I.inv hj h1 (by unfold Has; simp [g8]) (e1 ▸ h3)
      subst ja
      obtain rfl := Option.some.inj (hj.symm.trans h1)
      rw [hss] at h2
      have kl : k < d.ls.length := by rw [← rj]; exact (List.getElem?_eq_some_iff.1 h2).1
      have kc : k < c.ls.length := hl ▸ kl
      have kt : k < tt.length := ri ▸ kc
      have hp : (s.reg.cont y, tt[k], sameIter d.ls[k] c.ls[k]) ∈ ss.zip (tt.zip (List.zipWith sameIter d.ls c.ls)) := by
        refine List.mem_iff_getElem?.2 ⟨k, ?_⟩
        rw [List.getElem?_zip_eq_some]
        refine ⟨h2, ?_⟩
        rw [List.getElem?_zip_eq_some]
        refine ⟨List.getElem?_eq_getElem kt, ?_⟩
        rw [List.getElem?_zipWith, List.getElem?_eq_getElem kl, List.getElem?_eq_getElem kc]
      have q := (k3 y hy).1 _ hp rfl e1
      dsimp only at q
      cases hsame : sameIter d.ls[k] c.ls[k] with
      | true =>
        rw [hsame, if_pos rfl] at q
        left
        refine ⟨⟨i, c', hc', ?_, ?_⟩, ?_⟩
        · rw [htt, q]; exact List.getElem?_eq_getElem kt
        · rw [k2.node y hy, e1]; unfold Has; simp [hx]
        · rintro ⟨i2, j2, e2, cc, dd, cc', LL, MM, q1, q2, q3, q4, q5, q6, q7, q8⟩
          cases q1
          obtain rfl := Option.some.inj (hi.symm.trans q2)
          obtain rfl := Option.some.inj (hj.symm.trans q3)
          rw [List.getElem?_eq_getElem kc] at q6
          rw [List.getElem?_eq_getElem kl] at q7
          obtain rfl := Option.some.inj q6
          obtain rfl := Option.some.inj q7
          rw [hsame] at q8
          exact nomatch q8
      | false =>
        rw [hsame] at q
        right
        refine ⟨q, Or.inr ⟨i, j, e, c, d, c', c.ls[k], d.ls[k], by rw [e1], hi, hj, hc', by rw [e1]; exact hx, List.getElem?_eq_getElem kc, List.getElem?_eq_getElem kl, hsame⟩⟩
    · have q := (k3 y hy).2 (Or.inr e1)
      left
      refine ⟨⟨a, ?_⟩, ?_⟩
      · unfold Located
        rw [q, k2.node y hy]
        by_cases ia : i = a
        · subst ia
          obtain rfl := Option.some.inj (hi.symm.trans h1)
          refine ⟨c', hc', h2, ?_⟩
          unfold Has at *
          rw [g5]
          rw [List.mem_cons] at *
          exact h3.imp id fun h => ad.mem h
        · by_cases ja : j = a
          · subst ja
            obtain rfl := Option.some.inj (hj.symm.trans h1)
            refine ⟨d', hd', h2, ?_⟩
            unfold Has at *
            rw [g7, lost_elems g10]
            rw [List.mem_cons] at *
            exact h3.imp id fun h => (List.mem_erase_of_ne e1).2 h
          · exact ⟨b, by rw [g3, List.getElem?_set_ne ja, List.getElem?_set_ne ia]; exact h1, h2, h3⟩
      · rintro ⟨i2, j2, e2, cc, dd, cc', LL, MM, q1, -⟩
        cases q1
        exact e1 rfl

end

theorem same_out {X : Out (World V × Ret)} {w1 w2 : World V} {r1 r2 : Ret} (h : X = .ok (w1, r1) ∨ X = .threw (w1, r1)) (k : X = .ok (w2, r2) ∨ X = .threw (w2, r2)) : w1 = w2 := by
  rcases h with h | h <;> rcases k with k | k <;> rw [h] at k
  · exact (Prod.mk.inj (Out.ok.inj k)).1
  · exact nomatch k
  · exact nomatch k
  · exact (Prod.mk.inj (Out.threw.inj k)).1

theorem modify_link_ok {m : Mem V} {c : Container V} {x : Id} {mod : V → V × Bool} {e : Nat → Env} {r : Res V} (h : c.modify m x mod e = .ok r) :
    (mod (m.val x)).2 = false ∧ ∃ ls, modifyC c.budget c.hd (m.assign x (mod (m.val x)).1).val x e c.ls = .ok (ls, r.b) := by
  unfold Container.modify at h
  dsimp only at h
  split at h
  · unfold Container.eraseThrow at h
    split at h
    · exact nomatch h
    · rename_i q; exact absurd h (by intro k; exact q _ k)
  · rename_i v
    refine ⟨by simpa using v, ?_⟩
    split at h
    · rename_i ls hm; obtain rfl := Out.ok.inj h; exact ⟨ls, hm⟩
    · rename_i ls hm
      split at h
      · exact nomatch h
      · rename_i r2 hr
        obtain rfl := Out.ok.inj h
        unfold Container.deleteCount at hr
        split at hr
        · exact nomatch hr
        · obtain rfl := Option.some.inj hr; exact ⟨ls, hm⟩
    · split at h <;> exact nomatch h
    · exact nomatch h
    · exact nomatch h

theorem modify_link_threw {m : Mem V} {c : Container V} {x : Id} {mod : V → V × Bool} {e : Nat → Env} {r : Res V} (h : c.modify m x mod e = .threw r) (v : (mod (m.val x)).2 = false) :
    ∃ ls b, modifyC c.budget c.hd (m.assign x (mod (m.val x)).1).val x e c.ls = .threw (ls, b) := by
  unfold Container.modify at h
  dsimp only at h
  rw [if_neg (by simp [v])] at h
  split at h
  · exact nomatch h
  · split at h <;> exact nomatch h
  · rename_i ls b hm; exact ⟨ls, b, hm⟩
  · exact nomatch h
  · exact nomatch h

theorem erase_pos {m : Mem V} {c : Container V} {x : Id} {r : Res V} (h : c.erase m x = .ok r) : r.pos = 0 := by
  unfold Container.erase at h
  split at h
  · split at h
    · exact nomatch h
    · obtain rfl := Out.ok.inj h; rfl
  · exact nomatch h
  · exact nomatch h
  · exact nomatch h

theorem eraseThrow_ok {m : Mem V} {c : Container V} {x : Id} {r : Res V} : c.eraseThrow m x ≠ .ok r := by
  unfold Container.eraseThrow
  intro h
  split at h
  · exact nomatch h
  · rename_i q; exact q _ h

theorem erase_threw {m : Mem V} {c : Container V} {x : Id} {r : Res V} : c.erase m x ≠ .threw r := by
  unfold Container.erase
  intro h
  split at h
  · split at h <;> exact nomatch h
  · exact nomatch h
  · exact nomatch h
  · exact nomatch h

theorem rb_link_ok {m : Mem V} {c : Container V} {x : Id} {mod back : V → V × Bool} {e e' : Nat → Env} {r : Res V} (h : c.modifyRb m x mod back e e' = .ok r) :
    (rbErases m c x mod back e e' = false ∧ r.pos = x) ∨ (rbErases m c x mod back e e' = true ∧ r.pos = 0) := by
  unfold Container.modifyRb at h
  unfold rbErases
  dsimp only at h ⊢
  by_cases v : (mod (m.val x)).2 = true
  · rw [if_pos v] at h; exact absurd h eraseThrow_ok
  · rw [if_neg v] at h
    rw [if_neg v]
    generalize rollbackC c.budget c.hd (m.assign x (mod (m.val x)).1).val x e c.ls = R at h ⊢
    match R with
    | .ub => exact nomatch h
    | .hang => exact nomatch h
    | .ok (ls, true) => obtain rfl := Out.ok.inj h; exact Or.inl ⟨rfl, rfl⟩
    | .ok (ls, false) =>
      dsimp only at h ⊢
      split at h
      · exact absurd h eraseThrow_ok
      · rename_i b
        rw [if_neg b]
        rw [show Container.budget { c with ls := ls } = c.budget from rfl] at h
        generalize checkC c.budget c.hd _ x e' ls = Q at h ⊢
        match Q with
        | .ub => exact nomatch h
        | .hang => exact nomatch h
        | .threw _ => exact absurd h eraseThrow_ok
        | .ok true => obtain rfl := Out.ok.inj h; exact Or.inl ⟨rfl, rfl⟩
        | .ok false =>
          dsimp only at h ⊢
          right
          refine ⟨rfl, ?_⟩
          split at h
          · rename_i r2 hr
            obtain rfl := Out.ok.inj h
            show r2.pos = 0
            exact erase_pos hr
          · rename_i q; exact absurd h (q _)
    | .threw (ls, _) =>
      dsimp only at h ⊢
      exfalso
      split at h
      · exact absurd h eraseThrow_ok
      · generalize checkC _ c.hd _ x e' ls = Q at h
        match Q with
        | .ub => exact nomatch h
        | .hang => exact nomatch h
        | .threw _ => exact absurd h eraseThrow_ok
        | .ok true => exact absurd h eraseThrow_ok
        | .ok false =>
          dsimp only at h
          split at h
          · exact absurd h eraseThrow_ok
          · rename_i q; exact absurd h (q _)

theorem rb_link_threw {m : Mem V} {c : Container V} {x : Id} {mod back : V → V × Bool} {e e' : Nat → Env} {r : Res V} (h : c.modifyRb m x mod back e e' = .threw r) :
    rbErases m c x mod back e e' = true := by
  unfold Container.modifyRb at h
  unfold rbErases
  dsimp only at h ⊢
  by_cases v : (mod (m.val x)).2 = true
  · rw [if_pos v]
  · rw [if_neg v] at h
    rw [if_neg v]
    generalize rollbackC c.budget c.hd (m.assign x (mod (m.val x)).1).val x e c.ls = R at h ⊢
    match R with
    | .ub => exact nomatch h
    | .hang => exact nomatch h
    | .ok (ls, true) => exact nomatch h
    | .ok (ls, false) =>
      dsimp only at h ⊢
      split
      · rfl
      · rename_i b
        rw [if_neg b] at h
        rw [show Container.budget { c with ls := ls } = c.budget from rfl] at h
        generalize checkC c.budget c.hd _ x e' ls = Q at h ⊢
        match Q with
        | .ub => exact nomatch h
        | .hang => exact nomatch h
        | .threw _ => rfl
        | .ok true => exact nomatch h
        | .ok false => rfl
    | .threw (ls, _) => rfl

theorem put_ok {w w' : World V} {i : Nat} {R : Out (Res V)} {r : Ret} (h : w.put i R = .ok (w', r)) : ∃ q, R = .ok q ∧ r = ⟨q.pos, q.b⟩ := by
  cases R with
  | ok q => exact ⟨q, rfl, (Prod.mk.inj (Out.ok.inj h)).2.symm⟩
  | threw q => exact nomatch h
  | ub => exact nomatch h
  | hang => exact nomatch h

theorem put_threw {w w' : World V} {i : Nat} {R : Out (Res V)} {r : Ret} (h : w.put i R = .threw (w', r)) : ∃ q, R = .threw q := by
  cases R with
  | ok q => exact nomatch h
  | threw q => exact ⟨q, rfl⟩
  | ub => exact nomatch h
  | hang => exact nomatch h

/-- The conclusion about a step of the library. -/
def Good (s : State V) (t : Tmp) (ids : List Nat) (o : Op V) (w' : World V) : Prop :=
  ∃ r', s.regStep t ids o = some r' ∧ Rep r' s.live ∧ Shape w' (s.sidStep ids w' o) ∧ LibOk s o w' (s.sidStep ids w' o) r'

section
variable {s : State V} {o : Op V} {w' : World V} {t : Tmp} {ids : List Nat}

theorem sid_same (h : w'.cs.length = s.w.cs.length) (hd : ∀ i, o ≠ .destroy i) : s.sidStep ids w' o = s.sid := by
  unfold State.sidStep
  split
  · exact absurd rfl (hd _)
  · rw [if_neg (by omega)]

theorem good_kept (I : SInv s) (K : Kept s.w w') (hr : s.regStep t ids o = some s.reg) (hd : ∀ i, o ≠ .destroy i) (ne : ∀ i j x e, o ≠ .transfer i j x e) :
    Good s t ids o w' := by
  refine ⟨s.reg, hr, I.rep, ?_, ?_⟩
  · rw [sid_same K.1 hd]; exact shape_kept I.shape K
  · rw [sid_same K.1 hd]; exact lib_kept K fun _ _ _ _ _ => not_estranged ne

theorem good_lost {i : Nat} {x : Id} {r' : Reg} (I : SInv s) (l : Lost s.w w' i x) (hr : s.regStep t ids o = some r')
    (d : Does s.reg r' s.live (gone s.reg (s.sid.getD i []) x)) (hd : ∀ i, o ≠ .destroy i) (ne : ∀ i j x e, o ≠ .transfer i j x e) :
    Good s t ids o w' := by
  have l' := lostAt I.inv l
  have K := l'
  obtain ⟨c, c', hi, hc, hl, -, -⟩ := l'
  have e : s.sidStep ids w' o = s.sid := sid_same (by rw [hc, List.length_set]) hd
  refine ⟨r', hr, d.rep, ?_, ?_⟩
  · rw [e]; exact shape_at I.shape hi hc hl
  · rw [e]; exact lib_lost I K d fun _ _ => not_estranged ne

theorem good_new {c' : Container V} (I : SInv s) (h : w'.cs = s.w.cs ++ [c']) (hl : ids.length = c'.ls.length) (nd : ids.Nodup) (fr : ∀ a ∈ ids, a ≠ 0 ∧ a ∉ s.sid.flatten)
    (hr : s.regStep t ids o = some (newR ids s.reg)) (hd : ∀ i, o ≠ .destroy i) (ne : ∀ i j x e, o ≠ .transfer i j x e) : Good s t ids o w' := by
  obtain ⟨k1, k2⟩ := newR_spec (ids := ids) I.rep fun y hy k => by
    have h0 := fr _ k
    obtain ⟨i, j, L⟩ := I.loc y hy h0.1
    exact h0.2 (mem_row L.mem)
  have e : s.sidStep ids w' o = s.sid ++ [ids] := by
    unfold State.sidStep
    split
    · exact absurd rfl (hd _)
    · rw [if_pos (by rw [h]; simp)]
  refine ⟨_, hr, k1, ?_, ?_⟩
  · rw [e]; exact shape_new I.shape h hl nd fr
  · rw [e]; exact lib_new I.shape h k2 fun _ _ => not_estranged ne

/-- A construction that threw. -/
theorem good_none (I : SInv s) (h : w'.cs = s.w.cs) (fr : ∀ a ∈ ids, a ≠ 0 ∧ a ∉ s.sid.flatten)
    (hr : s.regStep t ids o = some (newR ids s.reg)) (hd : ∀ i, o ≠ .destroy i) (ne : ∀ i j x e, o ≠ .transfer i j x e) : Good s t ids o w' := by
  obtain ⟨k1, k2, k3, k4⟩ := newR_spec (ids := ids) I.rep fun y hy k => by
    have h0 := fr _ k
    obtain ⟨i, j, L⟩ := I.loc y hy h0.1
    exact h0.2 (mem_row L.mem)
  have e : s.sidStep ids w' o = s.sid := sid_same (by rw [h]) hd
  have K := kept_same (w := s.w) (w' := w') h
  refine ⟨_, hr, k1, ?_, ?_⟩
  · rw [e]; exact shape_kept I.shape K
  · rw [e]
    refine ⟨fun _ _ => by rw [k3], fun _ _ => by rw [k4], fun _ _ q => by rw [k2]; exact q, fun y hy i k L => Or.inl ⟨⟨i, ?_⟩, not_estranged ne⟩⟩
    obtain ⟨c, h1, h2, h3⟩ := L
    exact ⟨c, by rw [h]; exact h1, by rw [k2]; exact h2, by rw [k3]; exact h3⟩

theorem good_swap {i j : Nat} {c d : Container V} (I : SInv s) (hi : s.w.cs[i]? = some c) (hj : s.w.cs[j]? = some d) (hl : c.ls.length = d.ls.length)
    (h : w'.cs = (s.w.cs.set i d).set j c) (hr : s.regStep t ids o = swapR s.budget (s.sid.getD i []) (s.sid.getD j []) s.reg)
    (hd : ∀ i, o ≠ .destroy i) (ne : ∀ i j x e, o ≠ .transfer i j x e) : Good s t ids o w' := by
  have e : s.sidStep ids w' o = s.sid := sid_same (by rw [h]; simp) hd
  have z : ∀ i, 0 ∉ s.sid.getD i [] := fun i k => I.shape.nz (mem_row k)
  have hb : s.live.length < s.budget := by unfold State.budget; omega
  by_cases ij : i = j
  · subst ij
    obtain rfl := Option.some.inj (hi.symm.trans hj)
    have hc : w'.cs = s.w.cs := by
      rw [h, List.set_set]
      obtain ⟨l, e2⟩ := List.getElem?_eq_some_iff.1 hi
      rw [← e2]; exact List.set_getElem_self l
    obtain ⟨r', k1, k2⟩ := swapR_self hb I.rep (z i)
    refine ⟨r', by rw [hr, k1], k2.rep, by rw [e]; exact shape_kept I.shape (kept_same hc), ?_⟩
    rw [e]
    refine ⟨k2.node, k2.unchecked, fun y hy q => by rw [k2.cont y hy]; exact q, fun y hy a k L => Or.inl ⟨⟨a, ?_⟩, not_estranged ne⟩⟩
    obtain ⟨c, h1, h2, h3⟩ := L
    exact ⟨c, by rw [hc]; exact h1, by rw [k2.cont y hy]; exact h2, by rw [k2.node y hy]; exact h3⟩
  · obtain ⟨r', k1, k2, k3⟩ := swapR_spec hb I.rep (z i) (z j) (by rw [I.shape.row i _ hi, I.shape.row j _ hj, hl]) (row_nodup I.shape.nodup i) (row_nodup I.shape.nodup j)
      fun a h1 h2 => ij (rows_disj I.shape.nodup h1 h2)
    refine ⟨r', by rw [hr, k1], k2.rep, by rw [e]; exact shape_swap I.shape hi hj hl h, ?_⟩
    rw [e]
    exact lib_swap I ij hi hj h k2 k3 fun _ _ => not_estranged ne

end

macro "ne_op" : term => `(by intros; exact fun h => nomatch h)

/-- Every legal operation of the library. -/
theorem lib_ok {s : State V} {o : Op V} {t : Tmp} {ids : List Nat} {w' : World V} {r0 : Ret} (I : SInv s) (l : s.Legal (.lib o t ids))
    (hst : s.w.step o = .ok (w', r0) ∨ s.w.step o = .threw (w', r0)) : Good s t ids o w' := by
  obtain ⟨l, comp, nt, ntd, hids, idn, idf⟩ := l
  have J := I.inv
  have ta : t.a ≠ 0 ∧ t.a ∉ s.live := nt t.a (by simp)
  have hb : s.live.length + 1 < s.budget := by unfold State.budget; omega
  have z : ∀ i, 0 ∉ s.sid.getD i [] := fun i k => I.shape.nz (mem_row k)
  have ex : ∀ i x, ∃ r', extractR s.budget t.a x (s.sid.getD i []) s.reg = some r' ∧ Does s.reg r' s.live (gone s.reg (s.sid.getD i []) x) :=
    fun i x => extractR_spec ta.1 ta.2 hb I.rep (z i)
  have fin : ∀ {w1 : World V} {r1 : Ret}, (s.w.step o = .ok (w1, r1) ∨ s.w.step o = .threw (w1, r1)) → Good s t ids o w1 → Good s t ids o w' :=
    fun k g => same_out k hst ▸ g
  cases o with
  | new hd y is =>
    exact fin (w1 := ⟨s.w.m.allocate hd, s.w.cs ++ [Container.new hd y is], s.w.hs⟩) (Or.inl rfl)
      (good_new I rfl (by rw [hids]; simp [World.newIndices, Container.new]) idn idf rfl ne_op ne_op)
  | insert i v x f hint e =>
    rcases eff_insert J l with ⟨w1, k1, k2, -⟩ | ⟨w1, y, k1, k2, -⟩ | ⟨w1, k1, k2, -⟩
    · exact fin (Or.inl k1) (good_kept I (kept_gained J k2) rfl ne_op ne_op)
    · exact fin (Or.inl k1) (good_kept I (kept_unchanged J k2) rfl ne_op ne_op)
    · exact fin (Or.inr k1) (good_kept I (kept_unchanged J k2) rfl ne_op ne_op)
  | emplace i v x f hint e =>
    rcases eff_emplace J l with ⟨w1, k1, k2, -⟩ | ⟨w1, y, k1, k2, -⟩ | ⟨w1, k1, k2, -⟩
    · exact fin (Or.inl k1) (good_kept I (kept_gained J k2) rfl ne_op ne_op)
    · exact fin (Or.inl k1) (good_kept I (kept_unchanged J k2) rfl ne_op ne_op)
    · exact fin (Or.inr k1) (good_kept I (kept_unchanged J k2) rfl ne_op ne_op)
  | extract i x =>
    obtain ⟨w1, k1, k2, -⟩ := eff_extract J l
    obtain ⟨r', q1, q2⟩ := ex i x
    exact fin (Or.inl k1) (good_lost I k2 q1 q2 ne_op ne_op)
  | insertNh i h hint e =>
    have hl := l
    obtain ⟨c, hi, hl, ho, env⟩ := hl
    obtain ⟨nh, hh⟩ : ∃ nh, s.w.hs[h]? = some nh := ⟨_, List.getElem?_eq_getElem hl⟩
    cases nh with
    | none =>
      exact fin (w1 := ⟨s.w.m, s.w.cs.set i c, s.w.hs.set h none⟩) (Or.inl (by simp only [World.step, hi, hh, Container.insertNh]; try rfl))
        (good_kept I (kept_at hi rfl rfl rfl fun _ h => h) rfl ne_op ne_op)
    | some x =>
      rcases eff_insertNh J l hh with ⟨w1, k1, k2, -⟩ | ⟨w1, y, k1, k2, -⟩ | ⟨w1, k1, k2, -⟩
      · exact fin (Or.inl k1) (good_kept I (kept_gained J k2) rfl ne_op ne_op)
      · exact fin (Or.inl k1) (good_kept I (kept_unchanged J k2) rfl ne_op ne_op)
      · exact fin (Or.inr k1) (good_kept I (kept_unchanged J k2) rfl ne_op ne_op)
  | dropHandle h =>
    obtain ⟨nh, hh⟩ : ∃ nh, s.w.hs[h]? = some nh := ⟨_, List.getElem?_eq_getElem l⟩
    simp only [World.step, hh] at hst
    cases hd : s.w.m.deleteOpt nh with
    | none => rw [hd] at hst; rcases hst with q | q <;> exact nomatch q
    | some m' =>
      rw [hd] at hst
      have e := same_out hst (w2 := ⟨m', s.w.cs, s.w.hs.set h none⟩) (Or.inl rfl)
      exact good_kept I (kept_same (by rw [e])) rfl ne_op ne_op
  | moveHandle h g =>
    obtain ⟨nh, hh⟩ : ∃ nh, s.w.hs[h]? = some nh := ⟨_, List.getElem?_eq_getElem l.1⟩
    obtain ⟨ng, hg⟩ : ∃ nh, s.w.hs[g]? = some nh := ⟨_, List.getElem?_eq_getElem l.2⟩
    by_cases e : h = g
    · subst e
      exact fin (w1 := s.w) (Or.inl (by simp only [World.step, hh, if_true]; try rfl)) (good_kept I (kept_same rfl) rfl ne_op ne_op)
    · simp only [World.step, hh, hg, if_neg e] at hst
      cases hd : s.w.m.deleteOpt nh with
      | none => rw [hd] at hst; rcases hst with q | q <;> exact nomatch q
      | some m' =>
        rw [hd] at hst
        have e := same_out hst (w2 := ⟨m', s.w.cs, (s.w.hs.set h ng).set g none⟩) (Or.inl rfl)
        exact good_kept I (kept_same (by rw [e])) rfl ne_op ne_op
  | newHandle => exact fin (w1 := ⟨s.w.m, s.w.cs, s.w.hs ++ [none]⟩) (Or.inl rfl) (good_kept I (kept_same rfl) rfl ne_op ne_op)
  | swapHandles h g =>
    obtain ⟨nh, hh⟩ : ∃ nh, s.w.hs[h]? = some nh := ⟨_, List.getElem?_eq_getElem l.1⟩
    obtain ⟨ng, hg⟩ : ∃ nh, s.w.hs[g]? = some nh := ⟨_, List.getElem?_eq_getElem l.2⟩
    exact fin (w1 := ⟨s.w.m, s.w.cs, (s.w.hs.set h ng).set g nh⟩) (Or.inl (by simp only [World.step, hh, hg]; try rfl)) (good_kept I (kept_same rfl) rfl ne_op ne_op)
  | erase i x =>
    obtain ⟨w1, k1, k2, -⟩ := eff_erase J l
    obtain ⟨r', q1, q2⟩ := ex i x
    exact fin (Or.inl k1) (good_lost I k2 q1 q2 ne_op ne_op)
  | clear i =>
    obtain ⟨w1, c, c', k1, oa, -, em⟩ := eff_clear J l
    obtain ⟨r', q1, q2⟩ := clearR_spec (hd := c.hd) ta.1 ta.2 hb I.rep (z i)
    have em : c'.elems = [] := by
      unfold Container.elems
      cases hq : c'.seqs with
      | nil => rfl
      | cons a b => exact em.2 a (by rw [hq]; simp)
    have e : s.sidStep ids w1 (.clear i) = s.sid := sid_same (by rw [oa.cs]; simp) ne_op
    refine fin (Or.inl k1) ⟨r', by simp only [State.regStep, oa.pre]; exact q1, q2.rep, ?_, ?_⟩
    · rw [e]; exact shape_at I.shape oa.pre oa.cs (asked_len oa.asked)
    · rw [e]; exact lib_clear I oa em q2 fun _ _ => not_estranged ne_op
  | destroy i =>
    obtain ⟨w1, c, k1, hi, k2, -⟩ := eff_destroy J l
    obtain ⟨r', q1, q2⟩ := destroyR_spec (n := s.budget) (by omega) I.rep (z i)
    exact fin (Or.inl k1) ⟨r', q1, q2.rep, shape_destroy I.shape k2, lib_destroy I hi k2 q2 fun _ _ => not_estranged ne_op⟩
  | replace i x v a e =>
    rcases eff_replace J l with ⟨w1, k1, k2, -⟩ | ⟨w1, k1, ⟨-, -, c, c', oa, -, q⟩, -⟩ | ⟨w1, k1, ⟨-, -, c, c', oa, -, q⟩, -⟩
    · exact fin (Or.inl k1) (good_kept I (kept_changed J k2) rfl ne_op ne_op)
    · exact fin (Or.inl k1) (good_kept I (kept_seqs oa q) rfl ne_op ne_op)
    · exact fin (Or.inr k1) (good_kept I (kept_seqs oa q) rfl ne_op ne_op)
  | modify i x mod e =>
    have hl := l
    obtain ⟨c, hi, hx⟩ := hl
    have st : s.w.step (.modify i x mod e) = s.w.put i (c.modify s.w.m x mod e) := by simp only [World.step, hi]
    obtain ⟨m1, m2, m3⟩ := modifyS_spec (n := c.budget) (hd := c.hd) (val := (s.w.m.assign x (mod (s.w.m.val x)).1).val) (x := x) (ls := c.ls) (e := e) ta.1 ta.2 hb
      (I.shape.row i _ hi) (z i) I.rep
    rcases eff_modify J l with ⟨w1, k1, k2, -⟩ | ⟨w1, k1, k2, -⟩ | ⟨w1, r1, k1, k2, -⟩
    · refine fin (Or.inl k1) (good_kept I (kept_changed J k2) ?_ ne_op ne_op)
      rw [st] at k1
      obtain ⟨q, q1, q2⟩ := put_ok k1
      obtain ⟨v, ls, q3⟩ := modify_link_ok q1
      obtain ⟨-, q4⟩ := Ret.mk.inj q2
      rw [← q4] at q3
      simp only [State.regStep, hi, v, Bool.false_eq_true, if_false, m1 ls q3]
    · rw [st] at k1
      obtain ⟨q, q1, q2⟩ := put_ok k1
      obtain ⟨v, ls, q3⟩ := modify_link_ok q1
      obtain ⟨-, q4⟩ := Ret.mk.inj q2
      rw [← q4] at q3
      obtain ⟨r', g1, g2⟩ := m2 ls q3
      refine fin (Or.inl (st.trans k1)) (good_lost I k2 (r' := r') ?_ g2 ne_op ne_op)
      simp only [State.regStep, hi, v, Bool.false_eq_true, if_false, g1]
    · rw [st] at k1
      obtain ⟨q, q1⟩ := put_threw k1
      cases v : (mod (s.w.m.val x)).2 with
      | true =>
        obtain ⟨r', g1, g2⟩ := ex i x
        refine fin (Or.inr (st.trans k1)) (good_lost I k2 (r' := r') ?_ g2 ne_op ne_op)
        simp only [State.regStep, hi, v, if_true, g1]
      | false =>
        obtain ⟨ls, b, q3⟩ := modify_link_threw q1 v
        obtain ⟨r', g1, g2⟩ := m3 ls b q3
        refine fin (Or.inr (st.trans k1)) (good_lost I k2 (r' := r') ?_ g2 ne_op ne_op)
        simp only [State.regStep, hi, v, Bool.false_eq_true, if_false, g1]
  | modifyRb i x mod back e e' =>
    have hl := l
    obtain ⟨c, hi, hx, -⟩ := hl
    have x0 : x ≠ 0 := J.nz' ((J.facts hi).2.2.2.1 x hx)
    have st : s.w.step (.modifyRb i x mod back e e') = s.w.put i (c.modifyRb s.w.m x mod back e e') := by simp only [World.step, hi]
    obtain ⟨r', g1, g2⟩ := ex i x
    have keep : rbErases s.w.m c x mod back e e' = false → s.regStep t ids (.modifyRb i x mod back e e') = some s.reg := fun h => by
      simp only [State.regStep, hi, h, Bool.false_eq_true, if_false]
    have lose : rbErases s.w.m c x mod back e e' = true → s.regStep t ids (.modifyRb i x mod back e e') = some r' := fun h => by
      simp only [State.regStep, hi, h, if_true, g1]
    rcases eff_modifyRb J l with ⟨w1, k1, k2, -⟩ | ⟨w1, k1, -, -, ⟨c1, c', oa, -, q⟩, -⟩ | ⟨w1, k1, k2, -⟩ | ⟨w1, r1, k1, k2, -⟩
    · refine fin (Or.inl k1) (good_kept I (kept_changed J k2) (keep ?_) ne_op ne_op)
      rw [st] at k1
      obtain ⟨q, q1, q2⟩ := put_ok k1
      rcases rb_link_ok q1 with h | h
      · exact h.1
      · exact absurd ((Ret.mk.inj q2).1.trans h.2) x0
    · refine fin (Or.inl k1) (good_kept I (kept_seqs oa q) (keep ?_) ne_op ne_op)
      rw [st] at k1
      obtain ⟨q, q1, q2⟩ := put_ok k1
      rcases rb_link_ok q1 with h | h
      · exact h.1
      · exact absurd ((Ret.mk.inj q2).1.trans h.2) x0
    · refine fin (Or.inl k1) (good_lost I k2 (lose ?_) g2 ne_op ne_op)
      rw [st] at k1
      obtain ⟨q, q1, q2⟩ := put_ok k1
      rcases rb_link_ok q1 with h | h
      · exact absurd ((Ret.mk.inj q2).1.trans h.2) (Ne.symm x0)
      · exact h.1
    · refine fin (Or.inr k1) (good_lost I k2 (lose ?_) g2 ne_op ne_op)
      rw [st] at k1
      obtain ⟨q, q1⟩ := put_threw k1
      exact rb_link_threw q1
  | transfer i j x e =>
    have hl := l
    obtain ⟨ij, c, d, hi, hj, hx, -⟩ := hl
    have len := comp c d hi hj
    have un : ∀ {w1 : World V}, Unchanged s.w w1 i → s.regStep t ids (.transfer i j x e) = some s.reg → Good s t ids (.transfer i j x e) w1 := by
      intro w1 u hr
      have K := kept_unchanged J u
      refine ⟨s.reg, hr, I.rep, ?_, ?_⟩
      · rw [sid_same K.1 ne_op]; exact shape_kept I.shape K
      · rw [sid_same K.1 ne_op]
        refine lib_kept K fun y hy a k L => ?_
        rintro ⟨i2, j2, e2, cc, dd, cc', LL, MM, q1, q2, q3, q4, q5, -⟩
        cases q1
        obtain ⟨c2, c2', oa, p⟩ := u.elems J
        obtain rfl := Option.some.inj (hi.symm.trans oa.pre)
        rw [oa.cs, List.getElem?_set_self (List.getElem?_eq_some_iff.1 hi).1] at q4
        obtain rfl := Option.some.inj q4
        exact ij (owner (z := s.reg.node y) J hi hj (by unfold Has; simp [p.mem_iff.1 q5]) (by unfold Has; simp [hx]))
    rcases eff_transfer J l with ⟨w1, k1, k2, -⟩ | ⟨w1, y, k1, k2, -⟩ | ⟨w1, k1, k2, -⟩
    · obtain ⟨r', g1, g2, g3, g4⟩ := lib_transfer (e := e) (n := s.budget) (hd := c.hd) I ij hi hj len k2 (fun h => (nt 0 h).1 rfl) ntd (fun y hy => (nt y hy).2)
        (by unfold State.budget; omega)
      have e1 : s.sidStep ids w1 (.transfer i j x e) = s.sid := by
        obtain ⟨-, -, c1, c', d1, d', -, -, g3, -⟩ := k2
        exact sid_same (by rw [g3]; simp) ne_op
      refine fin (Or.inl k1) ⟨r', ?_, g2, by rw [e1]; exact g3, by rw [e1]; exact g4⟩
      simp only [World.step, hi, hj] at k1
      simp only [State.regStep, hi, hj]
      generalize c.transfer s.w.m d x e = R at k1 ⊢
      match R with
      | .ok (q, d2) =>
        obtain ⟨-, q2⟩ := Prod.mk.inj (Out.ok.inj k1)
        have : q.b = true := (Ret.mk.inj q2).2
        simp only [this, if_true]
        exact g1
      | .threw (q, d2) => exact nomatch k1
      | .ub => exact nomatch k1
      | .hang => exact nomatch k1
    · refine fin (Or.inl k1) (un k2 ?_)
      simp only [World.step, hi, hj] at k1
      simp only [State.regStep, hi, hj]
      generalize c.transfer s.w.m d x e = R at k1 ⊢
      match R with
      | .ok (q, d2) =>
        obtain ⟨-, q2⟩ := Prod.mk.inj (Out.ok.inj k1)
        have : q.b = false := (Ret.mk.inj q2).2
        simp only [this, Bool.false_eq_true, if_false]
      | .threw (q, d2) => exact nomatch k1
      | .ub => exact nomatch k1
      | .hang => exact nomatch k1
    · refine fin (Or.inr k1) (un k2 ?_)
      simp only [World.step, hi, hj] at k1
      simp only [State.regStep, hi, hj]
      generalize c.transfer s.w.m d x e = R at k1 ⊢
      match R with
      | .ok (q, d2) => exact nomatch k1
      | .threw (q, d2) => rfl
      | .ub => exact nomatch k1
      | .hang => exact nomatch k1
  | swap i j =>
    obtain ⟨c, d, hi, hj, k⟩ := l
    refine fin (Or.inl (eff_swap hi hj k)) (good_swap I hi hj ?_ rfl rfl ne_op ne_op)
    simpa [Container.kinds] using congrArg List.length k
  | swapElements i j =>
    obtain ⟨c, d, hi, hj, k⟩ := l
    refine fin (Or.inl (eff_swapElements hi hj k)) (good_swap I hi hj ?_ rfl rfl ne_op ne_op)
    simpa using congrArg List.length k
  | copy i hd y ns e F =>
    rcases eff_copy J l with ⟨w1, c, c', k1, hi, -, k2⟩ | ⟨w1, c, k1, -, -, k2, -⟩
    · refine fin (Or.inl k1) (good_new I k2.cs ?_ idn idf rfl ne_op ne_op)
      rw [hids, asked_len k2.asked]
      simp [World.newIndices, hi]
    · exact fin (Or.inr k1) (good_none I k2 idf rfl ne_op ne_op)
  | newLike i hd y pol e F =>
    rcases eff_newLike J l with ⟨w1, c, c', k1, hi, -, k2, -, -, -, k3, -⟩ | ⟨c, k1, -⟩
    · refine fin (Or.inl k1) (good_new I k2 ?_ idn idf rfl ne_op ne_op)
      rw [hids, asked_len k3]
      simp [World.newIndices, hi]
    · exact fin (Or.inr k1) (good_none I rfl idf rfl ne_op ne_op)
  | relocate i k pos x =>
    obtain ⟨w1, c, c', k1, oa, k2, k3, -, xs, xs', -, -, -, -, p⟩ := eff_relocate J l
    exact fin (Or.inl k1) (good_kept I (kept_at oa.pre oa.cs (asked_len oa.asked) oa.hd fun _ h => p.mem_iff.2 h) rfl ne_op ne_op)
  | rearrange i k a =>
    obtain ⟨w1, c, c', S, xs, xs', oa, k2, k3, -, -, -, -, -, p, k1⟩ := eff_rearrange J l
    have q := good_kept (t := t) (ids := ids) (o := .rearrange i k a) I (kept_at oa.pre oa.cs (asked_len oa.asked) oa.hd fun _ h => p.mem_iff.2 h) rfl ne_op ne_op
    rcases k1 with ⟨k1, -⟩ | ⟨k1, -⟩
    · exact fin (Or.inl k1) q
    · exact fin (Or.inr k1) q
  | place i k fail ins =>
    obtain ⟨w1, c, c', S, xs, xs', oa, k2, k3, -, -, -, -, -, p, k1⟩ := eff_place J l
    have q := good_kept (t := t) (ids := ids) (o := .place i k fail ins) I (kept_at oa.pre oa.cs (asked_len oa.asked) oa.hd fun _ h => p.mem_iff.2 h) rfl ne_op ne_op
    rcases k1 with ⟨k1, -⟩ | ⟨k1, -⟩
    · exact fin (Or.inl k1) q
    · exact fin (Or.inr k1) q
  | rehash i k n e =>
    obtain ⟨w1, k1, k2, k3⟩ := eff_rehash J l
    rcases k1 with k1 | ⟨k1, -⟩
    · exact fin (Or.inl k1) (good_kept I (kept_unchanged J k3) rfl ne_op ne_op)
    · exact fin (Or.inr k1) (good_kept I (kept_unchanged J k3) rfl ne_op ne_op)

end MI.Safe
