import Verif.Mt.Ops
/-!
What holds in every state threads can reach.
-/
set_option linter.unusedVariables false
namespace MI.Mt
open MI MI.Safe

def Thread.perm (t : Tid) (th : Thread) : Perm := Mt.perm t th.snap th.use

structure Inv (σ : Sys) (lnk : Nat → Nat) : Prop where
  rep : GRep ⟨σ.mem, lnk⟩
  legal : ∀ t th, σ.thr t = some th → th.op.Legal th.snap
  act : ∀ t th, σ.thr t = some th → wp (th.perm t) (Post (th.perm t) (th.op.effect th.snap)) th.code ⟨σ.mem, lnk⟩
  rng : ∀ t th, σ.thr t = some th → (th.perm t).Range ⟨σ.mem, lnk⟩
  dis : ∀ t u th th', σ.thr t = some th → σ.thr u = some th' → t ≠ u → Disj (th.perm t) (th'.perm u)
  quiet : ∀ y, (∀ t th, σ.thr t = some th → ¬ (th.perm t).mine y) → σ.mem.cont y = (σ.views y).cont ∧ σ.mem.val y = (σ.views y).val ∧ lnk y = (σ.views y).cont
  snap : ∀ t th, σ.thr t = some th → ∀ y, ((th.perm t).sees y → th.snap y = σ.views y) ∧ ((th.snap y).cont ∈ th.use.wC ↔ (σ.views y).cont ∈ th.use.wC)
  mtx : ∀ s t, σ.mem.mtx s = some t → ∃ th, σ.thr t = some th

theorem nz_of_legal {V : Nat → View} {o : Op} (h : o.Legal V) : 0 ∉ (o.use V).wC := by
  cases o <;> simp only [Op.Legal] at h <;> simp [Op.use]
  · exact h.2.2.symm
  · exact h.2.2.symm
  · exact ⟨h.2.2.2.2.2.2.2.2.2.1.symm, h.2.2.2.2.2.2.2.2.2.2.1.symm⟩
  · exact h.symm
  · exact ⟨h.1.symm, h.2.1.symm⟩

theorem cont_of_legal {V : Nat → View} {o : Op} (h : o.Legal V) {y : Nat} (hy : y ∈ (o.use V).wIt ∨ y ∈ (o.use V).rIt) :
    (V y).cont = 0 ∨ (V y).cont ∈ (o.use V).rC ∨ (V y).cont ∈ (o.use V).wC := by
  cases o <;> simp only [Op.Legal] at h <;> simp only [Op.use, List.mem_cons, List.not_mem_nil, or_false, false_or] at hy ⊢
  · subst hy; exact .inl h.2.1
  · subst hy; exact h.2
  · rcases hy with rfl | rfl
    · exact .inl h.2.1
    · exact .inr rfl
  · rcases hy with rfl | rfl
    · exact .inr (.inl rfl)
    · exact .inr (.inr rfl)
  · subst hy; exact .inr rfl
  · subst hy; exact .inr rfl
  · rcases hy with rfl | rfl
    · exact .inr (.inl rfl)
    · exact .inr (.inr rfl)
  · rcases hy with rfl | rfl
    · exact .inl h.2.2.1
    · exact .inr rfl
  · subst hy; exact .inl h.2.1
  · subst hy; exact .inl h.2.1
  · rcases hy with rfl | rfl | rfl
    · exact .inl h.2.2.2.2.2.2.1
    · exact .inl h.2.2.2.2.2.2.2.1
    · exact .inl h.2.2.2.2.2.2.2.2.1

theorem effect_congr {V W : Nat → View} (t : Tid) (o : Op) (h : ∀ y, (perm t W (o.use W)).sees y → W y = V y) (y : Nat) (hy : (perm t W (o.use W)).mine y) :
    o.effect W y = o.effect V y := by
  have hyy := h y (.inl hy)
  cases o with
  | make it s x => simp only [Op.effect, upd, hyy]
  | blank it x => simp only [Op.effect, upd, hyy]
  | copy it a => simp only [Op.effect, upd, hyy, h a (.inr (by simp [Op.use]))]
  | assign it a => simp only [Op.effect, upd, hyy, h a (.inr (by simp [Op.use]))]
  | load it x => simp only [Op.effect, upd, hyy]
  | drop it => simp only [Op.effect, upd, hyy, h it (.inl (.inl (by simp [Op.use])))]
  | compare a b => simp only [Op.effect, hyy]
  | deref a tmp hd =>
    simp only [Op.effect, h a (.inr (by simp [Op.use]))]
    split
    · exact hyy
    · simp only [upd, hyy]
  | erase it s x => simp only [Op.effect, upd, hyy]
  | clear tmp s hd => simp only [Op.effect, upd, hyy]
  | transfer it it2 tmp s d hd x => simp only [Op.effect, upd, hyy]
  | destroy s => simp only [Op.effect, hyy]
  | swap s d => simp only [Op.effect, hyy]

theorem effect_frame {V : Nat → View} (o : Op) (y : Nat) (hy : ¬ (y ∈ (o.use V).wIt ∨ (V y).cont ∈ (o.use V).wC)) : o.effect V y = V y := by
  cases o <;> simp only [Op.use, List.mem_cons, List.not_mem_nil, or_false, not_or] at hy
  case make => simp [Op.effect, upd, hy]
  case blank => simp [Op.effect, upd, hy]
  case copy => simp [Op.effect, upd, hy]
  case assign => simp [Op.effect, upd, hy]
  case load => simp [Op.effect, upd, hy]
  case drop => simp [Op.effect, upd, hy]
  case compare => rfl
  case deref =>
    simp only [Op.effect]
    split
    · rfl
    · simp [upd, hy]
  case erase => simp [Op.effect, upd, hy]
  case clear => simp [Op.effect, upd, hy]
  case transfer => simp [Op.effect, upd, hy]
  case destroy => simp [Op.effect, hy]
  case swap => simp [Op.effect, hy]

theorem use_congr {V W : Nat → View} (t : Tid) (o : Op) (h : ∀ y, (perm t W (o.use W)).sees y → W y = V y) : o.use V = o.use W := by
  have key : ∀ y, y ∈ (o.use W).wIt ∨ y ∈ (o.use W).rIt → W y = V y := fun y k => h y (k.elim (fun k => .inl (.inl k)) .inr)
  cases o <;> simp only [Op.use, List.mem_cons, List.not_mem_nil, or_false, false_or] at key ⊢
  case copy it a => rw [key a (by simp)]
  case assign it a => rw [key a (by simp), key it (by simp)]
  case load it x => rw [key it rfl]
  case drop it => rw [key it rfl]
  case compare a b => rw [key a (by simp), key b (by simp)]
  case deref a tmp hd => rw [key a (by simp)]

theorem Inv.init : Inv Sys.init fun _ => 0 where
  rep := ⟨rfl, fun s hs => ⟨[], rfl, List.nodup_nil, fun y => ⟨nofun, fun k => absurd k.symm hs⟩⟩⟩
  legal := nofun
  act := nofun
  rng := nofun
  dis := nofun
  quiet := fun _ _ => ⟨rfl, rfl, rfl⟩
  snap := nofun
  mtx := nofun

theorem Inv.begin {σ : Sys} {lnk : Nat → Nat} {t : Tid} {o : Op} (I : Inv σ lnk) (ht : σ.thr t = none) (hr : Rules σ t o) : Inv (σ.begin t o) lnk := by
  obtain ⟨hl, hc⟩ := hr
  -- the new operation and those under way
  have D : ∀ u th, σ.thr u = some th → Disj (perm t σ.views (o.use σ.views)) (th.perm u) := by
    intro u th hu
    have hne : u ≠ t := fun e => by rw [e, ht] at hu; cases hu
    obtain ⟨⟨c1, c2⟩, c3, c4⟩ := hc u th hu hne
    have nz := nz_of_legal hl
    have nz' : 0 ∉ th.use.wC := nz_of_legal (I.legal u th hu)
    have sn := I.snap u th hu
    have u1 : ∀ y, y ∈ (o.use σ.views).wIt ∨ y ∈ (o.use σ.views).rIt → (th.snap y).cont ∉ th.use.wC := fun y k q => by
      have q := (sn y).2.1 q
      rcases cont_of_legal hl k with e | e
      · exact nz' (e ▸ q)
      · exact e.elim (c4 _ q).1 (c4 _ q).2
    have u2 : ∀ y, y ∈ th.use.wIt ∨ y ∈ th.use.rIt → (σ.views y).cont ∉ (o.use σ.views).wC := fun y k q => by
      have e := cont_of_legal (I.legal u th hu) k
      rw [(sn y).1 (k.elim (fun k => .inl (.inl k)) .inr)] at e
      rcases e with e | e
      · exact nz (e ▸ q)
      · exact e.elim (c2 _ q).1 (c2 _ q).2
    refine ⟨hne.symm, ?_, ?_, c2, c4⟩
    · rintro y (k | k) ((q | q) | q)
      · exact (c1 y k).1 q
      · exact u1 y (.inl k) q
      · exact (c1 y k).2 q
      · exact u2 y (.inl q) k
      · exact (c2 _ k).2 ((sn y).2.1 q)
      · exact u2 y (.inr q) k
    · rintro y (k | k) ((q | q) | q)
      · exact (c3 y k).1 q
      · exact u2 y (.inl k) q
      · exact (c3 y k).2 q
      · exact u1 y (.inl q) k
      · exact (c4 _ ((sn y).2.1 k)).2 q
      · exact u1 y (.inr q) k
  have Q : ∀ y, (perm t σ.views (o.use σ.views)).sees y → σ.mem.cont y = (σ.views y).cont ∧ σ.mem.val y = (σ.views y).val ∧ lnk y = (σ.views y).cont := fun y k =>
    I.quiet y fun u th hu q => (D u th hu).m2 y q k
  have C : Calm (perm t σ.views (o.use σ.views)) σ.views ⟨σ.mem, lnk⟩ := by
    refine ⟨fun y k => ⟨(Q y k).1, (Q y k).2.1⟩, fun y k => (Q y (.inl k)).2.2, fun s => ⟨fun e => ?_, nofun⟩, I.rep, fun s y hz hw hk => ?_⟩
    · obtain ⟨th, q⟩ := I.mtx s t e
      rw [ht] at q; cases q
    · by_cases hq : ∀ u th, σ.thr u = some th → ¬ (th.perm u).mine y
      · exact .inr (by rw [← (I.quiet y hq).2.2, show lnk y = s from hk]; exact hw)
      · simp only [not_forall, not_not] at hq
        obtain ⟨u, th, hu, hm⟩ := hq
        have r := I.rng u th hu y hm
        rw [hk] at r
        rcases r with r | r | r
        · exact absurd r hz
        · exact absurd r ((D u th hu).c1 s hw).1
        · exact absurd r ((D u th hu).c1 s hw).2
  have same : ∀ u th, (σ.begin t o).thr u = some th → (u = t ∧ th = ⟨o, σ.views, o.code⟩) ∨ (u ≠ t ∧ σ.thr u = some th) := fun u th h => by
    by_cases e : u = t
    · subst e
      rw [show (σ.begin u o).thr u = _ from upd_same _ _ _] at h
      exact .inl ⟨rfl, (Option.some.inj h).symm⟩
    · rw [show (σ.begin t o).thr u = _ from upd_other _ _ e] at h
      exact .inr ⟨e, h⟩
  refine ⟨I.rep, fun u th hu => ?_, fun u th hu => ?_, fun u th hu => ?_, fun u v th th' hu hv hne => ?_, fun y hy => ?_, fun u th hu => ?_, fun s u hu => ?_⟩
  · rcases same u th hu with ⟨rfl, rfl⟩ | ⟨_, hu⟩
    · exact hl
    · exact I.legal u th hu
  · rcases same u th hu with ⟨rfl, rfl⟩ | ⟨_, hu⟩
    · exact o.safe hl C
    · exact I.act u th hu
  · rcases same u th hu with ⟨rfl, rfl⟩ | ⟨_, hu⟩
    · intro y k
      rw [C.lk y k]
      rcases k with k | k
      · exact cont_of_legal hl (.inl k)
      · exact .inr (.inr k)
    · exact I.rng u th hu
  · rcases same u th hu with ⟨rfl, rfl⟩ | ⟨_, hu⟩
    · rcases same v th' hv with ⟨rfl, rfl⟩ | ⟨_, hv⟩
      · exact absurd rfl hne
      · exact D v th' hv
    · rcases same v th' hv with ⟨rfl, rfl⟩ | ⟨_, hv⟩
      · exact (D u th (by assumption)).symm
      · exact I.dis u v th th' hu hv hne
  · refine I.quiet y fun u th hu => ?_
    have hne : u ≠ t := fun e => by rw [e, ht] at hu; cases hu
    exact hy u th (by rw [← hu]; exact upd_other _ _ hne)
  · rcases same u th hu with ⟨rfl, rfl⟩ | ⟨_, hu⟩
    · exact fun y => ⟨fun _ => rfl, .rfl⟩
    · exact I.snap u th hu
  · by_cases e : u = t
    · exact ⟨_, by rw [e]; exact upd_same _ _ _⟩
    · obtain ⟨th, q⟩ := I.mtx s u hu
      exact ⟨th, by rw [← q]; exact upd_other _ _ e⟩

theorem Act.mtx {P : Perm} {g g' : G} (w : Act P g g') {s : Nat} {u : Tid} (h : g'.mtx s = some u) : g.mtx s = some u ∨ u = P.t := by
  cases w with
  | skip => exact .inl h
  | cont v k => exact .inl h
  | val v k => exact .inl h
  | @wl p v g' w =>
    cases w with
    | next => exact .inl h
    | push => exact .inl h
    | cut h1 h2 h3 h4 h5 h6 h7 => rw [cut_mtx] at h; exact .inl h
    | wipe => exact .inl h
  | xchg => exact .inl h
  | @lock s' k =>
    have h : upd g.mtx s' _ s = _ := h
    by_cases e : s = s'
    · subst e; rw [upd_same] at h; exact .inr (Option.some.inj h).symm
    · rw [upd_other _ _ e] at h; exact .inl h
  | @unlock s' k =>
    have h : upd g.mtx s' _ s = _ := h
    by_cases e : s = s'
    · subst e; rw [upd_same] at h; cases h
    · rw [upd_other _ _ e] at h; exact .inl h

theorem Inv.exec' {σ : Sys} {lnk lnk' : Nat → Nat} {t : Tid} {th : Thread} {c : Code} {m' : Mem} (I : Inv σ lnk) (ht : σ.thr t = some th)
    (a : Act (th.perm t) ⟨σ.mem, lnk⟩ ⟨m', lnk'⟩) (w : wp (th.perm t) (Post (th.perm t) (th.op.effect th.snap)) c ⟨m', lnk'⟩) :
    Inv { σ with mem := m', thr := upd σ.thr t (some { th with code := c }) } lnk' := by
  have same : ∀ u th', upd σ.thr t (some { th with code := c }) u = some th' → (u = t ∧ th' = { th with code := c }) ∨ (u ≠ t ∧ σ.thr u = some th') := fun u th' h => by
    by_cases e : u = t
    · subst e; rw [upd_same] at h; exact .inl ⟨rfl, (Option.some.inj h).symm⟩
    · rw [upd_other _ _ e] at h; exact .inr ⟨e, h⟩
  have old : ∀ u th', σ.thr u = some th' → ∃ th'', upd σ.thr t (some { th with code := c }) u = some th'' ∧ th''.op = th'.op ∧ th''.snap = th'.snap := fun u th' h => by
    by_cases e : u = t
    · subst e; rw [ht] at h; cases h; exact ⟨_, upd_same _ _ _, rfl, rfl⟩
    · exact ⟨th', by rw [upd_other _ _ e]; exact h, rfl, rfl⟩
  have oth : ∀ u th', u ≠ t → σ.thr u = some th' → Agree (th'.perm u) ⟨σ.mem, lnk⟩ ⟨m', lnk'⟩ := fun u th' hne hu => a.other (I.dis t u th th' ht hu hne.symm)
  refine ⟨a.rep I.rep, fun u th' hu => ?_, fun u th' hu => ?_, fun u th' hu => ?_, fun u v th' th'' hu hv hne => ?_, fun y hy => ?_, fun u th' hu => ?_, fun s u hu => ?_⟩
  · rcases same u th' hu with ⟨rfl, rfl⟩ | ⟨_, hu⟩
    · exact I.legal u th ht
    · exact I.legal u th' hu
  · rcases same u th' hu with ⟨rfl, rfl⟩ | ⟨hne, hu⟩
    · exact w
    · exact wp.stable Post.stable (I.act u th' hu) (oth u th' hne hu)
  · rcases same u th' hu with ⟨rfl, rfl⟩ | ⟨hne, hu⟩
    · exact a.range (I.rng u th ht)
    · exact (oth u th' hne hu).range (I.rng u th' hu)
  · rcases same u th' hu with ⟨rfl, rfl⟩ | ⟨_, hu⟩
    · rcases same v th'' hv with ⟨rfl, rfl⟩ | ⟨_, hv⟩
      · exact absurd rfl hne
      · exact I.dis u v th th'' ht hv hne
    · rcases same v th'' hv with ⟨rfl, rfl⟩ | ⟨_, hv⟩
      · exact I.dis u v th' th (by assumption) ht hne
      · exact I.dis u v th' th'' hu hv hne
  · have hq : ∀ u th', σ.thr u = some th' → ¬ (th'.perm u).mine y := fun u th' hu => by
      obtain ⟨th'', h1, h2, h3⟩ := old u th' hu
      have := hy u th'' h1
      unfold Thread.perm Thread.use at this ⊢
      rw [h2, h3] at this; exact this
    have q := I.quiet y hq
    have o := a.own y (hq t th ht)
    exact ⟨o.1.trans q.1, o.2.1.trans q.2.1, o.2.2.trans q.2.2⟩
  · rcases same u th' hu with ⟨rfl, rfl⟩ | ⟨_, hu⟩
    · exact I.snap u th ht
    · exact I.snap u th' hu
  · rcases a.mtx hu with h | h
    · obtain ⟨th', q⟩ := I.mtx s u h
      obtain ⟨th'', h1, _⟩ := old u th' q
      exact ⟨th'', h1⟩
    · exact ⟨_, by rw [show u = t from h]; exact upd_same _ _ _⟩

theorem Inv.exec {σ : Sys} {lnk : Nat → Nat} {t : Tid} {th : Thread} {c : Code} {m : Mem} (I : Inv σ lnk) (ht : σ.thr t = some th) (he : th.code.exec t σ.mem = some (c, m)) :
    ∃ lnk', Inv { σ with mem := m, thr := upd σ.thr t (some { th with code := c }) } lnk' := by
  obtain ⟨g', e, a, w⟩ := wp.step (I.act t th ht) I.rep he
  obtain ⟨m', lnk'⟩ := g'
  obtain rfl : m' = m := e
  exact ⟨lnk', I.exec' ht a w⟩

theorem Inv.finish {σ : Sys} {lnk : Nat → Nat} {t : Tid} {th : Thread} (I : Inv σ lnk) (ht : σ.thr t = some th) (hc : th.code = .done) :
    Inv { σ with thr := upd σ.thr t none, hist := th.op :: σ.hist } lnk := by
  have post : Post (th.perm t) (th.op.effect th.snap) ⟨σ.mem, lnk⟩ := by
    have := I.act t th ht
    rw [hc] at this; exact this
  have sn := I.snap t th ht
  have cg : ∀ y, (th.perm t).mine y → th.op.effect th.snap y = th.op.effect σ.views y := fun y k => effect_congr t th.op (fun y k => (sn y).1 k) y k
  have uc : th.op.use σ.views = th.use := use_congr t th.op fun y k => (sn y).1 k
  have fr : ∀ y, ¬ (th.perm t).mine y → th.op.effect σ.views y = σ.views y := fun y k => effect_frame th.op y (by
    rw [uc]
    rintro (q | q)
    · exact k (.inl q)
    · exact k (.inr ((sn y).2.2 q)))
  have vw : ∀ y, after noViews (th.op :: σ.hist) y = th.op.effect σ.views y := fun y => rfl
  have same : ∀ u th', upd σ.thr t none u = some th' → u ≠ t ∧ σ.thr u = some th' := fun u th' h => by
    by_cases e : u = t
    · subst e; rw [upd_same] at h; cases h
    · rw [upd_other _ _ e] at h; exact ⟨e, h⟩
  refine ⟨I.rep, fun u th' hu => I.legal u th' (same u th' hu).2, fun u th' hu => I.act u th' (same u th' hu).2, fun u th' hu => I.rng u th' (same u th' hu).2,
    fun u v th' th'' hu hv hne => I.dis u v th' th'' (same u th' hu).2 (same v th'' hv).2 hne, fun y hy => ?_, fun u th' hu y => ?_, fun s u hu => ?_⟩
  · show _ = (after noViews (th.op :: σ.hist) y).cont ∧ _ = (after noViews (th.op :: σ.hist) y).val ∧ _ = (after noViews (th.op :: σ.hist) y).cont
    rw [vw]
    by_cases k : (th.perm t).mine y
    · rw [← cg y k]; exact post.2 y k
    · rw [fr y k]
      refine I.quiet y fun u th' hu q => ?_
      by_cases e : u = t
      · subst e; rw [ht] at hu; cases hu; exact k q
      · exact hy u th' (by rw [← hu]; exact upd_other _ _ e) q
  · obtain ⟨hne, hu⟩ := same u th' hu
    have d := I.dis t u th th' ht hu hne.symm
    have s' := I.snap u th' hu y
    show ((th'.perm u).sees y → th'.snap y = after noViews (th.op :: σ.hist) y) ∧ (_ ↔ (after noViews (th.op :: σ.hist) y).cont ∈ _)
    rw [vw]
    by_cases k : (th.perm t).mine y
    · refine ⟨fun q => absurd q (d.m1 y k), ⟨fun q => absurd (.inl (.inr q)) (d.m1 y k), fun q => ?_⟩⟩
      rw [← cg y k, ← (post.2 y k).2.2] at q
      rcases I.rng t th ht y k with r | r | r
      · rw [r] at q; exact absurd q (nz_of_legal (I.legal u th' hu))
      · exact absurd r (d.c2 _ q).1
      · exact absurd r (d.c2 _ q).2
    · rw [fr y k]; exact s'
  · obtain ⟨th', q⟩ := I.mtx s u hu
    have e : u ≠ t := fun e => post.1 s (by rw [show σ.mem.mtx s = some u from hu, e]; rfl)
    exact ⟨th', by rw [← q]; exact upd_other _ _ e⟩

theorem Reach.inv {σ : Sys} (h : Reach Rules σ) : ∃ lnk, Inv σ lnk := by
  induction h with
  | init => exact ⟨_, Inv.init⟩
  | begin t o h ht hr ih =>
    obtain ⟨lnk, I⟩ := ih
    exact ⟨lnk, I.begin ht hr⟩
  | @run σ σ' t h he ih =>
    obtain ⟨lnk, I⟩ := ih
    unfold Sys.run at he
    split at he
    · cases he
    · next th ht =>
      split at he
      · next hc =>
        cases he
        exact ⟨lnk, I.finish ht hc⟩
      · split at he
        · cases he
        · next c m hx =>
          cases he
          exact I.exec ht hx

/-! ### accesses -/

def Can (P : Perm) (g : G) : Loc → Bool → Prop
  | .cont y, true | .val y, true => P.mine y
  | .cont y, false | .val y, false => P.sees y
  | .link p, _ => P.canLink g p

theorem WL.can {P : Perm} {g g' : G} {p : Link} {v : Nat} (w : WL P g p v g') : P.canLink g p := by
  cases w with
  | next v h1 h2 => exact .inr ⟨h2, h1⟩
  | push h1 h2 => exact h2
  | cut h1 h2 h3 => exact canLink_of_In h1 h2 h3
  | wipe h1 h2 => exact .inl h2

theorem wp.access {P : Perm} {Q : G → Prop} {c : Code} {g : G} (w : wp P Q c g) {ℓ : Loc} {b : Bool} (h : (ℓ, b) ∈ c.access) : Can P g ℓ b := by
  cases c with
  | done => cases h
  | crash => cases h
  | lock => cases h
  | unlock => cases h
  | rdCont y k => cases List.mem_singleton.1 h; exact w.1
  | wrCont y v k => cases List.mem_singleton.1 h; exact w.1
  | rdVal y k => cases List.mem_singleton.1 h; exact w.1
  | wrVal y v k => cases List.mem_singleton.1 h; exact w.1
  | rdLink p k => cases List.mem_singleton.1 h; exact w.1
  | wrLink p v k => cases List.mem_singleton.1 h; exact w.choose_spec.1.can
  | find it p k =>
    cases List.mem_singleton.1 h
    obtain ⟨s, l, w1, w2, w3, _⟩ := w
    exact canLink_of_In w1 w2 w3
  | sweep neg it t p k =>
    cases List.mem_singleton.1 h
    obtain ⟨s, l, w1, _⟩ := w
    exact canLink_of_In w1.z (.inl w1.w) w1.i
  | setAll v y k =>
    obtain ⟨s, l, w1, w2, w3, w4, _⟩ := w
    by_cases hy : y = 0
    · rw [show (Code.setAll v y k).access = [] from if_pos hy] at h; cases h
    · rw [show (Code.setAll v y k).access = [(.cont y, true)] from if_neg hy] at h
      cases List.mem_singleton.1 h
      cases l with
      | nil => exact absurd w3 hy
      | cons z l => obtain ⟨rfl, _, _⟩ := w3; exact (w4 _ (by simp)).1
  | xchg s d k =>
    obtain ⟨w1, w2, w3, w4, w5, _⟩ := w
    unfold Code.access at h
    simp only [List.mem_cons, Prod.mk.injEq, List.not_mem_nil, or_false] at h
    rcases h with ⟨rfl, rfl⟩ | ⟨rfl, rfl⟩
    · exact .inl w4
    · exact .inl w5

theorem Can.excl {P R : Perm} {g : G} (d : Disj P R) {ℓ : Loc} {b b' : Bool} (h1 : Can P g ℓ b) (h2 : Can R g ℓ b') : b = false ∧ b' = false := by
  cases ℓ with
  | link p => exact absurd h2 (d.link h1)
  | cont y =>
    cases b <;> cases b'
    · exact ⟨rfl, rfl⟩
    · exact absurd h1 (d.m2 y h2)
    · exact absurd h2 (d.m1 y h1)
    · exact absurd (R.sub y h2) (d.m1 y h1)
  | val y =>
    cases b <;> cases b'
    · exact ⟨rfl, rfl⟩
    · exact absurd h1 (d.m2 y h2)
    · exact absurd h2 (d.m1 y h1)
    · exact absurd (R.sub y h2) (d.m1 y h1)

end MI.Mt
