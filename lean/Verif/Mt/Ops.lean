import Verif.Mt.Calls
/-!
Every operation is safe, and what it does.
-/
set_option linter.unusedVariables false
namespace MI.Mt
open MI MI.Safe

/-- What an operation may touch. -/
def perm (t : Tid) (V : Nat → View) (u : Use) : Perm where
  t := t
  mine y := y ∈ u.wIt ∨ (V y).cont ∈ u.wC
  sees y := (y ∈ u.wIt ∨ (V y).cont ∈ u.wC) ∨ y ∈ u.rIt
  rC s := s ∈ u.rC
  wC s := s ∈ u.wC
  sub _ := .inl

/-- After an operation. -/
def Post (P : Perm) (V : Nat → View) (g : G) : Prop :=
  (∀ s, g.mtx s ≠ some P.t) ∧ ∀ y, P.mine y → g.cont y = (V y).cont ∧ g.val y = (V y).val ∧ g.lnk y = (V y).cont

theorem Post.stable {P : Perm} {V : Nat → View} (g h : G) (a : Agree P g h) (p : Post P V g) : Post P V h :=
  ⟨fun s e => p.1 s ((a.mtx s).1 e), fun y k => by rw [a.cont y (P.sub y k), a.val y (P.sub y k), a.lnk y k]; exact p.2 y k⟩

theorem Calm.post {P : Perm} {T V : Nat → View} {g : G} (n : Calm P T g) (h : ∀ y, P.mine y → T y = V y) : Post P V g :=
  ⟨fun s => (n.mtx s).1, fun y k => by rw [← h y k]; exact ⟨(n.cv y (P.sub y k)).1, (n.cv y (P.sub y k)).2, n.lk y k⟩⟩

theorem Calm.setVal {P : Perm} {T : Nat → View} {g : G} (n : Calm P T g) (y : Nat) (v : Id × Bool) : Calm P (upd T y ⟨(T y).cont, v⟩) (g.setVal y v) :=
  (Now.setVal n y v).calm (fun z _ => by
    by_cases e : z = y
    · subst e; rw [upd_same]
    · rw [upd_other _ _ e]) fun _ k => k

theorem upd_upd {α : Type} (f : Nat → α) (i : Nat) (a b : α) : upd (upd f i a) i b = upd f i b := by
  funext y
  by_cases e : y = i
  · subst e; rw [upd_same, upd_same]
  · rw [upd_other _ _ e, upd_other _ _ e, upd_other _ _ e]

variable {t : Tid} {V : Nat → View} {g : G}

theorem safe_make {it s : Nat} {x : Id} (hl : (Op.make it s x).Legal V) (n : Calm (perm t V ((Op.make it s x).use V)) V g) :
    wp (perm t V ((Op.make it s x).use V)) (Post (perm t V ((Op.make it s x).use V)) ((Op.make it s x).effect V)) (Op.make it s x).code g :=
  wp_make n (.inl (by simp [Op.use])) hl.1 hl.2.1 (fun _ => .inl (by simp [Op.use, perm])) fun h c => c.post fun y _ => rfl

theorem safe_blank {it : Nat} {x : Id} (hl : (Op.blank it x).Legal V) (n : Calm (perm t V ((Op.blank it x).use V)) V g) :
    wp (perm t V ((Op.blank it x).use V)) (Post (perm t V ((Op.blank it x).use V)) ((Op.blank it x).effect V)) (Op.blank it x).code g := by
  have hm : (perm t V ((Op.blank it x).use V)).mine it := .inl (by simp [Op.use])
  have n1 := Now.setCont (n.setVal it (x, false)) it 0
  have l0 : ((g.setVal it (x, false)).setCont it 0).lnk it = 0 := (n.lk it hm).trans hl.2
  refine ⟨hm, hm, _, .next _ hm l0, ?_⟩
  refine Calm.post ((n1.next 0 hm l0).calm (fun y _ => ?_) fun _ k => k) fun y _ => ?_
  · by_cases e : y = it
    · subst e; rw [upd_same, upd_same]; exact hl.2
    · rw [upd_other _ _ e, upd_other _ _ e, upd_other _ _ e]
  · rw [upd_upd, upd_same]; rfl

theorem safe_copy {it a : Nat} (hl : (Op.copy it a).Legal V) (n : Calm (perm t V ((Op.copy it a).use V)) V g) :
    wp (perm t V ((Op.copy it a).use V)) (Post (perm t V ((Op.copy it a).use V)) ((Op.copy it a).effect V)) (Op.copy it a).code g :=
  wp_copy n (.inl (by simp [Op.use])) hl.1 hl.2.1 (.inr (by simp [Op.use])) hl.2.2 (fun _ => .inl (by simp [Op.use, perm])) fun h c => c.post fun y _ => rfl

theorem safe_assign {it a : Nat} (hl : (Op.assign it a).Legal V) (n : Calm (perm t V ((Op.assign it a).use V)) V g) :
    wp (perm t V ((Op.assign it a).use V)) (Post (perm t V ((Op.assign it a).use V)) ((Op.assign it a).effect V)) (Op.assign it a).code g := by
  have hm : (perm t V ((Op.assign it a).use V)).mine it := .inl (by simp [Op.use])
  have ha : (perm t V ((Op.assign it a).use V)).sees a := .inr (by simp [Op.use])
  refine ⟨ha, ha, ?_⟩
  dsimp only
  rw [(n.cv a ha).1, (n.cv a ha).2, if_pos (show (V a).cont ≠ 0 ∨ (V a).val.2 = true from hl.2)]
  have n1 := n.setVal it (V a).val
  refine ⟨hm, ha, (perm t V ((Op.assign it a).use V)).sub it hm, ?_⟩
  have e1 : (g.setVal it (V a).val).cont a = (V a).cont := (n.cv a ha).1
  have e2 : (g.setVal it (V a).val).cont it = (V it).cont := (n.cv it ((perm t V ((Op.assign it a).use V)).sub it hm)).1
  dsimp only
  rw [e1, e2]
  by_cases e : (V it).cont = (V a).cont
  · rw [if_pos e]
    refine n1.post fun y _ => ?_
    rw [e]; rfl
  · rw [if_neg e]
    refine wp_detach n1 hm (fun _ => .inl (by rw [upd_same]; simp [Op.use, perm])) fun h c => ?_
    rw [upd_upd, upd_same] at c
    refine wp_attach c hm hl.1 (by rw [upd_same]) (fun _ => .inl (by simp [Op.use, perm])) fun h c => ?_
    rw [upd_upd, upd_same] at c
    exact c.post fun y _ => rfl

theorem safe_load {it : Nat} {x : Id} (hl : (Op.load it x).Legal V) (n : Calm (perm t V ((Op.load it x).use V)) V g) :
    wp (perm t V ((Op.load it x).use V)) (Post (perm t V ((Op.load it x).use V)) ((Op.load it x).effect V)) (Op.load it x).code g := by
  have hm : (perm t V ((Op.load it x).use V)).mine it := .inl (by simp [Op.use])
  refine ⟨.inl hm, hm, ?_⟩
  refine wp_detach (n.setVal it _) hm (fun _ => .inl (by rw [upd_same]; simp [Op.use, perm])) fun h c => ⟨hm, ?_⟩
  have c := c.setVal it (x, true)
  rw [upd_upd, upd_upd, upd_same] at c
  exact c.post fun y _ => rfl

theorem safe_drop {it : Nat} (hl : (Op.drop it).Legal V) (n : Calm (perm t V ((Op.drop it).use V)) V g) :
    wp (perm t V ((Op.drop it).use V)) (Post (perm t V ((Op.drop it).use V)) ((Op.drop it).effect V)) (Op.drop it).code g :=
  wp_detach n (.inl (by simp [Op.use])) (fun _ => .inl (by simp [Op.use, perm])) fun h c => c.post fun y _ => rfl

theorem wp_testV {P : Perm} {Q : G → Prop} {T : Nat → View} {H : Nat → Prop} {K : Nat → Nat} {g : G} {a b : Nat} {k : Bool → Code} (n : Now P H T K g) (h1 : P.sees a) (h2 : P.sees b)
    (u1 : (T a).Usable) (u2 : (T b).Usable) (u3 : (T a).cont = (T b).cont ∨ (T a).val.2 = true ∨ (T b).val.2 = true) (w : ∀ b, wp P Q (k b) g) : wp P Q (testCode a b k) g := by
  refine wp_test h1 h2 ?_ (w _)
  rw [(n.cv a h1).1, (n.cv a h1).2, (n.cv b h2).1, (n.cv b h2).2]
  refine ⟨u1, u2, ?_⟩
  rcases u3 with u3 | u3
  · rcases u1 with u1 | u1
    · exact .inl ⟨u1, by rw [← u3]; exact u1, u3⟩
    · exact .inr (.inl u1)
  · exact .inr u3

theorem safe_compare {a b : Nat} (hl : (Op.compare a b).Legal V) (n : Calm (perm t V ((Op.compare a b).use V)) V g) :
    wp (perm t V ((Op.compare a b).use V)) (Post (perm t V ((Op.compare a b).use V)) ((Op.compare a b).effect V)) (Op.compare a b).code g :=
  wp_testV n (.inr (by simp [Op.use])) (.inr (by simp [Op.use])) hl.1 hl.2.1 hl.2.2 (k := fun _ => .done) fun _ => n.post fun _ _ => rfl

theorem safe_deref {a tmp : Nat} {hd : Id} (hl : (Op.deref a tmp hd).Legal V) (n : Calm (perm t V ((Op.deref a tmp hd).use V)) V g) :
    wp (perm t V ((Op.deref a tmp hd).use V)) (Post (perm t V ((Op.deref a tmp hd).use V)) ((Op.deref a tmp hd).effect V)) (Op.deref a tmp hd).code g := by
  have hm : (perm t V ((Op.deref a tmp hd).use V)).mine tmp := .inl (by simp [Op.use])
  have ha : (perm t V ((Op.deref a tmp hd).use V)).sees a := .inr (by simp [Op.use])
  refine ⟨ha, ha, ?_⟩
  dsimp only
  rw [(n.cv a ha).1, (n.cv a ha).2, if_pos (show (V a).cont ≠ 0 ∨ (V a).val.2 = true from hl.1)]
  by_cases e : (V a).cont = 0
  · rw [if_pos e]
    exact n.post fun y _ => by show _ = (if _ then _ else _ : Nat → View) y; rw [if_pos e]
  · rw [if_neg e]
    refine wp_make n hm hl.2.1 hl.2.2.1 (fun _ => .inl (by simp [Op.use, perm])) fun h c => ?_
    refine wp_testV c ha (.inl hm) ?_ (by rw [upd_same]; exact .inl e) (.inl ?_) fun b => ?_
    · rw [upd_other _ _ hl.2.2.2]; exact .inl e
    · rw [upd_other _ _ hl.2.2.2, upd_same]
    · refine wp_detach c hm (fun _ => .inl (by rw [upd_same]; simp [Op.use, perm])) fun h c => c.post fun y _ => ?_
      rw [upd_upd, upd_same]
      show _ = (if _ then _ else _ : Nat → View) y
      rw [if_neg e]

/-! ### operations that change an index -/

theorem Now.wide {P : Perm} {H H' : Nat → Prop} {T : Nat → View} {K : Nat → Nat} {g : G} (n : Now P H T K g) (h : ∀ s, H' s ↔ H s) : Now P H' T K g :=
  n.congr (fun _ _ => rfl) (fun _ _ => rfl) h

theorem safe_erase {it s : Nat} {x : Id} (hl : (Op.erase it s x).Legal V) (n : Calm (perm t V ((Op.erase it s x).use V)) V g) :
    wp (perm t V ((Op.erase it s x).use V)) (Post (perm t V ((Op.erase it s x).use V)) ((Op.erase it s x).effect V)) (Op.erase it s x).code g := by
  have hm : (perm t V ((Op.erase it s x).use V)).mine it := .inl (by simp [Op.use])
  have hw : (perm t V ((Op.erase it s x).use V)).wC s := by simp [Op.use, perm]
  have hsm : ∀ y, (perm t V ((Op.erase it s x).use V)).sees y → (perm t V ((Op.erase it s x).use V)).mine y := fun y k => k.resolve_right (by simp [Op.use])
  obtain ⟨l1, l2, l3⟩ := hl
  refine wp_make n hm l1 l2 (fun _ => .inr hw) fun h c => ⟨.inl hm, ?_⟩
  dsimp only
  rw [(c.cv it (.inl hm)).1, upd_same, if_neg l3]
  refine wp_lock c (.inr hw) (fun k => k) fun h c hh => wp_sweep c hw l3 (Ne.symm l3) (.inl rfl) (.inl hm) (by rw [upd_same]) hsm fun h c => ⟨(c.mtx s).2 (.inr rfl), ?_⟩
  refine wp_detach (Now.calm (c.unlock s) (fun y _ => ?_) fun u k => k.2 (k.1.resolve_left fun q => q)) hm ?_ fun h c => wp_detach c hm ?_ fun h c => c.post fun y _ => ?_
  · dsimp only; split <;> rfl
  · intro _
    rw [if_neg (by simp [hitV]), upd_same]
    exact .inr hw
  · intro k
    rw [upd_same] at k; exact absurd rfl k
  · rw [upd_upd, upd_same]
    unfold Op.effect
    dsimp only
    by_cases e : y = it
    · subst e; rw [upd_same, upd_same, if_neg (by simp [hitV]), upd_same]
    · rw [upd_other _ _ e, upd_other _ _ e]
      simp only [hitV, upd_other _ _ e, upd_same, e, ne_eq, not_false_eq_true, true_and, Bool.false_eq_true, if_false]

theorem safe_clear {tmp s : Nat} {hd : Id} (hl : (Op.clear tmp s hd).Legal V) (n : Calm (perm t V ((Op.clear tmp s hd).use V)) V g) :
    wp (perm t V ((Op.clear tmp s hd).use V)) (Post (perm t V ((Op.clear tmp s hd).use V)) ((Op.clear tmp s hd).effect V)) (Op.clear tmp s hd).code g := by
  have hm : (perm t V ((Op.clear tmp s hd).use V)).mine tmp := .inl (by simp [Op.use])
  have hw : (perm t V ((Op.clear tmp s hd).use V)).wC s := by simp [Op.use, perm]
  have hsm : ∀ y, (perm t V ((Op.clear tmp s hd).use V)).sees y → (perm t V ((Op.clear tmp s hd).use V)).mine y := fun y k => k.resolve_right (by simp [Op.use])
  obtain ⟨l1, l2, l3⟩ := hl
  refine wp_make n hm l1 l2 (fun _ => .inr hw) fun h c => ?_
  refine wp_sweep c hw l3 (Ne.symm l3) (.inl rfl) (.inl hm) (by rw [upd_same]) hsm fun h c => ?_
  refine wp_detach (Now.calm c (fun y _ => ?_) fun _ k => k) hm ?_ fun h c => c.post fun y _ => ?_
  · split <;> rfl
  · intro _
    rw [if_neg (by simp [hitV]), upd_same]
    exact .inr hw
  · unfold Op.effect
    dsimp only
    by_cases e : y = tmp
    · subst e; rw [upd_same, upd_same, if_neg (by simp [hitV]), upd_same]
    · rw [upd_other _ _ e, upd_other _ _ e]
      simp only [hitV, upd_other _ _ e, upd_same, if_true]

theorem safe_destroy {s : Nat} (hl : (Op.destroy s).Legal V) (n : Calm (perm t V ((Op.destroy s).use V)) V g) :
    wp (perm t V ((Op.destroy s).use V)) (Post (perm t V ((Op.destroy s).use V)) ((Op.destroy s).effect V)) (Op.destroy s).code g := by
  have hw : (perm t V ((Op.destroy s).use V)).wC s := by simp [Op.use, perm]
  have hsm : ∀ y, (perm t V ((Op.destroy s).use V)).sees y → (perm t V ((Op.destroy s).use V)).mine y := fun y k => k.resolve_right (by simp [Op.use])
  have l3 : s ≠ 0 := hl
  refine wp_setAll n hw l3 hsm fun h c => ⟨_, .wipe l3 hw fun y k => c.all s y l3 hw k, fun u => (c.mtx u).1, fun y k => ?_⟩
  have ek : (h.wipe s).lnk y = if h.lnk y = s then 0 else h.lnk y := rfl
  have ec : (h.wipe s).cont y = h.cont y := rfl
  have ev : (h.wipe s).val y = h.val y := rfl
  rw [ek, ec, ev, c.lk y k, (c.cv y (.inl k)).1, (c.cv y (.inl k)).2]
  show _ = (if _ then _ else _ : View).cont ∧ _ = (if _ then _ else _ : View).val ∧ _ = (if _ then _ else _ : View).cont
  by_cases e : (V y).cont = s
  · simp [e]
  · simp [e]

theorem safe_swap {s d : Nat} (hl : (Op.swap s d).Legal V) (n : Calm (perm t V ((Op.swap s d).use V)) V g) :
    wp (perm t V ((Op.swap s d).use V)) (Post (perm t V ((Op.swap s d).use V)) ((Op.swap s d).effect V)) (Op.swap s d).code g := by
  have hw : (perm t V ((Op.swap s d).use V)).wC s := by simp [Op.use, perm]
  have hx : (perm t V ((Op.swap s d).use V)).wC d := by simp [Op.use, perm]
  have hsm : ∀ y, (perm t V ((Op.swap s d).use V)).sees y → (perm t V ((Op.swap s d).use V)).mine y := fun y k => k.resolve_right (by simp [Op.use])
  obtain ⟨l1, l2, l3⟩ := hl
  refine wp_setAll n hw l1 hsm fun h c => wp_setAll c hx l2 hsm fun h c => ⟨l1, l2, l3, hw, hx, ?_, fun u => (c.mtx u).1, fun y k => ?_⟩
  · rintro y (k | k)
    · exact c.all s y l1 hw k
    · exact c.all d y l2 hx k
  have ek : (h.xchg s d).lnk y = if h.lnk y = s then d else if h.lnk y = d then s else h.lnk y := rfl
  have ec : (h.xchg s d).cont y = h.cont y := rfl
  have ev : (h.xchg s d).val y = h.val y := rfl
  rw [ek, ec, ev, c.lk y k, (c.cv y (.inl k)).1, (c.cv y (.inl k)).2]
  show _ = (if _ then _ else if _ then _ else _ : View).cont ∧ _ = (if _ then _ else if _ then _ else _ : View).val ∧ _ = (if _ then _ else if _ then _ else _ : View).cont
  by_cases e : (V y).cont = s
  · have e2 : (V y).cont ≠ d := fun q => l3 (e.symm.trans q)
    simp [e, e2, l3]
  · by_cases e2 : (V y).cont = d
    · simp [e2, Ne.symm l3]
    · simp [e, e2]

theorem safe_transfer {it it2 tmp s d : Nat} {hd x : Id} (hl : (Op.transfer it it2 tmp s d hd x).Legal V) (n : Calm (perm t V ((Op.transfer it it2 tmp s d hd x).use V)) V g) :
    wp (perm t V ((Op.transfer it it2 tmp s d hd x).use V)) (Post (perm t V ((Op.transfer it it2 tmp s d hd x).use V)) ((Op.transfer it it2 tmp s d hd x).effect V))
      (Op.transfer it it2 tmp s d hd x).code g := by
  have hm : (perm t V ((Op.transfer it it2 tmp s d hd x).use V)).mine it := .inl (by simp [Op.use])
  have hm2 : (perm t V ((Op.transfer it it2 tmp s d hd x).use V)).mine it2 := .inl (by simp [Op.use])
  have hm3 : (perm t V ((Op.transfer it it2 tmp s d hd x).use V)).mine tmp := .inl (by simp [Op.use])
  have hw : (perm t V ((Op.transfer it it2 tmp s d hd x).use V)).wC s := by simp [Op.use, perm]
  have hx : (perm t V ((Op.transfer it it2 tmp s d hd x).use V)).wC d := by simp [Op.use, perm]
  have hsm : ∀ y, (perm t V ((Op.transfer it it2 tmp s d hd x).use V)).sees y → (perm t V ((Op.transfer it it2 tmp s d hd x).use V)).mine y := fun y k => k.resolve_right (by simp [Op.use])
  obtain ⟨z1, z2, z3, n12, n13, n23, c1, c2, c3, hs, hd0, hsd⟩ := hl
  refine wp_make n hm z1 c1 (fun _ => .inr hw) fun h c => ?_
  refine wp_copy c hm2 z2 (by rw [upd_other _ _ (Ne.symm n12)]; exact c2) (.inl hm) n12 (by rw [upd_same]; exact fun _ => .inr hw) fun h c => ⟨.inl hm2, ?_⟩
  dsimp only
  rw [upd_same] at c
  rw [(c.cv it2 (.inl hm2)).1, upd_same, if_neg hs]
  refine wp_make c hm3 z3 (by rw [upd_other _ _ (Ne.symm n23), upd_other _ _ (Ne.symm n13)]; exact c3) (fun _ => .inr hx) fun h c => ⟨.inl hm3, ?_⟩
  dsimp only
  rw [(c.cv tmp (.inl hm3)).1, upd_same]
  refine wp_detach c hm3 (by rw [upd_same]; exact fun _ => .inr hx) fun h c => ?_
  rw [upd_upd, upd_same] at c
  -- the views now
  have e1 : ∀ {T : Nat → View}, (fun y => upd (upd (upd V it ⟨s, (x, false)⟩) it2 ⟨s, (x, false)⟩) tmp ⟨0, (hd, false)⟩ y) = T →
      (T it = ⟨s, (x, false)⟩ ∧ T it2 = ⟨s, (x, false)⟩ ∧ T tmp = ⟨0, (hd, false)⟩ ∧ ∀ y, y ≠ it → y ≠ it2 → y ≠ tmp → T y = V y) := by
    rintro T rfl
    dsimp only
    refine ⟨?_, ?_, upd_same _ _ _, fun y k1 k2 k3 => ?_⟩
    · rw [upd_other _ _ n13, upd_other _ _ n12, upd_same]
    · rw [upd_other _ _ n23, upd_same]
    · rw [upd_other _ _ k3, upd_other _ _ k2, upd_other _ _ k1]
  generalize upd (upd (upd V it ⟨s, (x, false)⟩) it2 ⟨s, (x, false)⟩) tmp ⟨0, (hd, false)⟩ = T at c e1
  obtain ⟨t1, t2, t3, t4⟩ := e1 rfl
  have bi : ∀ k, (∀ h, Now (perm t V ((Op.transfer it it2 tmp s d hd x).use V)) (fun u => u = s ∨ u = d) T (fun y => (T y).cont) h →
      wp (perm t V ((Op.transfer it it2 tmp s d hd x).use V)) (Post (perm t V ((Op.transfer it it2 tmp s d hd x).use V)) ((Op.transfer it it2 tmp s d hd x).effect V)) k h) →
      wp (perm t V ((Op.transfer it it2 tmp s d hd x).use V)) (Post (perm t V ((Op.transfer it it2 tmp s d hd x).use V)) ((Op.transfer it it2 tmp s d hd x).effect V)) (bilockCode s d k) h := by
    intro k w
    unfold bilockCode
    rw [if_neg hsd]
    by_cases lt : s < d
    · rw [if_pos lt, if_pos lt]
      exact wp_lock c (.inr hw) (fun k => k) fun h c _ => wp_lock c (.inr hx) (fun k => k.elim id fun e => hsd e.symm) fun h c _ => w h (c.wide fun u => by simp)
    · rw [if_neg lt, if_neg lt]
      exact wp_lock c (.inr hx) (fun k => k) fun h c _ => wp_lock c (.inr hw) (fun k => k.elim id hsd) fun h c _ => w h (c.wide fun u => by simp [or_comm])
  refine bi _ fun h c => wp_sweep c hw hs (Ne.symm hsd) (.inr hx) (.inl hm2) (by rw [t2]) hsm fun h c => ?_
  -- unlocking
  have un : ∀ k, (∀ h, Calm (perm t V ((Op.transfer it it2 tmp s d hd x).use V)) (fun y => if (T y).cont = s ∧ hitV T false it2 y then ⟨d, (T y).val⟩ else T y) h →
      wp (perm t V ((Op.transfer it it2 tmp s d hd x).use V)) (Post (perm t V ((Op.transfer it it2 tmp s d hd x).use V)) ((Op.transfer it it2 tmp s d hd x).effect V)) k h) →
      wp (perm t V ((Op.transfer it it2 tmp s d hd x).use V)) (Post (perm t V ((Op.transfer it it2 tmp s d hd x).use V)) ((Op.transfer it it2 tmp s d hd x).effect V)) (biunlockCode s d k) h := by
    intro k w
    unfold biunlockCode
    rw [if_neg hsd]
    by_cases lt : s < d
    · rw [if_pos lt, if_pos lt]
      refine ⟨(c.mtx s).2 (.inl rfl), ((c.unlock s).mtx d).2 ⟨.inr rfl, Ne.symm hsd⟩, w _ (Now.calm ((c.unlock s).unlock d) (fun y _ => ?_) ?_)⟩
      · dsimp only; split <;> rfl
      · rintro u ⟨⟨k | k, k1⟩, k2⟩
        · exact k1 k
        · exact k2 k
    · rw [if_neg lt, if_neg lt]
      refine ⟨(c.mtx d).2 (.inr rfl), ((c.unlock d).mtx s).2 ⟨.inl rfl, hsd⟩, w _ (Now.calm ((c.unlock d).unlock s) (fun y _ => ?_) ?_)⟩
      · dsimp only; split <;> rfl
      · rintro u ⟨⟨k | k, k1⟩, k2⟩
        · exact k2 k
        · exact k1 k
  have h2 : (if (T it2).cont = s ∧ hitV T false it2 it2 then (⟨d, (T it2).val⟩ : View) else T it2) = ⟨s, (x, false)⟩ := by rw [if_neg (by simp [hitV]), t2]
  have h1 : (if (T it).cont = s ∧ hitV T false it2 it then (⟨d, (T it).val⟩ : View) else T it) = ⟨d, (x, false)⟩ := by
    rw [if_pos ⟨by rw [t1], by simp [hitV, n12, t1, t2]⟩, t1]
  have h3 : (if (T tmp).cont = s ∧ hitV T false it2 tmp then (⟨d, (T tmp).val⟩ : View) else T tmp) = ⟨0, (hd, false)⟩ := by
    rw [if_neg (fun k => hs (by rw [← k.1, t3])), t3]
  refine un _ fun h c => wp_detach c hm2 (by rw [h2]; exact fun _ => .inr hw) fun h c => wp_detach c hm ?_ fun h c => c.post fun y _ => ?_
  · rw [upd_other _ _ n12, h1]; exact fun _ => .inr hx
  · rw [upd_other _ _ n12, h1, h2]
    unfold Op.effect
    dsimp only
    by_cases k3 : y = tmp
    · subst k3
      rw [upd_other _ _ (Ne.symm n13), upd_other _ _ (Ne.symm n23), h3, upd_same]
    · rw [upd_other _ _ k3]
      by_cases k2 : y = it2
      · subst k2; rw [upd_other _ _ (Ne.symm n12), upd_same, upd_same]
      · rw [upd_other _ _ k2]
        by_cases k1 : y = it
        · subst k1; rw [upd_same, upd_same]
        · rw [upd_other _ _ k1, upd_other _ _ k2, upd_other _ _ k1, t4 y k1 k2 k3]
          simp only [hitV, t4 y k1 k2 k3, t2, k2, ne_eq, not_false_eq_true, true_and, Bool.false_eq_true, if_false]

/-- Every operation is safe. -/
theorem Op.safe (o : Op) (hl : o.Legal V) (n : Calm (perm t V (o.use V)) V g) : wp (perm t V (o.use V)) (Post (perm t V (o.use V)) (o.effect V)) o.code g := by
  cases o with
  | make => exact safe_make hl n
  | blank => exact safe_blank hl n
  | copy => exact safe_copy hl n
  | assign => exact safe_assign hl n
  | load => exact safe_load hl n
  | drop => exact safe_drop hl n
  | compare => exact safe_compare hl n
  | deref => exact safe_deref hl n
  | erase => exact safe_erase hl n
  | clear => exact safe_clear hl n
  | transfer => exact safe_transfer hl n
  | destroy => exact safe_destroy hl n
  | swap => exact safe_swap hl n

end MI.Mt
