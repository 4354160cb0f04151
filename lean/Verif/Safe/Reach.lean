import Verif.Safe.FateStep
/-!
The invariant of programs in safe mode.
-/
set_option linter.unusedVariables false
namespace MI.Safe
open MI MI.Cont
variable {V : Type}

theorem lib_inv {s : State V} {o : Op V} {w' : World V} {sid' : List (List Nat)} {r' : Reg} (I : SInv s) (J : Inv w') (R : Rep r' s.live) (S : Shape w' sid')
    (L : LibOk s o w' sid' r') : SInv ⟨w', r', s.live, sid'⟩ := by
  refine ⟨J, S, R, fun y hy h => ?_, fun y hy h => ?_⟩
  · have h0 : s.reg.cont y ≠ 0 := fun k => h (L.dead y hy k)
    obtain ⟨i, k, l⟩ := I.loc y hy h0
    rcases L.fate y hy i k l with ⟨⟨i', q⟩, -⟩ | ⟨q, -⟩
    · exact ⟨i', k, q⟩
    · exact absurd q h
  · have h0 : s.reg.unchecked y = true := by rw [← L.unchecked y hy]; exact h
    exact L.dead y hy (I.raw y hy h0)

/-- A legal step of the library. -/
theorem lib_step {s : State V} {o : Op V} {t : Tmp} {ids : List Nat} (I : SInv s) (l : s.Legal (.lib o t ids)) :
    ∃ s' r0, ((s.step (.lib o t ids) = .ok s' ∧ s.w.step o = .ok (s'.w, r0)) ∨ (s.step (.lib o t ids) = .threw s' ∧ s.w.step o = .threw (s'.w, r0))) ∧
      SInv s' ∧ s'.live = s.live ∧ LibOk s o s'.w s'.sid s'.reg := by
  obtain ⟨w', r0, h, J⟩ := step_safe I.inv l.1
  obtain ⟨r', k1, k2, k3, k4⟩ := lib_ok I l h
  refine ⟨⟨w', r', s.live, s.sidStep ids w' o⟩, r0, ?_, lib_inv I J k2 k3 k4, rfl, k4⟩
  rcases h with h | h
  · left; exact ⟨by simp only [State.step, h, k1], h⟩
  · right; exact ⟨by simp only [State.step, h, k1], h⟩

/-- What a legal operation on an iterator does: it changes at most the iterator it is applied to. -/
theorem it_step {s : State V} {o : ItOp} (I : SInv s) (l : s.Legal (.it o)) :
    ∃ s', s.step (.it o) = .ok s' ∧ SInv s' ∧ s'.w = s.w ∧ s'.sid = s.sid := by
  have hb : s.live.length < s.budget := by unfold State.budget; omega
  cases o with
  | make it i k x =>
    obtain ⟨⟨z, nl⟩, c, hc, hk, hx⟩ := l
    have hk' : k < (s.sid.getD i []).length := by rw [I.shape.row i c hc]; exact hk
    obtain ⟨m1, m2, m3, m4⟩ := make_spec (s := (s.sid.getD i [])[k]) (x := x) I.rep z nl
    refine ⟨⟨s.w, s.reg.make it (s.sid.getD i [])[k] x, it :: s.live, s.sid⟩, by simp only [State.step, List.getElem?_eq_getElem hk'], ⟨I.inv, I.shape, m1, fun y hy h => ?_, fun y hy h => ?_⟩, rfl, rfl⟩
    · rcases List.mem_cons.1 hy with rfl | hl
      · refine ⟨i, k, c, hc, ?_, ?_⟩
        · dsimp only; rw [m2, upd_same]; exact List.getElem?_eq_getElem hk'
        · dsimp only; rw [m3, upd_same]; exact hx
      · have ne : y ≠ it := by rintro rfl; exact nl hl
        dsimp only at h
        rw [m2, upd_other _ _ ne] at h
        obtain ⟨i', k', c', a, b, d⟩ := I.loc y hl h
        refine ⟨i', k', c', a, ?_, ?_⟩
        · dsimp only; rw [m2, upd_other _ _ ne]; exact b
        · dsimp only; rw [m3, upd_other _ _ ne]; exact d
    · dsimp only at h ⊢
      rw [m4] at h
      rw [m2]
      rcases List.mem_cons.1 hy with rfl | hl
      · rw [upd_same] at h; exact nomatch h
      · have ne : y ≠ it := by rintro rfl; exact nl hl
        rw [upd_other _ _ ne] at h ⊢
        exact I.raw y hl h
  | blank it x =>
    obtain ⟨z, nl⟩ := l
    refine ⟨⟨s.w, s.reg.blank it x, it :: s.live, s.sid⟩, rfl, ⟨I.inv, I.shape, blank_spec I.rep z nl, fun y hy h => ?_, fun y hy h => ?_⟩, rfl, rfl⟩
    · change upd s.reg.cont it 0 y ≠ 0 at h
      rcases List.mem_cons.1 hy with rfl | hl
      · rw [upd_same] at h; exact absurd rfl h
      · have ne : y ≠ it := by rintro rfl; exact nl hl
        rw [upd_other _ _ ne] at h
        obtain ⟨i', k', c', a, b, d⟩ := I.loc y hl h
        refine ⟨i', k', c', a, ?_, ?_⟩
        · show _ = some (upd s.reg.cont it 0 y); rw [upd_other _ _ ne]; exact b
        · show Has c' (upd s.reg.node it x y); rw [upd_other _ _ ne]; exact d
    · show upd s.reg.cont it 0 y = 0
      change upd s.reg.unchecked it false y = true at h
      rcases List.mem_cons.1 hy with rfl | hl
      · exact upd_same _ _ _
      · have ne : y ≠ it := by rintro rfl; exact nl hl
        rw [upd_other _ _ ne] at h ⊢
        exact I.raw y hl h
  | copy it a =>
    obtain ⟨⟨z, nl⟩, ha⟩ := l
    obtain ⟨m1, m2, m3, m4⟩ := copy_spec (a := a) I.rep z nl
    refine ⟨⟨s.w, s.reg.copy it a, it :: s.live, s.sid⟩, rfl, ⟨I.inv, I.shape, m1, fun y hy h => ?_, fun y hy h => ?_⟩, rfl, rfl⟩
    · dsimp only at h
      unfold Located
      dsimp only
      rw [m2] at h ⊢
      rw [m3]
      by_cases e : y = it
      · subst e
        rw [upd_same] at h
        rw [upd_same, upd_same]
        exact I.loc a ha h
      · rw [upd_other _ _ e] at h
        rw [upd_other _ _ e, upd_other _ _ e]
        exact I.loc y ((List.mem_cons.1 hy).resolve_left e) h
    · dsimp only at h ⊢
      rw [m4] at h
      rw [m2]
      by_cases e : y = it
      · subst e
        rw [upd_same] at h ⊢
        exact I.raw a ha h
      · rw [upd_other _ _ e] at h ⊢
        exact I.raw y ((List.mem_cons.1 hy).resolve_left e) h
  | assign it a =>
    obtain ⟨hi, ha, -⟩ := l
    obtain ⟨r', k1, m1, m2, m3, m4⟩ := assign_spec (a := a) I.rep hi hb
    refine ⟨⟨s.w, r', s.live, s.sid⟩, by simp only [State.step, k1], ⟨I.inv, I.shape, m1, fun y hy h => ?_, fun y hy h => ?_⟩, rfl, rfl⟩
    · dsimp only at h
      unfold Located
      dsimp only
      rw [m2] at h ⊢
      rw [m3]
      by_cases e : y = it
      · subst e
        rw [upd_same] at h
        rw [upd_same, upd_same]
        exact I.loc a ha h
      · rw [upd_other _ _ e] at h
        rw [upd_other _ _ e, upd_other _ _ e]
        exact I.loc y hy h
    · dsimp only at h ⊢
      rw [m4] at h
      rw [m2]
      by_cases e : y = it
      · subst e
        rw [upd_same] at h ⊢
        exact I.raw a ha h
      · rw [upd_other _ _ e] at h ⊢
        exact I.raw y hy h
  | drop it =>
    obtain ⟨r', k1, k2⟩ := detach_spec I.rep l hb
    have er : ∀ y, y ∈ s.live.erase it → y ∈ s.live := fun y h => List.mem_of_mem_erase h
    refine ⟨⟨s.w, r', s.live.erase it, s.sid⟩, by simp only [State.step, k1], ⟨I.inv, I.shape, ?_, fun y hy h => ?_, fun y hy h => ?_⟩, rfl, rfl⟩
    · exact k2.rep.drop (it := it) (by rw [k2.cont, upd_same]) er (fun y hy ne => (List.mem_erase_of_ne ne).2 hy)
    · dsimp only at h
      unfold Located
      dsimp only
      rw [k2.cont] at h ⊢
      rw [k2.node]
      by_cases e : y = it
      · subst e; rw [upd_same] at h; exact absurd rfl h
      · rw [upd_other _ _ e] at h ⊢
        exact I.loc y (er y hy) h
    · dsimp only at h ⊢
      rw [k2.unchecked] at h
      rw [k2.cont]
      by_cases e : y = it
      · subst e; exact upd_same _ _ _
      · rw [upd_other _ _ e]; exact I.raw y (er y hy) h
  | move it x =>
    obtain ⟨hi, i, k, c, h1, h2, h3⟩ := l
    refine ⟨⟨s.w, { s.reg with node := upd s.reg.node it x }, s.live, s.sid⟩, rfl, ⟨I.inv, I.shape, I.rep.fields rfl rfl rfl, fun y hy h => ?_, I.raw⟩, rfl, rfl⟩
    unfold Located
    dsimp only
    by_cases e : y = it
    · subst e
      rw [upd_same]
      exact ⟨i, k, c, h1, h2, h3⟩
    · rw [upd_other _ _ e]
      exact I.loc y hy h
  | load it x =>
    obtain ⟨r', k1, m1, m2, m3, m4⟩ := load_spec (x := x) I.rep l hb
    refine ⟨⟨s.w, r', s.live, s.sid⟩, by simp only [State.step, k1], ⟨I.inv, I.shape, m1, fun y hy h => ?_, fun y hy h => ?_⟩, rfl, rfl⟩
    · dsimp only at h
      unfold Located
      dsimp only
      rw [m2] at h ⊢
      rw [m3]
      by_cases e : y = it
      · subst e; rw [upd_same] at h; exact absurd rfl h
      · rw [upd_other _ _ e] at h
        rw [upd_other _ _ e, upd_other _ _ e]
        exact I.loc y hy h
    · dsimp only at h ⊢
      rw [m4] at h
      rw [m2]
      by_cases e : y = it
      · subst e; exact upd_same _ _ _
      · rw [upd_other _ _ e] at h ⊢
        exact I.raw y hy h

theorem init_inv (val : Id → V) {r : Reg} (h : ∀ c, r.head c = 0) : SInv (⟨⟨⟨val, [], []⟩, [], []⟩, r, [], []⟩ : State V) := by
  refine ⟨(Reach.init val).inv, ⟨rfl, fun i c k => by simp at k, by simp, by simp⟩, ⟨by simp, fun s hs => ⟨[], h s, by simp, by simp⟩⟩, (fun y hy => nomatch hy), (fun y hy => nomatch hy)⟩

theorem SReach.sinv {s : State V} (h : SReach s) : SInv s := by
  induction h with
  | init val r h => exact init_inv val h
  | @step s s' o h l hs I =>
    cases o with
    | lib o t ids =>
      obtain ⟨s2, r0, h1, h2, -⟩ := lib_step I l
      rcases h1 with ⟨h1, -⟩ | ⟨h1, -⟩ <;> rcases hs with hs | hs <;> rw [h1] at hs
      · rw [← Out.ok.inj hs]; exact h2
      · exact nomatch hs
      · exact nomatch hs
      · rw [← Out.threw.inj hs]; exact h2
    | it o =>
      obtain ⟨s2, h1, h2, -⟩ := it_step I l
      rcases hs with hs | hs <;> rw [h1] at hs
      · rw [← Out.ok.inj hs]; exact h2
      · exact nomatch hs

end MI.Safe
