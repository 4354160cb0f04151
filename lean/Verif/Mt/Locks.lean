import Verif.Mt.Model
/-!
Mutexes are locked in the order of their addresses, whatever threads do.
-/
set_option linter.unusedVariables false
namespace MI.Mt
open MI

/-- The program locks mutexes in order and unlocks those it has locked, when `H` are locked. -/
def Ord : List Nat → Code → Prop
  | H, .done => H = []
  | _, .crash => True
  | H, .lock s k => (∀ h ∈ H, h < s) ∧ Ord (s :: H) k
  | H, .unlock s k => s ∈ H ∧ Ord (H.erase s) k
  | H, .rdCont _ k => ∀ v, Ord H (k v)
  | H, .wrCont _ _ k => Ord H k
  | H, .rdVal _ k => ∀ v, Ord H (k v)
  | H, .wrVal _ _ k => Ord H k
  | H, .rdLink _ k => ∀ v, Ord H (k v)
  | H, .wrLink _ _ k => Ord H k
  | H, .find _ _ k => ∀ p, Ord H (k p)
  | H, .sweep _ _ _ _ k => Ord H k
  | H, .setAll _ _ k => Ord H k
  | H, .xchg _ _ k => Ord H k

theorem ord_ite {H : List Nat} {p : Prop} [Decidable p] {a b : Code} (h1 : p → Ord H a) (h2 : ¬ p → Ord H b) : Ord H (if p then a else b) := by
  split
  · exact h1 ‹_›
  · exact h2 ‹_›

theorem ord_test {H : List Nat} {a b : Nat} {k : Bool → Code} (h : ∀ v, Ord H (k v)) : Ord H (testCode a b k) :=
  fun _ _ _ _ => ord_ite (fun _ => h _) fun _ => trivial

theorem ord_body {H : List Nat} {neg : Bool} {it t : Nat} {p : Link} {y : Nat} {k : Code} (h : Ord H k) : Ord H (sweepBody neg it t p y k) := by
  have hr : ∀ q, Ord H (.sweep neg it t q k) := fun q => h
  have hc : Ord H (Code.rdLink (.next y) fun z => .wrLink p z <| .wrCont y t <|
      if t = 0 then .sweep neg it t p k else .rdLink (.head t) fun h => .wrLink (.next y) h <| .wrLink (.head t) y <| .sweep neg it t p k) :=
    fun _ => ord_ite (fun _ => h) fun _ _ => h
  exact ord_ite (fun _ => ord_test fun _ => ord_ite (fun _ => h) fun _ => hc)
    fun _ => ord_ite (fun _ => h) fun _ => ord_test fun _ => ord_ite (fun _ => hc) fun _ => h

theorem ord_attach {it s : Nat} {k : Code} (h : Ord [] k) : Ord [] (attachCode it s k) := by
  refine ord_ite (fun _ => h) fun _ => ⟨nofun, fun _ => ⟨by simp, ?_⟩⟩
  simpa using h

theorem ord_detach {it : Nat} {k : Code} (h : Ord [] k) : Ord [] (detachCode it k) := by
  refine fun s => ord_ite (fun _ => h) fun _ => ⟨nofun, fun _ _ => ⟨by simp, ?_⟩⟩
  simpa using h

theorem ord_make {it s : Nat} {x : Id} {k : Code} (h : Ord [] k) : Ord [] (makeCode it s x k) := ord_attach h
theorem ord_copy {it a : Nat} {k : Code} (h : Ord [] k) : Ord [] (copyCode it a k) := fun _ _ => ord_attach h
theorem ord_assign {it a : Nat} {k : Code} (h : Ord [] k) : Ord [] (assignCode it a k) :=
  fun _ _ => ord_ite (fun _ _ _ => ord_ite (fun _ => h) fun _ => ord_detach (ord_attach h)) fun _ => trivial
theorem ord_load {it : Nat} {x : Id} {k : Code} (h : Ord [] k) : Ord [] (loadCode it x k) :=
  fun _ => ord_detach (k := .wrVal it (x, true) k) h
theorem ord_deref {a tmp : Nat} {hd : Id} {k : Code} (h : Ord [] k) : Ord [] (derefCode a tmp hd k) :=
  fun _ _ => ord_ite (fun _ => ord_ite (fun _ => h) fun _ => ord_make (ord_test fun _ => ord_detach h)) fun _ => trivial
theorem ord_detachEquivalent {it : Nat} {k : Code} (h : Ord [] k) : Ord [] (detachEquivalentCode it k) := by
  refine fun s => ord_ite (fun _ => h) fun _ => ⟨nofun, by simp, ?_⟩
  simpa using ord_detach h
theorem ord_bilock {s d : Nat} {k : Code} (h : Ord [] k) {neg : Bool} {it t : Nat} {p : Link} :
    Ord [] (bilockCode s d <| .sweep neg it t p <| biunlockCode s d k) := by
  unfold bilockCode biunlockCode
  refine ⟨nofun, ?_⟩
  by_cases e : s = d
  · subst e
    simp only [if_pos, Nat.lt_irrefl, if_false]
    refine ⟨by simp, ?_⟩
    simpa using h
  · simp only [if_neg e]
    by_cases l : s < d
    · simp only [if_pos l]
      refine ⟨fun x hx => by simp at hx; omega, by simp, ?_⟩
      have : [d, s].erase s = [d] := by simp [show ¬ d = s from fun q => e q.symm]
      rw [this]
      exact ⟨by simp, by simpa using h⟩
    · simp only [if_neg l]
      refine ⟨fun x hx => by simp at hx; omega, by simp, ?_⟩
      have : [s, d].erase d = [s] := by simp [e]
      rw [this]
      exact ⟨by simp, by simpa using h⟩

theorem ord_transfer {it tmp d : Nat} {hd : Id} {k : Code} (h : Ord [] k) : Ord [] (transferEquivalentCode it tmp d hd k) :=
  fun _ => ord_ite (fun _ => ord_detach h) fun _ => ord_make fun _ => ord_detach (ord_bilock (ord_detach h))

theorem ord_op (o : Op) : Ord [] o.code := by
  cases o with
  | make => exact ord_make rfl
  | blank => rfl
  | copy => exact ord_copy rfl
  | assign => exact ord_assign rfl
  | load => exact ord_load rfl
  | drop => exact ord_detach rfl
  | compare => exact ord_test (k := fun _ => .done) fun _ => rfl
  | deref => exact ord_deref rfl
  | erase => exact ord_make (ord_detachEquivalent (ord_detach rfl))
  | clear tmp s hd => exact ord_make (show Ord [] (.sweep true tmp 0 (.head s) _) from ord_detach rfl)
  | transfer => exact ord_make (ord_copy (ord_transfer (ord_detach rfl)))
  | destroy => exact fun _ => rfl
  | swap => exact fun _ _ => rfl

/-- Who has locked what. -/
structure Locks (σ : Sys) : Prop where
  held : ∀ t th, σ.thr t = some th → ∃ H : List Nat, H.Nodup ∧ Ord H th.code ∧ ∀ s, σ.mem.mtx s = some t ↔ s ∈ H
  idle : ∀ s t, σ.mem.mtx s = some t → ∃ th, σ.thr t = some th
  fin : ∃ l : List Tid, ∀ t, σ.thr t ≠ none → t ∈ l

theorem exec_ord {t : Tid} {m m' : Mem} {c c' : Code} {H : List Nat} (hn : H.Nodup) (ho : Ord H c) (hm : ∀ s, m.mtx s = some t ↔ s ∈ H) (he : c.exec t m = some (c', m')) :
    (∃ H' : List Nat, H'.Nodup ∧ Ord H' c' ∧ ∀ s, m'.mtx s = some t ↔ s ∈ H') ∧ ∀ s u, u ≠ t → (m'.mtx s = some u ↔ m.mtx s = some u) := by
  have base : ∀ {d : Code} {m1 : Mem}, Ord H d → m1.mtx = m.mtx → (∃ H' : List Nat, H'.Nodup ∧ Ord H' d ∧ ∀ s, m1.mtx s = some t ↔ s ∈ H') ∧ ∀ s u, u ≠ t → (m1.mtx s = some u ↔ m.mtx s = some u) :=
    fun hd e => ⟨⟨H, hn, hd, by rw [e]; exact hm⟩, by rw [e]; exact fun _ _ _ => .rfl⟩
  cases c with
  | done => cases he
  | crash => cases he
  | rdCont y k => cases he; exact base (ho _) rfl
  | wrCont y v k => cases he; exact base ho rfl
  | rdVal y k => cases he; exact base (ho _) rfl
  | wrVal y v k => cases he; exact base ho rfl
  | rdLink p k => cases he; exact base (ho _) rfl
  | wrLink p v k => cases he; exact base ho (by cases p <;> rfl)
  | lock s k =>
    simp only [Code.exec] at he
    split at he
    · next hf =>
      cases he
      have hs : s ∉ H := fun q => by rw [(hm s).2 q] at hf; cases hf
      refine ⟨⟨s :: H, List.nodup_cons.2 ⟨hs, hn⟩, ho.2, fun r => ?_⟩, fun r u hu => ?_⟩
      · show upd m.mtx s (some t) r = some t ↔ _
        by_cases e : r = s
        · subst e; simp [upd_same]
        · rw [upd_other _ _ e, hm r]; simp [e]
      · show upd m.mtx s (some t) r = some u ↔ _
        by_cases e : r = s
        · subst e; rw [upd_same, hf]
          exact ⟨fun q => absurd (Option.some.inj q).symm hu, nofun⟩
        · rw [upd_other _ _ e]
    · cases he
  | unlock s k =>
    cases he
    have hs := (hm s).2 ho.1
    refine ⟨⟨H.erase s, hn.erase s, ho.2, fun r => ?_⟩, fun r u hu => ?_⟩
    · show upd m.mtx s none r = some t ↔ _
      rw [hn.mem_erase_iff]
      by_cases e : r = s
      · subst e; simp [upd_same]
      · rw [upd_other _ _ e, hm r]; simp [e]
    · show upd m.mtx s none r = some u ↔ _
      by_cases e : r = s
      · subst e; rw [upd_same, hs]
        exact ⟨nofun, fun q => absurd (Option.some.inj q).symm hu⟩
      · rw [upd_other _ _ e]
  | find it p k => cases he; exact base (ord_ite (fun _ => ho _) fun _ => ord_ite (fun _ => trivial) fun _ => ho) rfl
  | sweep neg it t p k => cases he; exact base (ord_ite (fun _ => ho) fun _ => ord_body ho) rfl
  | setAll v y k =>
    simp only [Code.exec] at he
    split at he
    · cases he; exact base ho rfl
    · cases he; exact base (fun _ => ho) rfl
  | xchg s d k => cases he; exact base ho rfl

theorem Reach.locks {D : Sys → Tid → Op → Prop} {σ : Sys} (h : Reach D σ) : Locks σ := by
  induction h with
  | init => exact ⟨nofun, nofun, [], fun t h => absurd rfl h⟩
  | @begin σ t o h ht hr ih =>
    have hb : ∀ u, u ≠ t → (σ.begin t o).thr u = σ.thr u := fun u e => upd_other _ _ e
    have ht' : (σ.begin t o).thr t = some ⟨o, σ.views, o.code⟩ := upd_same _ _ _
    refine ⟨fun u th hu => ?_, fun s u hu => ?_, ?_⟩
    · by_cases e : u = t
      · subst e
        rw [ht'] at hu; cases hu
        refine ⟨[], List.nodup_nil, ord_op o, fun s => ⟨fun q => ?_, nofun⟩⟩
        obtain ⟨th, k⟩ := ih.idle s u q
        rw [ht] at k; cases k
      · rw [hb u e] at hu; exact ih.held u th hu
    · by_cases e : u = t
      · subst e; exact ⟨_, ht'⟩
      · rw [hb u e]; exact ih.idle s u hu
    · obtain ⟨l, hl⟩ := ih.fin
      refine ⟨t :: l, fun u hu => ?_⟩
      by_cases e : u = t
      · simp [e]
      · rw [hb u e] at hu; simp [hl u hu]
  | @run σ σ' t h he ih =>
    unfold Sys.run at he
    split at he
    · cases he
    · next th ht =>
      obtain ⟨H, hn, ho, hm⟩ := ih.held t th ht
      split at he
      · next hc =>
        cases he
        rw [hc] at ho
        have ho : H = [] := ho
        subst ho
        refine ⟨fun u th' hu => ?_, fun s u hu => ?_, ?_⟩
        · by_cases e : u = t
          · subst e; simp only [upd_same] at hu; cases hu
          · simp only [upd_other _ _ e] at hu; exact ih.held u th' hu
        · by_cases e : u = t
          · subst e; exact nomatch (hm s).1 hu
          · simp only [upd_other _ _ e]; exact ih.idle s u hu
        · obtain ⟨l, hl⟩ := ih.fin
          refine ⟨l, fun u hu => ?_⟩
          by_cases e : u = t
          · subst e; simp only [upd_same] at hu; exact absurd rfl hu
          · simp only [upd_other _ _ e] at hu; exact hl u hu
      · split at he
        · cases he
        · next c m hx =>
          cases he
          obtain ⟨h1, h2⟩ := exec_ord hn ho hm hx
          refine ⟨fun u th' hu => ?_, fun s u hu => ?_, ?_⟩
          · by_cases e : u = t
            · subst e; simp only [upd_same] at hu; cases hu; exact h1
            · simp only [upd_other _ _ e] at hu
              obtain ⟨H', k1, k2, k3⟩ := ih.held u th' hu
              exact ⟨H', k1, k2, fun s => (h2 s u e).trans (k3 s)⟩
          · by_cases e : u = t
            · subst e; simp only [upd_same]; exact ⟨_, rfl⟩
            · simp only [upd_other _ _ e]; exact ih.idle s u ((h2 s u e).1 hu)
          · obtain ⟨l, hl⟩ := ih.fin
            refine ⟨l, fun u hu => ?_⟩
            by_cases e : u = t
            · subst e; exact hl u (by rw [ht]; simp)
            · simp only [upd_other _ _ e] at hu; exact hl u hu

/-- A thread that cannot run waits for a mutex. -/
theorem stuck {σ : Sys} {t : Tid} {th : Thread} (ht : σ.thr t = some th) (hr : σ.run t = none) : th.code = .crash ∨ ∃ s k u, th.code = .lock s k ∧ σ.mem.mtx s = some u := by
  simp only [Sys.run, ht] at hr
  cases hc : th.code <;> rw [hc] at hr <;> simp only [Code.exec] at hr
  all_goals first
    | cases hr; done
    | exact .inl rfl
    | skip
  · next s k =>
    by_cases e : σ.mem.mtx s = none
    · rw [if_pos e] at hr; cases hr
    · obtain ⟨u, hu⟩ := Option.ne_none_iff_exists'.1 e
      exact .inr ⟨s, k, u, rfl, hu⟩
  · next v y k =>
    by_cases e : y = 0
    · rw [if_pos e] at hr; cases hr
    · rw [if_neg e] at hr; cases hr

/-- The mutex a thread waits for. -/
def wants (σ : Sys) (t : Tid) : Nat :=
  match σ.thr t with
  | some th => match th.code with
    | .lock s _ => s
    | _ => 0
  | none => 0

theorem progress {D : Sys → Tid → Op → Prop} {σ : Sys} (h : Reach D σ) (hc : ∀ t th, σ.thr t = some th → th.code ≠ .crash) {t : Tid} (ht : σ.thr t ≠ none) : ∃ u, (σ.run u).isSome := by
  by_contra hx
  have hx : ∀ u, σ.run u = none := fun u => by
    by_contra q; exact hx ⟨u, by rw [Option.isSome_iff_ne_none]; exact q⟩
  have L := h.locks
  have W : ∀ u, σ.thr u ≠ none → ∃ v, σ.thr v ≠ none ∧ wants σ u < wants σ v := by
    intro u hu
    obtain ⟨th, e⟩ := Option.ne_none_iff_exists'.1 hu
    rcases stuck e (hx u) with q | ⟨s, k, v, q1, q2⟩
    · exact absurd q (hc u th e)
    · obtain ⟨th', e'⟩ := L.idle s v q2
      obtain ⟨H, _, ho, hm⟩ := L.held v th' e'
      rcases stuck e' (hx v) with q | ⟨s', k', w, r1, r2⟩
      · exact absurd q (hc v th' e')
      · refine ⟨v, by rw [e']; simp, ?_⟩
        rw [r1] at ho
        have := ho.1 s ((hm s).1 q2)
        simp only [wants, e, e', q1, r1]
        exact this
  obtain ⟨l, hl⟩ := L.fin
  have big : ∀ n : Nat, ∃ u, σ.thr u ≠ none ∧ n ≤ wants σ u := fun n => by
    induction n with
    | zero => exact ⟨t, ht, Nat.zero_le _⟩
    | succ n ih =>
      obtain ⟨u, h1, h2⟩ := ih
      obtain ⟨v, h3, h4⟩ := W u h1
      exact ⟨v, h3, by omega⟩
  have bound : ∃ n, ∀ u ∈ l, wants σ u < n := by
    clear hl
    induction l with
    | nil => exact ⟨0, nofun⟩
    | cons a l ih =>
      obtain ⟨n, hn⟩ := ih
      refine ⟨n + wants σ a + 1, fun u hu => ?_⟩
      rcases List.mem_cons.1 hu with rfl | hu
      · omega
      · have := hn u hu; omega
  obtain ⟨n, hn⟩ := bound
  obtain ⟨u, h1, h2⟩ := big n
  have := hn u (hl u h1)
  omega

end MI.Mt
