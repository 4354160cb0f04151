import Verif.Cont.AnyCascade
import Verif.Cont.StepInv
/-! Operations of a container, whatever user functions do. -/
set_option linter.unusedVariables false
set_option linter.unusedSimpArgs false
namespace MI.Cont
open MI
variable {V : Type}

/-- The links of all indices are in order, they all have the elements `c.elems`, and the number of these is right. -/
structure Intact (c : Container V) : Prop where
  ne : c.ls ≠ []
  count : c.count = c.elems.length
  all : All c.hd c.elems c.ls

theorem intact_intro {c : Container V} {els : List Id} (ne : c.ls ≠ []) (hc : c.count = els.length) (a : All c.hd els c.ls) :
    Intact c ∧ c.elems.Perm els := by
  have p : c.elems.Perm els := by
    unfold Container.elems Container.seqs
    cases hl : c.ls with
    | nil => exact absurd hl ne
    | cons L Ls =>
      rw [hl] at a
      obtain ⟨⟨xs, w, q⟩, -⟩ := a.cases
      rw [List.map_cons, List.headD_cons, Layer.walk_any w (by rw [q.length_eq]; unfold Container.budget; omega)]
      exact q
  exact ⟨⟨ne, by rw [hc, p.length_eq], a.perm p.symm⟩, p⟩

namespace Intact
variable {c : Container V}

theorem budget (s : Intact c) : c.elems.length + 3 ≤ c.budget := by have := s.count; unfold Container.budget; omega

theorem walk (s : Intact c) {L : Layer V} (hL : L ∈ c.ls) : ∃ xs, L.walk c.budget c.hd = some xs ∧ L.Held c.hd xs ∧ xs.Perm c.elems := by
  obtain ⟨xs, w, p⟩ := s.all L hL
  exact ⟨xs, Layer.walk_any w (by rw [p.length_eq]; exact s.budget), w, p⟩

theorem first (s : Intact c) : ∃ L Ls, c.ls = L :: Ls ∧ L.Held c.hd c.elems := by
  cases hl : c.ls with
  | nil => exact absurd hl s.ne
  | cons L Ls =>
    obtain ⟨xs, k1, k2, -⟩ := s.walk (L := L) (by rw [hl]; simp)
    refine ⟨L, Ls, rfl, ?_⟩
    have : c.elems = xs := by unfold Container.elems Container.seqs; rw [hl, List.map_cons, List.headD_cons, k1]; rfl
    rw [this]
    exact k2

theorem nodup (s : Intact c) : (c.hd :: c.elems).Nodup := by
  obtain ⟨L, Ls, -, w⟩ := s.first
  exact w.nodup

end Intact

/-- `c'` is an intact successor of `c` with elements `els`. -/
structure Turned (c c' : Container V) (els pool : List Id) : Prop where
  intact : Intact c'
  perm : c'.elems.Perm els
  hd : c'.hd = c.hd
  specs : specs c'.ls = specs c.ls
  clear : Clear pool c'.ls

theorem Turned.mono {c c' : Container V} {els p q : List Id} (b : Turned c c' els p) (h : ∀ z ∈ q, z ∈ p) : Turned c c' els q :=
  ⟨b.intact, b.perm, b.hd, b.specs, fun z hz => b.clear z (h z hz)⟩

theorem turned {c : Container V} {els pool : List Id} {Ls' : List (Layer V)} {k : Nat} (ne : c.ls ≠ []) (hs : specs Ls' = specs c.ls)
    (hc : k = els.length) (a : All c.hd els Ls') (cl : Clear pool Ls') : Turned c { c with ls := Ls', count := k } els pool := by
  obtain ⟨h1, h2⟩ := intact_intro (c := { c with ls := Ls', count := k }) (specs_ne hs ne) hc a
  exact ⟨h1, h2, rfl, hs, cl⟩

section
variable {m : Mem V} {c : Container V} {pool : List Id}

theorem turned_self (s : Intact c) (cl : Clear pool c.ls) : Turned c c c.elems pool := ⟨s, .refl _, rfl, rfl, cl⟩

/-- The three ways an insertion into a container can end. -/
def InsOut {M : Type} (c : Container V) (x xr : Id) (pool : List Id) (m0 : M) (base : Out M) (o : Out (Ins V M)) : Prop :=
  (∃ Ls' m, base = .ok m ∧ o = .ok ⟨Ls', m, x, x⟩ ∧ Turned c { c with ls := Ls', count := c.count + 1 } (x :: c.elems) pool) ∨
  (∃ Ls' y, o = .ok ⟨Ls', m0, y, xr⟩ ∧ y ∈ c.elems ∧ Turned c { c with ls := Ls' } c.elems pool) ∨
  (∃ r, o = .threw r ∧ (r.m = m0 ∨ base = .threw r.m) ∧ Turned c { c with ls := r.ls } c.elems pool)

theorem insertCR_cont {M : Type} {val : Id → V} {x xr : Id} {hint : Option Id} {e : Nat → Env} {m0 : M} {base : Out M} (s : Intact c) (x0 : x ≠ 0)
    (hx : x ∉ c.hd :: c.elems) (hh : c.HintOk hint) (sub : ∀ z ∈ c.elems, z ∈ pool) (xp : x ∈ pool) (hb : ∃ m, base = .ok m ∨ base = .threw m)
    (env : EnvAll c.hd c.count pool e c.ls) (cl : Clear pool c.ls) (hr : xr ∉ c.elems) :
    (insertCR c.budget c.hd val hint c.count m0 base x 0 e xr c.ls).Always (InsOut c x xr pool m0 base) := by
  refine (insertCR_any x0 hx hh s.count s.budget sub xp hb hr s.all env cl).mono ?_
  rintro o ⟨Ls', h1, h2, ⟨m, k1, k2, k3⟩ | ⟨y, k1, k2, k3⟩ | ⟨r, k1, rfl, k2, k3⟩⟩
  · exact Or.inl ⟨Ls', m, k1, k2, turned (k := c.count + 1) s.ne h1 (by simp [s.count]) k3 h2⟩
  · exact Or.inr (Or.inl ⟨Ls', y, k2, k1, turned (k := c.count) s.ne h1 s.count k3 h2⟩)
  · exact Or.inr (Or.inr ⟨r, k1, k2, turned (k := c.count) s.ne h1 s.count k3 h2⟩)

/-- `insert`: accepted, rejected or threw. -/
def InsertOut (m : Mem V) (c : Container V) (v : V) (x : Id) (pool : List Id) (o : Out (Res V)) : Prop :=
  (∃ c', o = .ok ⟨(m.allocate x).construct x v, c', x, true⟩ ∧ Turned c c' (x :: c.elems) pool) ∨
  (∃ c' y m', (m' = m ∨ m' = { m with val := upd m.val x v }) ∧ o = .ok ⟨m', c', y, false⟩ ∧ y ∈ c.elems ∧ Turned c c' c.elems pool) ∨
  (∃ c' m', (m' = m ∨ m' = { m with val := upd m.val x v }) ∧ o = .threw ⟨m', c', 0, false⟩ ∧ Turned c c' c.elems pool)

theorem insertR_any {v : V} {x : Id} {f : Fault} {hint : Option Id} {e : Nat → Env} (s : Intact c) (x0 : x ≠ 0) (z0 : 0 ∉ c.elems)
    (hx : x ∉ c.hd :: c.elems) (hh : c.HintOk hint) (sub : ∀ z ∈ c.elems, z ∈ pool) (xp : x ∈ pool)
    (env : EnvAll c.hd c.count pool e c.ls) (cl : Clear pool c.ls) : (c.insertR m v x f hint e).Always (InsertOut m c v x pool) := by
  have hb : baseInsert f m x v = .ok ((m.allocate x).construct x v) ∨ baseInsert f m x v = .threw m := by
    unfold baseInsert
    cases h1 : f.alloc <;> cases h2 : f.construct <;> simp [Mem.dealloc_alloc]
  have hb' : ∃ m', baseInsert f m x v = .ok m' ∨ baseInsert f m x v = .threw m' := by
    rcases hb with h | h
    · exact ⟨_, Or.inl h⟩
    · exact ⟨_, Or.inr h⟩
  unfold Container.insertR
  refine (insertCR_cont s x0 hx hh sub xp hb' env cl z0).then ?_
  rintro o (⟨Ls', m', k1, rfl, k2⟩ | ⟨Ls', y, rfl, hy, k2⟩ | ⟨r, rfl, hm, k2⟩)
  · rcases hb with hb | hb
    swap
    · rw [hb] at k1; exact nomatch k1
    obtain rfl : (m.allocate x).construct x v = m' := by rw [hb] at k1; exact Out.ok.inj k1
    exact Or.inl ⟨_, by simp only [Container.insertEnd, if_true], k2⟩
  · have y0 : y ≠ 0 := by rintro rfl; exact z0 hy
    exact Or.inr (Or.inl ⟨_, y, m, Or.inl rfl, by simp only [Container.insertEnd, y0, if_false], hy, k2⟩)
  · have rm : r.m = m := by
      rcases hm with h | h
      · exact h
      · rcases hb with hb | hb
        · rw [hb] at h; exact nomatch h
        · rw [hb] at h; exact (Out.threw.inj h).symm
    exact Or.inr (Or.inr ⟨_, m, Or.inl rfl, by simp only [Container.insertEnd, rm], k2⟩)

theorem emplaceR_any {v : V} {x : Id} {f : Fault} {hint : Option Id} {e : Nat → Env} (s : Intact c) (x0 : x ≠ 0)
    (hx : x ∉ c.hd :: c.elems) (hh : c.HintOk hint) (sub : ∀ z ∈ c.elems, z ∈ pool) (xp : x ∈ pool)
    (env : EnvAll c.hd c.count pool e c.ls) (cl : Clear pool c.ls) : (c.emplaceR m v x f hint e).Always (InsertOut m c v x pool) := by
  have self := turned_self (pool := pool) s cl
  unfold Container.emplaceR
  cases h1 : f.alloc with
  | true => exact Or.inr (Or.inr ⟨c, m, Or.inl rfl, rfl, self⟩)
  | false =>
  cases h2 : f.construct with
  | true =>
    simp only [Bool.false_eq_true, if_false, if_true, Mem.dealloc_alloc]
    exact Or.inr (Or.inr ⟨c, m, Or.inl rfl, rfl, self⟩)
  | false =>
  simp only [Bool.false_eq_true, if_false]
  refine (insertCR_cont (m0 := (m.allocate x).construct x v) (base := .ok ((m.allocate x).construct x v)) (xr := x) s x0 hx hh sub xp ⟨_, Or.inl rfl⟩ env cl
    (by intro h; exact hx (by simp [h]))).then ?_
  have hdel := Mem.delete_new m x v
  have hd1 : ((m.allocate x).construct x v).destroy x = some { m.allocate x with val := upd m.val x v } := by
    simp [Mem.construct, Mem.destroy, Mem.allocate]
  have hd2 : ({ m.allocate x with val := upd m.val x v } : Mem V).deallocate x = some { m with val := upd m.val x v } := by
    simp [Mem.deallocate, Mem.allocate]
  rintro o (⟨Ls', m', k1, rfl, k2⟩ | ⟨Ls', y, rfl, hy, k2⟩ | ⟨r, rfl, hm, k2⟩)
  · obtain rfl := Out.ok.inj k1
    exact Or.inl ⟨_, by simp only [Container.emplaceEnd, if_true], k2⟩
  · have yx : y ≠ x := by rintro rfl; exact hx (by simp [hy])
    exact Or.inr (Or.inl ⟨_, y, _, Or.inr rfl, by simp only [Container.emplaceEnd, yx, if_false, hdel], hy, k2⟩)
  · have rm : r.m = (m.allocate x).construct x v := by
      rcases hm with h | h
      · exact h
      · exact nomatch h
    exact Or.inr (Or.inr ⟨_, _, Or.inr rfl, by simp only [Container.emplaceEnd, rm, hd1, hd2], k2⟩)

theorem insertNhR_any {x : Id} {hint : Option Id} {e : Nat → Env} (s : Intact c) (x0 : x ≠ 0)
    (hx : x ∉ c.hd :: c.elems) (hh : c.HintOk hint) (sub : ∀ z ∈ c.elems, z ∈ pool) (xp : x ∈ pool)
    (env : EnvAll c.hd c.count pool e c.ls) (cl : Clear pool c.ls) :
    (c.insertNhR m (some x) hint e).Always fun o =>
      (∃ c', o = .ok (⟨m, c', x, true⟩, none) ∧ Turned c c' (x :: c.elems) pool) ∨
      (∃ c' y, o = .ok (⟨m, c', y, false⟩, some x) ∧ y ∈ c.elems ∧ Turned c c' c.elems pool) ∨
      (∃ c', o = .threw (⟨m, c', 0, false⟩, some x) ∧ Turned c c' c.elems pool) := by
  unfold Container.insertNhR
  refine (insertCR_cont (m0 := m) (base := .ok m) (xr := x) s x0 hx hh sub xp ⟨_, Or.inl rfl⟩ env cl (by intro h; exact hx (by simp [h]))).then ?_
  rintro o (⟨Ls', m', k1, rfl, k2⟩ | ⟨Ls', y, rfl, hy, k2⟩ | ⟨r, rfl, hm, k2⟩)
  · obtain rfl := Out.ok.inj k1
    exact Or.inl ⟨_, by simp only [Container.insertNhEnd, if_true], k2⟩
  · have yx : y ≠ x := by rintro rfl; exact hx (by simp [hy])
    exact Or.inr (Or.inl ⟨_, y, by simp only [Container.insertNhEnd, yx, if_false], hy, k2⟩)
  · have rm : r.m = m := by
      rcases hm with h | h
      · exact h
      · exact nomatch h
    exact Or.inr (Or.inr ⟨_, by simp only [Container.insertNhEnd, rm], k2⟩)

theorem unlinkAll_any {x : Id} (s : Intact c) (hx : x ∈ c.elems) (ha : x ∈ m.alloc) (cl : Clear pool c.ls) :
    ∃ c', Container.unlinkAll m c x = .ok c' ∧ Turned c c' (c.elems.erase x) pool := by
  obtain ⟨Ls', h1, h2, h3, h4⟩ := extractC_any (n := c.budget) hx s.budget s.all
  have hl : c.count - 1 = (c.elems.erase x).length := by rw [List.length_erase_of_mem hx, s.count]
  exact ⟨_, by simp only [Container.unlinkAll, ha, if_true, h1], turned (k := c.count - 1) s.ne h2 hl h3 (h4 _ cl)⟩

theorem erase_any {x : Id} (s : Intact c) (hx : x ∈ c.elems) (ha : x ∈ m.alloc) (hc : x ∈ m.cons) (cl : Clear pool c.ls) :
    ∃ c', c.erase m x = .ok ⟨{ m with alloc := m.alloc.erase x, cons := m.cons.erase x }, c', 0, true⟩ ∧ Turned c c' (c.elems.erase x) pool := by
  obtain ⟨c', h1, h2⟩ := unlinkAll_any s hx ha cl
  exact ⟨c', by simp only [Container.erase, h1, Mem.deleteNode_mem ha hc], h2⟩

theorem extract_any {x : Id} (s : Intact c) (hx : x ∈ c.elems) (ha : x ∈ m.alloc) (cl : Clear pool c.ls) :
    ∃ c', c.extract m x = .ok (⟨m, c', x, true⟩, some x) ∧ Turned c c' (c.elems.erase x) pool := by
  obtain ⟨c', h1, h2⟩ := unlinkAll_any s hx ha cl
  exact ⟨c', by simp only [Container.extract, h1], h2⟩

theorem transferR_any {d : Container V} {x : Id} {e : Nat → Env} {pool2 : List Id} (s : Intact c) (s2 : Intact d) (x0 : x ≠ 0) (hx : x ∉ c.hd :: c.elems) (hd : x ∈ d.elems)
    (ha : x ∈ m.alloc) (sub : ∀ z ∈ c.elems, z ∈ pool) (xp : x ∈ pool) (env : EnvAll c.hd c.count pool e c.ls) (cl : Clear pool c.ls) (cl2 : Clear pool2 d.ls) :
    (c.transferR m d x e).Always fun o =>
      (∃ c' d', o = .ok (⟨m, c', x, true⟩, d') ∧ Turned c c' (x :: c.elems) pool ∧ Turned d d' (d.elems.erase x) pool2) ∨
      (∃ c' y, o = .ok (⟨m, c', y, false⟩, d) ∧ y ∈ c.elems ∧ Turned c c' c.elems pool) ∨
      (∃ c', o = .threw (⟨m, c', 0, false⟩, d) ∧ Turned c c' c.elems pool) := by
  obtain ⟨d', j1, j2⟩ := unlinkAll_any s2 hd ha cl2
  unfold Container.transferR
  rw [j1]
  refine (insertCR_cont (hint := none) (m0 := d) (base := .ok d') (xr := x) s x0 hx (fun _ h => nomatch h) sub xp ⟨_, Or.inl rfl⟩ env cl (by intro h; exact hx (by simp [h]))).then ?_
  rintro o (⟨Ls', m', k1, rfl, k2⟩ | ⟨Ls', y, rfl, hy, k2⟩ | ⟨r, rfl, hm, k2⟩)
  · obtain rfl := Out.ok.inj k1
    exact Or.inl ⟨_, d', by simp only [Container.transferEnd, if_true], k2, j2⟩
  · have yx : y ≠ x := by rintro rfl; exact hx (by simp [hy])
    exact Or.inr (Or.inl ⟨_, y, by simp only [Container.transferEnd, yx, if_false], hy, k2⟩)
  · have rm : r.m = d := by
      rcases hm with h | h
      · exact h
      · exact nomatch h
    exact Or.inr (Or.inr ⟨_, by simp only [Container.transferEnd, rm], k2⟩)

theorem Clear.one {x : Id} {p : List Id} {Ls : List (Layer V)} (h : Clear p Ls) (hx : x ∈ p) : Clear [x] Ls := fun z hz => by
  rw [List.mem_singleton.1 hz]
  exact h x hx

theorem replaceR_any {x : Id} {v : V} {a : Bool} (s : Intact c) (hx : x ∈ c.elems) (x0 : x ≠ 0) (xp : x ∈ pool) (cl : Clear pool c.ls) :
    (c.replaceR m x v a).Always fun o => ∃ c', Turned c c' c.elems pool ∧
      (o = .ok ⟨m.assign x v, c', x, true⟩ ∨ o = .ok ⟨m, c', x, false⟩ ∨ o = .threw ⟨m, c', x, false⟩) := by
  unfold Container.replaceR
  refine (replaceCR_any x0 hx s.budget s.all (cl.one xp)).then ?_
  rintro o ⟨Ls', h1, h2, h3, h4⟩
  refine ⟨_, turned (k := c.count) s.ne h1 s.count h3 (h2 _ cl), ?_⟩
  rcases h4 with rfl | rfl | rfl
  · exact Or.inl rfl
  · exact Or.inr (Or.inl rfl)
  · exact Or.inr (Or.inr rfl)

theorem modifyR_any {x : Id} {mod : V → V × Bool} (s : Intact c) (hx : x ∈ c.elems) (x0 : x ≠ 0) (xp : x ∈ pool) (ha : x ∈ m.alloc) (hc : x ∈ m.cons)
    (cl : Clear pool c.ls) :
    (c.modifyR m x mod).Always fun o =>
      (∃ c', o = .ok ⟨m.assign x (mod (m.val x)).1, c', x, true⟩ ∧ Turned c c' c.elems pool) ∨
      (∃ c' p, (o = .ok ⟨m.gone x (mod (m.val x)).1, c', p, false⟩ ∨ o = .threw ⟨m.gone x (mod (m.val x)).1, c', p, false⟩) ∧
        Turned c c' (c.elems.erase x) pool) := by
  have hdel : (m.assign x (mod (m.val x)).1).deleteNode x = some (m.gone x (mod (m.val x)).1) := Mem.deleteNode_mem (m := m.assign x _) ha hc
  have hl : c.count - 1 = (c.elems.erase x).length := by rw [List.length_erase_of_mem hx, s.count]
  unfold Container.modifyR
  simp only
  split
  · obtain ⟨c', k1, k2⟩ := erase_any (m := m.assign x (mod (m.val x)).1) s hx ha hc cl
    exact Or.inr ⟨c', 0, Or.inr (by simp only [Container.eraseThrow, k1]; rfl), k2⟩
  · refine (modifyCR_any x0 hx s.budget s.all (cl.one xp)).then ?_
    rintro o ⟨Ls', h1, h2, ⟨rfl, h3⟩ | ⟨rfl | rfl, h3⟩⟩
    · exact Or.inl ⟨_, rfl, turned (k := c.count) s.ne h1 s.count h3 (h2 _ cl)⟩
    · exact Or.inr ⟨_, x, Or.inl (by simp only [Container.modifyEnd, Container.deleteCount, hdel]), turned (k := c.count - 1) s.ne h1 hl h3 (h2 _ cl)⟩
    · exact Or.inr ⟨_, x, Or.inr (by simp only [Container.modifyEnd, Container.deleteCount, hdel]), turned (k := c.count - 1) s.ne h1 hl h3 (h2 _ cl)⟩

/-- What `modify` with a rollback function can do: the element stays, with its new value or with that given to it by the rollback function; or it is erased. -/
def RbOut (m : Mem V) (c : Container V) (x : Id) (mod back : V → V × Bool) (pool : List Id) (o : Out (Res V)) : Prop :=
  (∃ c', o = .ok ⟨m.assign x (mod (m.val x)).1, c', x, true⟩ ∧ Turned c c' c.elems pool) ∨
  (∃ c', o = .ok ⟨m.assign x (back (mod (m.val x)).1).1, c', x, false⟩ ∧ Turned c c' c.elems pool) ∨
  (∃ c' v p, (o = .ok ⟨m.gone x v, c', p, false⟩ ∨ o = .threw ⟨m.gone x v, c', p, false⟩) ∧ Turned c c' (c.elems.erase x) pool)

theorem modifyRbR_any {x : Id} {mod back : V → V × Bool} (s : Intact c) (hx : x ∈ c.elems) (x0 : x ≠ 0) (xp : x ∈ pool) (ha : x ∈ m.alloc) (hc : x ∈ m.cons)
    (na : m.alloc.Nodup) (cl : Clear pool c.ls) :
    (c.modifyRbR m x mod back).Always (fun o => RbOut m c x mod back pool o ∨ o = .ub) ∧ (c.modifyRbR m x mod back).Calm (RbOut m c x mod back pool) := by
  have rb1 : ∀ {c'}, Turned c c' c.elems pool → RbOut m c x mod back pool (.ok ⟨m.assign x (mod (m.val x)).1, c', x, true⟩) := fun h => Or.inl ⟨_, rfl, h⟩
  have rb2 : ∀ {c'}, Turned c c' c.elems pool → RbOut m c x mod back pool (.ok ⟨m.assign x (back (mod (m.val x)).1).1, c', x, false⟩) := fun h => Or.inr (Or.inl ⟨_, rfl, h⟩)
  have rb3 : ∀ {c' v}, Turned c c' (c.elems.erase x) pool → RbOut m c x mod back pool (.threw ⟨m.gone x v, c', 0, false⟩) := fun h => Or.inr (Or.inr ⟨_, _, _, Or.inr rfl, h⟩)
  have rb4 : ∀ {c' v}, Turned c c' (c.elems.erase x) pool → RbOut m c x mod back pool (.ok ⟨m.gone x v, c', 0, false⟩) := fun h => Or.inr (Or.inr ⟨_, _, _, Or.inl rfl, h⟩)
  have hvx : ∀ v, (m.assign x v).val x = v := fun v => upd_same _ _ _
  have has : ∀ v v2, (m.assign x v).assign x v2 = m.assign x v2 := fun v v2 => by unfold Mem.assign; simp only [upd_upd]
  have er : ∀ v {c1}, Turned c c1 c.elems pool → ∃ c', c1.erase (m.assign x v) x = .ok ⟨m.gone x v, c', 0, true⟩ ∧ Turned c c' (c.elems.erase x) pool := by
    intro v c1 t
    obtain ⟨c', k1, k2⟩ := erase_any (m := m.assign x v) t.intact (t.perm.mem_iff.2 hx) ha hc t.clear
    exact ⟨c', k1, k2.intact, k2.perm.trans (t.perm.erase x), k2.hd.trans t.hd, k2.specs.trans t.specs, k2.clear⟩
  have et : ∀ v {c1}, Turned c c1 c.elems pool → RbOut m c x mod back pool (c1.eraseThrow (m.assign x v) x) := by
    intro v c1 t
    obtain ⟨c', k1, k2⟩ := er v t
    simp only [Container.eraseThrow, k1]
    exact rb3 k2
  have self : Turned c c c.elems pool := ⟨s, .refl _, rfl, rfl, cl⟩
  generalize hw : mod (m.val x) = w at rb1 rb2
  obtain ⟨v, t⟩ := w
  simp only at rb1 rb2
  generalize hb : back v = w' at rb2
  obtain ⟨v2, t2⟩ := w'
  simp only at rb2
  unfold Container.modifyRbR
  simp only [hw, hvx, has, hb]
  cases t with
  | true => exact ⟨Or.inl (et v self), et v self⟩
  | false =>
    simp only [Bool.false_eq_true, if_false]
    have roll := rollbackCR_any (val := (m.assign x v).val) (k := 0) x0 hx s.budget s.all (cl.one xp)
    have kept : ∀ {Ls'}, specs Ls' = specs c.ls → (∀ p, Clear p c.ls → Clear p Ls') → All c.hd c.elems Ls' → Turned c { c with ls := Ls' } c.elems pool :=
      fun h1 h2 h3 => turned (k := c.count) s.ne h1 s.count h3 (h2 _ cl)
    have check : ∀ {Ls'}, All c.hd c.elems Ls' →
        (checkCR c.budget c.hd (m.assign x v2).val x 0 Ls').Always (fun o => o = .threw false ∨ ∃ b, o = .ok b) := fun h => checkCR_any hx s.budget h
    -- after `modify_rollback_` returned false
    have back1 : ∀ {c1}, Turned c c1 c.elems pool → ∀ r, (r = .threw false ∨ ∃ b, r = .ok b) → RbOut m c x mod back pool (c1.checkEnd (m.assign x v2) x r) := by
      rintro c1 t r (rfl | ⟨b, rfl⟩)
      · exact et v2 t
      · cases b with
        | true => exact rb2 t
        | false =>
          obtain ⟨c', k1, k2⟩ := er v2 t
          simp only [Container.checkEnd, k1]
          exact rb4 k2
    -- after it threw
    have back2 : ∀ {c1}, Turned c c1 c.elems pool → ∀ r, (r = .threw false ∨ ∃ b, r = .ok b) →
        RbOut m c x mod back pool (c1.checkEndThrew (m.assign x v2) x r) ∨ c1.checkEndThrew (m.assign x v2) x r = .ub := by
      rintro c1 t r (rfl | ⟨b, rfl⟩)
      · exact Or.inl (et v2 t)
      · cases b with
        | true => exact Or.inl (et v2 t)
        | false =>
          obtain ⟨c', k1, k2⟩ := er v2 t
          have gone : x ∉ (m.gone x v2).alloc := fun h => (na.mem_erase_iff.1 h).1 rfl
          have er2 : Container.eraseThrow (m.gone x v2) c' x = .ub := by simp only [Container.eraseThrow, Container.erase, Container.unlinkAll, if_neg gone]
          right
          simp only [Container.checkEndThrew, k1]
          exact er2
    constructor
    · refine roll.then ?_
      rintro o ⟨Ls', h1, h2, h3, rfl | rfl | rfl⟩
      · exact Or.inl (rb1 (kept h1 h2 h3))
      · cases t2 with
        | true => exact Or.inl (et v2 (kept h1 h2 h3))
        | false => exact (check h3).then fun r hr => Or.inl (back1 (kept h1 h2 h3) r hr)
      · cases t2 with
        | true => exact Or.inl (et v2 (kept h1 h2 h3))
        | false => exact (check h3).then fun r hr => back2 (kept h1 h2 h3) r hr
    · refine (roll.calm.and (rollbackCR_calm x0 hx s.budget s.all)).then ?_
      rintro o ⟨⟨Ls', h1, h2, h3, rfl | rfl | rfl⟩, nt⟩
      · exact rb1 (kept h1 h2 h3)
      · cases t2 with
        | true => exact et v2 (kept h1 h2 h3)
        | false => exact (check h3).calm.then fun r hr => back1 (kept h1 h2 h3) r hr
      · exact absurd rfl (nt _)

theorem deleteAll_any (s : Intact c) (h1 : ∀ z, c.elems.count z ≤ m.alloc.count z) (h2 : ∀ z, c.elems.count z ≤ m.cons.count z) :
    ∃ m', c.deleteAll m = .ok m' ∧ m'.val = m.val ∧ m'.alloc = m.alloc.diff c.elems ∧ m'.cons = m.cons.diff c.elems := by
  obtain ⟨L, Ls, hl, -, g, w⟩ := s.first
  obtain ⟨ys, k1, k2⟩ := Layer.deleteAll_spec (n := c.budget) w (by have := s.budget; omega)
  rw [Layer.shadow_deleteAll] at k1
  obtain ⟨m', j1, j2, j3, j4⟩ := deleteNodes_spec (xs := ys) (m := m) (fun z => by rw [k2.count_eq]; exact h1 z)
    (fun z => by rw [k2.count_eq]; exact h2 z)
  refine ⟨m', by simp only [Container.deleteAll, hl, k1, j1], j2, ?_, ?_⟩
  · rw [j3]; exact List.Perm.diff_left _ k2
  · rw [j4]; exact List.Perm.diff_left _ k2

theorem Layer.clear_any {L : Layer V} {hd : Id} {xs : List Id} (h0 : hd ≠ 0) (w : L.Held hd xs) :
    (L.clear hd).spec = L.spec ∧ (L.clear hd).Held hd [] ∧ ∀ z, L.Avoids z → (L.clear hd).Avoids z := by
  obtain ⟨st, g, h⟩ := w
  obtain ⟨-, k2, k3⟩ := Layer.clear_spec (val' := id) h0 h
  have e : (L.clear hd).spec = L.spec := by cases L <;> rfl
  rw [Layer.shadow_clear] at k2 k3
  refine ⟨e, ⟨(Layer.sturdy_spec e).2 st, g, k2⟩, fun z hz => ?_⟩
  exact (Layer.shadow_avoids g z).1 (k3 z ((Layer.shadow_avoids g z).2 hz))

theorem clearC_any {hd : Id} {els : List Id} (h0 : hd ≠ 0) : ∀ {Ls : List (Layer V)}, All hd els Ls →
    specs (clearC hd Ls) = specs Ls ∧ All hd [] (clearC hd Ls) ∧ ∀ p, Clear p Ls → Clear p (clearC hd Ls)
  | [], _ => ⟨rfl, .nil, fun _ h => h⟩
  | L :: Ls, a => by
    obtain ⟨⟨xs, w, -⟩, a2⟩ := a.cases
    obtain ⟨k1, k2, k3⟩ := Layer.clear_any h0 w
    obtain ⟨j1, j2, j3⟩ := clearC_any h0 a2
    exact ⟨by simp only [clearC, specs_cons, k1, j1], .cons k2 (.refl _) j2, fun p c => .cons (fun z hz => k3 z (c.head z hz)) (j3 p c.tail)⟩

theorem clear_any (s : Intact c) (h0 : c.hd ≠ 0) (h1 : ∀ z, c.elems.count z ≤ m.alloc.count z) (h2 : ∀ z, c.elems.count z ≤ m.cons.count z)
    (cl : Clear pool c.ls) :
    ∃ m' c', c.clear m = .ok ⟨m', c', 0, true⟩ ∧ m'.val = m.val ∧ m'.alloc = m.alloc.diff c.elems ∧ m'.cons = m.cons.diff c.elems ∧ Turned c c' [] pool := by
  obtain ⟨m', k1, k2, k3, k4⟩ := deleteAll_any s h1 h2
  obtain ⟨j1, j2, j3⟩ := clearC_any h0 s.all
  exact ⟨m', _, by simp only [Container.clear, k1], k2, k3, k4, turned (k := 0) s.ne j1 rfl j2 (j3 _ cl)⟩

/-- One index of the chain is replaced by another one with the same elements. -/
theorem turned_set {L L' : Layer V} {k : Nat} {xs' : List Id} (s : Intact c) (cl : Clear pool c.ls) (hL : c.ls[k]? = some L) (hs : L'.spec = L.spec)
    (w : L'.Held c.hd xs') (p : xs'.Perm c.elems) (av : ∀ z ∈ pool, L'.Avoids z) : Turned c { c with ls := c.ls.set k L' } c.elems pool := by
  refine turned (k := c.count) s.ne (specs_set hs hL) s.count ?_ (clear_set av cl)
  intro M hM
  rcases List.mem_or_eq_of_mem_set hM with h | rfl
  · exact s.all M h
  · exact ⟨xs', w, p⟩

/-- A sequence that a user sees is the one the index holds. -/
theorem held_get {L : Layer V} {k : Nat} (s : Intact c) (hL : c.ls[k]? = some L) : ∃ xs, c.seqs[k]? = some xs ∧ L.Held c.hd xs ∧ xs.Perm c.elems := by
  obtain ⟨xs, k1, k2, k3⟩ := s.walk (List.mem_of_getElem? hL)
  exact ⟨xs, by simp only [Container.seqs, List.getElem?_map, hL, k1, Option.map_some, Option.getD_some], k2, k3⟩

/-- For indices without keys nothing is different. -/
theorem Layer.held_holds {L : Layer V} {val : Id → V} {hd : Id} {xs : List Id} (kd : L.keyed = false) : L.Held hd xs ↔ L.Holds val hd xs := by
  cases L with
  | seq h => exact Layer.held_seq
  | rnd s => exact Layer.held_rnd
  | ord => exact nomatch kd
  | hash => exact nomatch kd

theorem Layer.keyed_spec {L L' : Layer V} (h : L'.spec = L.spec) : L'.keyed = L.keyed := by
  cases L <;> cases L' <;> simp_all [Layer.spec, Layer.keyed]

theorem layer_new_any {w : World V} {hd z : Id} {a : Init V} (h0 : hd ≠ 0) (st : (a.layer hd z).Sturdy)
    (ok : ∀ c eq hf pol n base, a = .hash c eq hf pol n base → 0 < base ∧ ∀ y ∈ hd :: w.m.alloc, y < base ∨ base + Hash.sizeFor Hash.sizes n < y) :
    (a.layer hd z).Held hd [] ∧ ∀ y ∈ hd :: w.m.alloc, (a.layer hd z).Avoids y := by
  cases a with
  | ord u lt => exact ⟨Layer.held_ord.2 (Ord.emptyInit_rep _ h0), fun _ _ => trivial⟩
  | hash c eq hf pol n base =>
    obtain ⟨b0, dis⟩ := ok c eq hf pol n base rfl
    have k : ((Init.hash c (fun x y => x == y) (fun _ => 0) pol n base : Init Id).layer hd z).Held hd [] :=
      Layer.Holds.held (val := id) ⟨Hash.sizeFor_mem n, Hash.holds_clear _ _ _ _ (Hash.sizeFor_pos n) b0 h0 (dis hd (by simp))⟩ st
    exact ⟨Layer.held_hash.2 (Layer.held_hash.1 k), dis⟩
  | seq => exact ⟨Layer.held_seq.2 (fam_new z hd), fun _ _ => trivial⟩
  | rnd junk => exact ⟨Layer.held_rnd.2 (Rnd.rep_empty junk (fun _ => z) hd), fun _ _ => trivial⟩

theorem Layer.shadow_held {L : Layer V} {g : Id → Nat} {hd : Id} {xs : List Id} : (L.shadow g).Held hd xs ↔ L.Held hd xs := by
  cases L with
  | ord u lt h => exact Layer.held_ord.trans Layer.held_ord.symm
  | hash c eq hf pol ml h a => exact Layer.held_hash.trans Layer.held_hash.symm
  | seq h => exact Layer.held_seq.trans Layer.held_seq.symm
  | rnd s => exact Layer.held_rnd.trans Layer.held_rnd.symm

theorem Layer.shadow_copy {L : Layer V} (g : Id → Nat) {f : Id → Option Id} {es : List (Id × Id)} {n count : Nat} {hd hd' z : Id} {e : Env} :
    (L.shadow g).copy f es n count hd hd' z e = (L.copy f es n count hd hd' z e).map (Layer.shadow g) := by
  cases L <;> simp only [Layer.shadow, Layer.copy, Option.map_map] <;> rfl

theorem Layer.copy_kept {L L' : Layer V} {f : Id → Option Id} {es : List (Id × Id)} {n count : Nat} {hd hd' z : Id} {e : Env}
    (h : L.copy f es n count hd hd' z e = some L') : L'.spec = L.spec := by
  cases L <;> simp only [Layer.copy, Option.map_eq_some_iff] at h <;> obtain ⟨_, -, rfl⟩ := h <;> rfl

section
variable {φ : Id → Id} {f : Id → Option Id} {hd z : Id} {l : List Id} {n count : Nat}

theorem Layer.copy_any {L : Layer V} {xs : List Id} {e : Env} (w : L.Held hd xs) (h0 : φ 0 = 0) (hf : ∀ x ∈ hd :: xs, f x = some (φ x))
    (nd : ((hd :: xs).map φ).Nodup) (nz : 0 ∉ (hd :: xs).map φ) (hl : l.Perm xs) (hc : count = xs.length)
    (hn : xs.length < n) (ok : L.CopyOk pool e) (sub : ∀ x ∈ hd :: xs, φ x ∈ pool) :
    ∃ L', L.copy f (l.map fun x => (x, φ x)) n count hd (φ hd) z e = some L' ∧ L'.Held (φ hd) (xs.map φ) ∧ L'.spec = L.spec ∧ ∀ y ∈ pool, L'.Avoids y := by
  obtain ⟨st, g, h⟩ := w
  classical
  have inj : ∀ x ∈ xs, ∀ y ∈ xs, φ x = φ y → x = y := by
    rw [List.map_cons, List.nodup_cons] at nd
    exact List.inj_on_of_nodup_map nd.2
  have ok' : (L.shadow g).CopyOk pool e := by cases L <;> exact ok
  obtain ⟨M, k1, k2, k3, -, k5⟩ := Layer.copy_spec (z := z) (n := n) (count := count) (l := l) (val' := fun y => if q : ∃ x ∈ xs, φ x = y then q.choose else 0)
    h h0 hf nd nz (fun x hx => by
      have q : ∃ x' ∈ xs, φ x' = φ x := ⟨x, hx, rfl⟩
      simp only [q, dif_pos]
      exact inj _ q.choose_spec.1 _ hx q.choose_spec.2) hl hc hn ok' sub
  rw [Layer.shadow_copy, Option.map_eq_some_iff] at k1
  obtain ⟨L', j1, rfl⟩ := k1
  have s := Layer.copy_kept j1
  have st' := (Layer.sturdy_spec s).2 st
  refine ⟨L', j1, Layer.shadow_held.1 (Layer.Holds.held k2 ?_), s, fun y hy => (Layer.shadow_avoids g y).1 (k5 y hy)⟩
  cases L' <;> exact st'

theorem copyLs_any {els : List Id} (h0 : φ 0 = 0) (hf : ∀ x ∈ hd :: els, f x = some (φ x)) (nd : ((hd :: els).map φ).Nodup)
    (nz : 0 ∉ (hd :: els).map φ) (hl : l.Perm els) (hc : count = els.length) (hn : els.length < n)
    (sub : ∀ x ∈ hd :: els, φ x ∈ pool) : ∀ {Ls : List (Layer V)} {e : Nat → Env}, All hd els Ls → CopyAll pool e Ls →
    ∃ Ls', copyLs f (l.map fun x => (x, φ x)) n count hd (φ hd) z e Ls = some Ls' ∧ All (φ hd) (els.map φ) Ls' ∧
      specs Ls' = specs Ls ∧ Clear pool Ls'
  | [], e, _, _ => ⟨[], rfl, .nil, rfl, .nil⟩
  | L :: Ls, e, a, ok => by
    obtain ⟨⟨xs, w, p⟩, a2⟩ := a.cases
    have ph : (hd :: xs).Perm (hd :: els) := p.cons hd
    obtain ⟨L', e1, e2, e3, e4⟩ := Layer.copy_any (z := z) (n := n) (count := count) (l := l) w h0 (fun x hx => hf x (ph.mem_iff.1 hx))
      ((ph.map φ).nodup_iff.2 nd) (fun q => nz ((ph.map φ).mem_iff.1 q)) (hl.trans p.symm)
      (by rw [hc, p.length_eq]) (by rw [p.length_eq]; exact hn) ok.1 (fun x hx => sub x (ph.mem_iff.1 hx))
    obtain ⟨Ls', g1, g2, g3, g4⟩ := copyLs_any h0 hf nd nz hl hc hn sub a2 ok.2
    exact ⟨L' :: Ls', by simp only [copyLs, e1, g1], .cons e2 (p.map φ) g2, by rw [specs_cons, specs_cons, e3, g3], .cons e4 g4⟩

end

/-- The copy of a container. -/
theorem copy_any {hd' z : Id} {ns : List Id} {e : Nat → Env} {F : CopyFault} (s : Intact c) (ca : 0 ∉ c.hd :: c.elems)
    (hn : ns.length = c.count) (nd : (hd' :: ns).Nodup) (nz : 0 ∉ hd' :: ns) (fr : ∀ n ∈ hd' :: ns, n ∉ c.elems)
    (env : CopyAll (hd' :: ns ++ m.alloc) e c.ls) :
    (∃ m' c', c.copy m hd' z ns e F = .ok (m', some c') ∧ m'.alloc = ns.reverse ++ hd' :: m.alloc ∧ m'.cons = ns.reverse ++ m.cons ∧
      Intact c' ∧ c'.hd = hd' ∧ c'.elems = ns ∧ c'.elems.map m'.val = c.elems.map m.val ∧ Clear (hd' :: ns ++ m.alloc) c'.ls ∧
      ∀ y, y ∉ ns → m'.val y = m.val y) ∨
    (∃ m', c.copy m hd' z ns e F = .threw (m', none) ∧ m'.alloc = m.alloc ∧ m'.cons = m.cons ∧ ∀ y, y ∉ ns → m'.val y = m.val y) := by
  unfold Container.copy
  by_cases f1 : F.header = true
  · right
    exact ⟨m, by rw [if_pos f1], rfl, rfl, fun _ _ => rfl⟩
  rw [if_neg f1]
  have dh : ∀ val C, dropHeader (V := V) ⟨val, hd' :: m.alloc, C⟩ hd' = .threw (⟨val, m.alloc, C⟩, none) := by
    intro val C
    simp [dropHeader, Mem.deallocate]
  by_cases f2 : (F.index || F.space) = true
  · right
    exact ⟨m, by rw [if_pos f2]; exact dh _ _, rfl, rfl, fun _ _ => rfl⟩
  rw [if_neg f2]
  obtain ⟨L, Ls, hL, wL⟩ := s.first
  have hwk : L.walk c.budget c.hd = some c.elems := Layer.walk_any wL s.budget
  have hnd := s.nodup
  have len : c.elems.length = ns.length := by rw [hn, s.count]
  have nd' := List.nodup_cons.1 nd
  simp only [hL, hwk]
  rcases cloneAll_spec (f := F.clone) (k := 0) (m := m.allocate hd') (es := []) len nd'.2 (fun x hx q => fr x (by simp [q]) hx) with
    ⟨m', a1, a2, a3, a4, a5, a6⟩ | ⟨m', j, a0, a1, a2, a3, a4, a5⟩
  · left
    simp only [a1, List.nil_append]
    rw [zip_clone (hd' := hd') hnd len] at a5 ⊢
    have hns := map_cloneOf (hd' := hd') hnd len
    generalize hφ : cloneOf c.hd hd' c.elems ns = φ at *
    have e0 : φ c.hd = hd' := by rw [← hφ]; exact cloneOf_hd
    have h0 : φ 0 = 0 := by
      rw [← hφ]
      exact cloneOf_zero (fun k => ca (by simp [k])) (fun k => ca (by simp [k])) len
    obtain ⟨l, l1, l2, l3⟩ := sort_clone (φ := φ) s.count
    rw [l3]
    have hv : ∀ x ∈ c.elems, m'.val (φ x) = m.val x := fun x hx => a5 (x, φ x) (List.mem_map.2 ⟨x, hx, rfl⟩)
    have hmap : (c.hd :: c.elems).map φ = hd' :: ns := by rw [List.map_cons, hns, e0]
    have hfind : ∀ x ∈ c.hd :: c.elems, (CopyMap.mk (l.map fun x => (x, φ x)) c.hd hd').find x = some (φ x) := by
      intro x hx
      rcases List.mem_cons.1 hx with rfl | hx
      · simp [CopyMap.find, e0]
      · exact find_clone l2 (l1.mem_iff.2 hx) e0
    have sub : ∀ x ∈ c.hd :: c.elems, φ x ∈ hd' :: ns ++ m.alloc := by
      intro x hx
      have : φ x ∈ (c.hd :: c.elems).map φ := List.mem_map.2 ⟨x, hx, rfl⟩
      rw [hmap] at this
      exact List.mem_append_left _ this
    obtain ⟨Ls', g1, g2, g3, g4⟩ := copyLs_any (z := z) (l := l) (n := c.budget) (count := c.count)
      (f := (CopyMap.mk (l.map fun x => (x, φ x)) c.hd hd').find) h0 hfind (by rw [hmap]; exact nd) (by rw [hmap]; exact nz) l1 s.count
      (by unfold Container.budget; rw [s.count]; omega) sub s.all env
    rw [e0] at g1 g2
    obtain ⟨L', i1, i2, i3, i4⟩ := Layer.copy_any (z := z) (l := l) (n := c.budget) (count := c.count) (e := e 0)
      (f := (CopyMap.mk (l.map fun x => (x, φ x)) c.hd hd').find) wL h0 hfind (by rw [hmap]; exact nd) (by rw [hmap]; exact nz) l1 s.count
      (by unfold Container.budget; rw [s.count]; omega) (by rw [hL] at env; exact env.1) sub
    rw [e0] at i1 i2
    have hd1 : ∃ Ls2, Ls' = L' :: Ls2 := by
      rw [hL] at g1
      simp only [copyLs, i1] at g1
      split at g1
      · rename_i h1 h2
        obtain rfl := Option.some.inj h1
        exact ⟨_, (Option.some.inj g1).symm⟩
      · exact nomatch g1
    obtain ⟨Ls2, rfl⟩ := hd1
    rw [hL] at g1
    simp only [g1]
    obtain ⟨s1, s2⟩ := intact_intro (c := ⟨hd', L' :: Ls2, c.count⟩) (els := c.elems.map φ) (by simp) (by rw [List.length_map]; exact s.count) g2
    have he : (⟨hd', L' :: Ls2, c.count⟩ : Container V).elems = c.elems.map φ := by
      unfold Container.elems Container.seqs
      rw [List.map_cons, List.headD_cons]
      have : L'.walk (⟨hd', L' :: Ls2, c.count⟩ : Container V).budget hd' = some (c.elems.map φ) :=
        Layer.walk_any i2 (by rw [List.length_map, ← s.count]; show c.count + 3 ≤ c.count + 4; omega)
      simp only [this]
      rfl
    refine ⟨m', _, rfl, by simpa [Mem.allocate] using a2, by simpa [Mem.allocate] using a3, s1, rfl, by rw [he, hns], ?_, g4, a4⟩
    rw [he, List.map_map]
    exact List.map_congr_left hv
  · right
    simp only [a1, List.nil_append, List.map_take]
    rw [List.map_snd_zip (by omega)]
    have hm : m' = ⟨m'.val, (ns.take j).reverse ++ (hd' :: m.alloc), (ns.take j).reverse ++ m.cons⟩ := by
      cases m'
      simp only [Mem.mk.injEq, true_and]
      exact ⟨a2, a3⟩
    have db := deleteNodes_back (ns := ns.take j) (A := hd' :: m.alloc) (C := m.cons) (val := m'.val) ((List.take_sublist _ _).nodup nd'.2)
    rw [← hm] at db
    exact ⟨⟨m'.val, m.alloc, m.cons⟩, by simp only [db]; exact dh _ _, rfl, rfl, a4⟩

end
end MI.Cont
