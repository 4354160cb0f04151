import Verif.Cont.State
/-!
`replace`, `modify`, `modify` with rollback, transfer, `relocate`, `rehash` and construction.
-/
set_option linter.unusedVariables false
namespace MI.Cont
open MI
variable {V : Type}

section
variable {m : Mem V} {c : Container V} {pool : List Id}

theorem clear_sing {x : Id} (cl : Clear pool c.ls) (hx : x ∈ pool) : Clear [x] c.ls := by
  intro z hz
  obtain rfl := List.mem_singleton.1 hz
  exact cl z hx

theorem replace_spec {x : Id} {v : V} {a : Bool} {e : Nat → Env} (s : Sound m.val c) (hx : x ∈ c.elems) (x0 : x ≠ 0) (xp : x ∈ pool)
    (cl : Clear pool c.ls) :
    (∃ c', c.replace m x v a e = .ok ⟨m.assign x v, c', x, true⟩ ∧ Became c c' (upd m.val x v) c.elems pool ∧
      Each (Moved (m.val x) (upd m.val x v) x) (specs c.ls) c.seqs c'.seqs ∧ ¬ Banned (specs c.ls) m.val (c.elems.erase x) v) ∨
    (∃ c', c.replace m x v a e = .ok ⟨m, c', x, false⟩ ∧ Became c c' m.val c.elems pool ∧ c'.seqs = c.seqs ∧
      Banned (specs c.ls) m.val (c.elems.erase x) v) ∨
    (∃ c', c.replace m x v a e = .threw ⟨m, c', x, false⟩ ∧ Became c c' m.val c.elems pool ∧ c'.seqs = c.seqs ∧
      ((∃ i, ¬ (e i).Quiet) ∨ a = true)) := by
  have nd := (List.nodup_cons.1 s.nodup).2
  have hne : ∀ y ∈ c.elems.erase x, upd m.val x v y = m.val y := fun y hy => upd_other _ _ (nd.mem_erase_iff.1 hy).1
  have hban : Banned (specs c.ls) (upd m.val x v) (c.elems.erase x) v ↔ Banned (specs c.ls) m.val (c.elems.erase x) v := by
    constructor
    · rintro ⟨S, q1, q2, y, q3, q4⟩; exact ⟨S, q1, q2, y, q3, by rw [← hne y q3]; exact q4⟩
    · rintro ⟨S, q1, q2, y, q3, q4⟩; exact ⟨S, q1, q2, y, q3, by rw [hne y q3]; exact q4⟩
  obtain ⟨Ls', h1, h2, h3⟩ := replaceC_spec (v := v) (at' := a) (e := e) x0 hx s.budget s.ok s.fit (clear_sing cl xp)
  rcases h3 with ⟨xss', k1, k2, k3, k4⟩ | ⟨k1, k2, k3⟩ | ⟨k1, k2, k3⟩
  · left
    obtain ⟨b1, b2⟩ := became (k := c.count) s.ne s.ok h1 s.count k2 (h2 _ cl)
    exact ⟨_, by simp only [Container.replace, k1]; rfl, b1, by rw [b2]; exact k3, fun h => k4 (hban.2 h)⟩
  · right; left
    obtain ⟨b1, b2⟩ := became (k := c.count) s.ne s.ok h1 s.count k2 (h2 _ cl)
    exact ⟨_, by simp only [Container.replace, k1], b1, b2, hban.1 k3⟩
  · right; right
    obtain ⟨b1, b2⟩ := became (k := c.count) s.ne s.ok h1 s.count k2 (h2 _ cl)
    exact ⟨_, by simp only [Container.replace, k1], b1, b2, k3⟩

/-- Memory after the value of `x` has become `v` and its node has been deleted. -/
def Mem.gone (m : Mem V) (x : Id) (v : V) : Mem V := ⟨upd m.val x v, m.alloc.erase x, m.cons.erase x⟩

theorem upd_off {f : Id → V} {x : Id} {v : V} : ∀ y, y ≠ x → upd f x v y = f y := fun y hy => upd_other _ _ hy

theorem modify_spec {x : Id} {mod : V → V × Bool} {e : Nat → Env} (s : Sound m.val c) (hx : x ∈ c.elems) (x0 : x ≠ 0) (xp : x ∈ pool)
    (ha : x ∈ m.alloc) (hc : x ∈ m.cons) (cl : Clear pool c.ls) :
    (∃ c', c.modify m x mod e = .ok ⟨m.assign x (mod (m.val x)).1, c', x, true⟩ ∧ Became c c' (upd m.val x (mod (m.val x)).1) c.elems pool ∧
      Each (Moved (m.val x) (upd m.val x (mod (m.val x)).1) x) (specs c.ls) c.seqs c'.seqs ∧
      ¬ Banned (specs c.ls) m.val (c.elems.erase x) (mod (m.val x)).1 ∧ (mod (m.val x)).2 = false) ∨
    (∃ c', c.modify m x mod e = .ok ⟨m.gone x (mod (m.val x)).1, c', x, false⟩ ∧
      Became c c' (upd m.val x (mod (m.val x)).1) (c.elems.erase x) pool ∧ c'.seqs = c.seqs.map (·.erase x) ∧
      Banned (specs c.ls) m.val (c.elems.erase x) (mod (m.val x)).1 ∧ (mod (m.val x)).2 = false) ∨
    (∃ c' p, c.modify m x mod e = .threw ⟨m.gone x (mod (m.val x)).1, c', p, false⟩ ∧
      Became c c' (upd m.val x (mod (m.val x)).1) (c.elems.erase x) pool ∧ c'.seqs = c.seqs.map (·.erase x) ∧
      ((∃ i, ¬ (e i).Quiet) ∨ (mod (m.val x)).2 = true)) := by
  have nd := (List.nodup_cons.1 s.nodup).2
  generalize hw : mod (m.val x) = w
  obtain ⟨v, t⟩ := w
  have hne : ∀ y ∈ c.elems.erase x, upd m.val x v y = m.val y := fun y hy => upd_other _ _ (nd.mem_erase_iff.1 hy).1
  have hvx : upd m.val x v x = v := upd_same _ _ _
  have hban : Banned (specs c.ls) (upd m.val x v) (c.elems.erase x) (upd m.val x v x) ↔ Banned (specs c.ls) m.val (c.elems.erase x) v := by
    rw [hvx]
    constructor
    · rintro ⟨S, q1, q2, y, q3, q4⟩; exact ⟨S, q1, q2, y, q3, by rw [← hne y q3]; exact q4⟩
    · rintro ⟨S, q1, q2, y, q3, q4⟩; exact ⟨S, q1, q2, y, q3, by rw [hne y q3]; exact q4⟩
  have hm : (m.assign x v).val = upd m.val x v := rfl
  have hdel : (m.assign x v).deleteNode x = some (m.gone x v) := Mem.deleteNode_mem ha hc
  have hl : c.count - 1 = (c.elems.erase x).length := by rw [List.length_erase_of_mem hx, s.count]
  cases t with
  | true =>
    obtain ⟨c', h1, h2, h3⟩ := eraseThrow_spec (m := m.assign x v) s hx ha hc upd_off cl
    exact Or.inr (Or.inr ⟨c', 0, by simp only [Container.modify, hw, if_true, h1]; rfl, h2, h3, Or.inr rfl⟩)
  | false =>
    obtain ⟨Ls', h1, h2, h3⟩ := modifyC_spec (val' := upd m.val x v) (e := e) x0 hx upd_off s.budget s.ok s.fit (clear_sing cl xp)
    rcases h3 with ⟨xss', k1, k2, k3, k4⟩ | ⟨k1, k2, k3⟩ | ⟨k1, k2, k3⟩
    · left
      obtain ⟨b1, b2⟩ := became (k := c.count) s.ne s.ok h1 s.count k2 (h2 _ cl)
      exact ⟨_, by simp only [Container.modify, hw, Bool.false_eq_true, if_false, hm, k1], b1, by rw [b2]; exact k3, fun h => k4 (hban.2 h), rfl⟩
    · right; left
      obtain ⟨b1, b2⟩ := became (k := c.count - 1) s.ne s.ok h1 hl k2 (h2 _ cl)
      exact ⟨_, by simp only [Container.modify, hw, Bool.false_eq_true, if_false, hm, k1, Container.deleteCount, hdel], b1, b2, hban.1 k3, rfl⟩
    · right; right
      obtain ⟨b1, b2⟩ := became (k := c.count - 1) s.ne s.ok h1 hl k2 (h2 _ cl)
      exact ⟨_, x, by simp only [Container.modify, hw, Bool.false_eq_true, if_false, hm, k1, Container.deleteCount, hdel], b1, b2, Or.inl k3⟩

theorem holds_sameKey {L : Layer V} {val val' : Id → V} {hd : Id} {xs : List Id} (ok : L.spec.Ok) (w : L.Holds val hd xs)
    (hv : ∀ y, L.spec.SameKey (val' y) (val y)) : L.Holds val' hd xs := by
  cases L with
  | seq h => exact w
  | rnd s => exact w
  | ord u lt h =>
    have sw : StrictWeak lt := ok
    have he : ∀ y, lt (val' y) (val y) = false ∧ lt (val y) (val' y) = false := fun y => StrictWeak.equiv_iff.1 (hv y)
    refine ⟨w.1, ?_⟩
    cases u with
    | true => exact pw_congr (fun a _ b _ k => sw.le_lt_trans (he a).2 (sw.lt_le_trans k (he b).1)) w.2
    | false => exact pw_congr (fun a _ b _ k => sw.le_trans (he a).2 (sw.le_trans k (he b).1)) w.2
  | hash c eq hf pol ml h a =>
    have eh : EqHash eq hf := ok
    have hvx : ∀ y, eq (val' y) (val y) = true := hv
    refine ⟨w.1, Hash.Holds.congr w.2 (fun y hy => eh.cons (hvx y)) (fun y hy z hz => ?_)⟩
    show eq (val' y) (val' z) = eq (val y) (val z)
    have h1 := hvx y
    have h2 := hvx z
    apply Bool.eq_iff_iff.2
    constructor
    · intro k
      exact eh.trans (eh.symm h1) (eh.trans k h2)
    · intro k
      exact eh.trans h1 (eh.trans k (eh.symm h2))

theorem fit_sameKey {val val' : Id → V} {hd : Id} {els : List Id} : ∀ {Ls : List (Layer V)} {xss : List (List Id)}, OkAll (specs Ls) → Fit val hd els Ls xss →
    (∀ S ∈ specs Ls, ∀ y, S.SameKey (val' y) (val y)) → Fit val' hd els Ls xss
  | [], xss, _, f, _ => by rw [f.nil']; exact .nil
  | L :: Ls, xss, ok, f, h => by
    obtain ⟨xs, yss, rfl, w, p, f2⟩ := f.cases
    exact .cons (holds_sameKey ok.head w (h _ (by simp))) p (fit_sameKey ok.tail f2 fun S hS => h S (by simp [hS]))

theorem sameKey_refl {S : Spec V} (ok : S.Ok) (v : V) : S.SameKey v v := by
  cases S with
  | ord u lt => exact StrictWeak.equiv_refl ok v
  | hash c eq hf => exact EqHash.refl ok v
  | seq => trivial
  | rnd => trivial

theorem upd_upd (f : Id → V) (x : Id) (v w : V) : upd (upd f x v) x w = upd f x w := by
  funext y
  by_cases h : y = x
  · subst h; simp
  · simp [upd_other _ _ h]

theorem modifyRb_all {x : Id} {mod back : V → V × Bool} {e e' : Nat → Env} (s : Sound m.val c) (hx : x ∈ c.elems) (x0 : x ≠ 0) (xp : x ∈ pool)
    (ha : x ∈ m.alloc) (hc : x ∈ m.cons) (cl : Clear pool c.ls) (na : m.alloc.Nodup) :
    (∃ c', c.modifyRb m x mod back e e' = .ok ⟨m.assign x (mod (m.val x)).1, c', x, true⟩ ∧ Became c c' (upd m.val x (mod (m.val x)).1) c.elems pool ∧
      Each (Moved (m.val x) (upd m.val x (mod (m.val x)).1) x) (specs c.ls) c.seqs c'.seqs ∧
      ¬ Banned (specs c.ls) m.val (c.elems.erase x) (mod (m.val x)).1 ∧ (mod (m.val x)).2 = false) ∨
    (∃ c', c.modifyRb m x mod back e e' = .ok ⟨m.assign x (back (mod (m.val x)).1).1, c', x, false⟩ ∧
      Became c c' (upd m.val x (back (mod (m.val x)).1).1) c.elems pool ∧ c'.seqs = c.seqs ∧
      Banned (specs c.ls) m.val (c.elems.erase x) (mod (m.val x)).1 ∧ (mod (m.val x)).2 = false) ∨
    (∃ c', c.modifyRb m x mod back e e' = .ok ⟨m.gone x (back (mod (m.val x)).1).1, c', 0, false⟩ ∧
      Became c c' (upd m.val x (back (mod (m.val x)).1).1) (c.elems.erase x) pool ∧ c'.seqs = c.seqs.map (·.erase x) ∧
      Banned (specs c.ls) m.val (c.elems.erase x) (mod (m.val x)).1 ∧ (mod (m.val x)).2 = false ∧
      ¬ Restores (specs c.ls) mod back (m.val x)) ∨
    (∃ c' v', c.modifyRb m x mod back e e' = .threw ⟨m.gone x v', c', 0, false⟩ ∧
      Became c c' (upd m.val x v') (c.elems.erase x) pool ∧ c'.seqs = c.seqs.map (·.erase x) ∧
      ((∃ i, ¬ (e i).Quiet) ∨ (∃ i, ¬ (e' i).Quiet) ∨ (mod (m.val x)).2 = true ∨ (back (mod (m.val x)).1).2 = true)) ∨
    (c.modifyRb m x mod back e e' = .ub ∧ (∃ i, ¬ (e i).Quiet) ∧ ¬ Restores (specs c.ls) mod back (m.val x) ∧ (mod (m.val x)).2 = false ∧
      (back (mod (m.val x)).1).2 = false) := by
  have nd := (List.nodup_cons.1 s.nodup).2
  unfold Restores
  generalize hw : mod (m.val x) = w at ⊢
  obtain ⟨v, t⟩ := w
  simp only
  generalize hb : back v = w' at ⊢
  obtain ⟨v2, t2⟩ := w'
  simp only
  have hne : ∀ y ∈ c.elems.erase x, upd m.val x v y = m.val y := fun y hy => upd_other _ _ (nd.mem_erase_iff.1 hy).1
  have hvx : upd m.val x v x = v := upd_same _ _ _
  have hban : Banned (specs c.ls) (upd m.val x v) (c.elems.erase x) (upd m.val x v x) ↔ Banned (specs c.ls) m.val (c.elems.erase x) v := by
    rw [hvx]
    constructor
    · rintro ⟨S, q1, q2, y, q3, q4⟩; exact ⟨S, q1, q2, y, q3, by rw [← hne y q3]; exact q4⟩
    · rintro ⟨S, q1, q2, y, q3, q4⟩; exact ⟨S, q1, q2, y, q3, by rw [hne y q3]; exact q4⟩
  have hm : (m.assign x v).val = upd m.val x v := rfl
  have has : (m.assign x v).assign x v2 = m.assign x v2 := by unfold Mem.assign; simp only [upd_upd]
  have hm2 : (m.assign x v2).val = upd m.val x v2 := rfl
  cases t with
  | true =>
    obtain ⟨c', h1, h2, h3⟩ := eraseThrow_spec (m := m.assign x v) s hx ha hc upd_off cl
    exact Or.inr (Or.inr (Or.inr (Or.inl ⟨c', v, by simp only [Container.modifyRb, hw, if_true, h1]; rfl, h2, h3, Or.inr (Or.inr (Or.inl rfl))⟩)))
  | false =>
    obtain ⟨Ls', h1, h2, h3⟩ := rollbackC_spec (val' := upd m.val x v) (e := e) x0 hx upd_off s.budget s.ok s.fit (clear_sing cl xp)
    rcases h3 with ⟨xss', k1, k2, k3, k4⟩ | ⟨k1, k2, k3⟩ | ⟨k1, k2, k3⟩
    · left
      obtain ⟨b1, b2⟩ := became (k := c.count) s.ne s.ok h1 s.count k2 (h2 _ cl)
      exact ⟨_, by simp only [Container.modifyRb, hw, Bool.false_eq_true, if_false, hm, k1], b1, by rw [b2]; exact k3, fun h => k4 (hban.2 h), rfl⟩
    all_goals
      obtain ⟨b1, b2⟩ := became (k := c.count) s.ne s.ok h1 s.count k2 (h2 _ cl)
      have hbud : ({ c with ls := Ls' } : Container V).budget = c.budget := rfl
      have ok' : OkAll (specs Ls') := by rw [h1]; exact s.ok
      have hx1 : x ∈ ({ c with ls := Ls' } : Container V).elems := b1.perm.mem_iff.2 hx
      obtain ⟨c', i1, i2, i3⟩ := eraseThrow_spec (m := m.assign x v2) b1.sound hx1 ha hc upd_off b1.clear
      have i2' : Became c c' (upd m.val x v2) (c.elems.erase x) pool :=
        ⟨i2.sound, i2.perm.trans (b1.perm.erase x), i2.hd.trans b1.hd, i2.specs.trans b1.specs, i2.clear⟩
      rw [b2] at i3
      have er : Container.eraseThrow (m.assign x v2) { c with ls := Ls' } x = .threw ⟨m.gone x v2, c', 0, false⟩ := i1
      have ck := checkC_spec (val' := upd m.val x v2) (e := e') (n := c.budget) hx upd_off s.budget ok' k2
    · right
      cases t2 with
      | true =>
        right; right; left
        exact ⟨c', v2, by simp only [Container.modifyRb, hw, Bool.false_eq_true, if_false, if_true, hm, k1, hvx, hb, has, hbud, er], i2', i3, Or.inr (Or.inr (Or.inr rfl))⟩
      | false =>
        rcases ck with ⟨q, r⟩ | ⟨b, q, r⟩
        · right; right; left
          exact ⟨c', v2, by simp only [Container.modifyRb, hw, Bool.false_eq_true, if_false, hm, k1, hvx, hb, has, hbud, hm2, q, er], i2', i3, Or.inr (Or.inl r)⟩
        cases b with
        | true =>
          left
          obtain ⟨a1, a2⟩ := became (k := c.count) s.ne s.ok h1 s.count (r.1 rfl) (h2 _ cl)
          exact ⟨_, by simp only [Container.modifyRb, hw, Bool.false_eq_true, if_false, hm, k1, hvx, hb, has, hbud, hm2, q], a1, a2, hban.1 k3, rfl⟩
        | false =>
          right; left
          obtain ⟨d, j1, j2, j3⟩ := erase_spec (m := m.assign x v2) b1.sound hx1 ha hc upd_off b1.clear
          have j2' : Became c d (upd m.val x v2) (c.elems.erase x) pool :=
            ⟨j2.sound, j2.perm.trans (b1.perm.erase x), j2.hd.trans b1.hd, j2.specs.trans b1.specs, j2.clear⟩
          rw [b2] at j3
          refine ⟨d, by simp only [Container.modifyRb, hw, Bool.false_eq_true, if_false, hm, k1, hvx, hb, has, hbud, hm2, q, j1]; rfl, j2', j3, hban.1 k3, rfl, ?_⟩
          intro res
          have := r.2 (fit_sameKey ok' k2 (fun S hS y => ?_))
          · exact nomatch this
          · rw [h1] at hS
            by_cases hy : y = x
            · subst hy; rw [upd_same]; exact res S hS
            · rw [upd_other _ _ hy]; exact sameKey_refl (s.ok S hS) _
    · right; right; right
      cases t2 with
      | true =>
        left
        exact ⟨c', v2, by simp only [Container.modifyRb, hw, Bool.false_eq_true, if_false, if_true, hm, k1, hvx, hb, has, hbud, er], i2', i3, Or.inr (Or.inr (Or.inr rfl))⟩
      | false =>
        rcases ck with ⟨q, r⟩ | ⟨b, q, r⟩
        · left
          exact ⟨c', v2, by simp only [Container.modifyRb, hw, Bool.false_eq_true, if_false, hm, k1, hvx, hb, has, hbud, hm2, q, er], i2', i3, Or.inr (Or.inl r)⟩
        cases b with
        | true =>
          left
          exact ⟨c', v2, by simp only [Container.modifyRb, hw, Bool.false_eq_true, if_false, hm, k1, hvx, hb, has, hbud, hm2, q, er], i2', i3, Or.inl k3⟩
        | false =>
          right
          obtain ⟨d, j1, j2, j3⟩ := erase_spec (m := m.assign x v2) b1.sound hx1 ha hc upd_off b1.clear
          have gone : x ∉ (m.assign x v2).alloc.erase x := fun h => (na.mem_erase_iff.1 h).1 rfl
          have er2 : Container.eraseThrow { m.assign x v2 with alloc := (m.assign x v2).alloc.erase x, cons := (m.assign x v2).cons.erase x } d x = .ub := by
            simp only [Container.eraseThrow, Container.erase, Container.unlinkAll, if_neg gone]
          refine ⟨?_, k3, ?_, rfl, rfl⟩
          · simp only [Container.modifyRb, hw, Bool.false_eq_true, if_false, hm, k1, hvx, hb, has, hbud, hm2, q, j1]
            exact er2
          · intro res
            have := r.2 (fit_sameKey ok' k2 (fun S hS y => ?_))
            · exact nomatch this
            · rw [h1] at hS
              by_cases hy : y = x
              · subst hy; rw [upd_same]; exact res S hS
              · rw [upd_other _ _ hy]; exact sameKey_refl (s.ok S hS) _

theorem modifyRb_spec {x : Id} {mod back : V → V × Bool} {e e' : Nat → Env} (s : Sound m.val c) (hx : x ∈ c.elems) (x0 : x ≠ 0) (xp : x ∈ pool)
    (ha : x ∈ m.alloc) (hc : x ∈ m.cons) (cl : Clear pool c.ls) (na : m.alloc.Nodup) (hyp : Restores (specs c.ls) mod back (m.val x) ∨ ∀ k, (e k).Quiet) :
    (∃ c', c.modifyRb m x mod back e e' = .ok ⟨m.assign x (mod (m.val x)).1, c', x, true⟩ ∧ Became c c' (upd m.val x (mod (m.val x)).1) c.elems pool ∧
      Each (Moved (m.val x) (upd m.val x (mod (m.val x)).1) x) (specs c.ls) c.seqs c'.seqs ∧
      ¬ Banned (specs c.ls) m.val (c.elems.erase x) (mod (m.val x)).1 ∧ (mod (m.val x)).2 = false) ∨
    (∃ c', c.modifyRb m x mod back e e' = .ok ⟨m.assign x (back (mod (m.val x)).1).1, c', x, false⟩ ∧
      Became c c' (upd m.val x (back (mod (m.val x)).1).1) c.elems pool ∧ c'.seqs = c.seqs ∧
      Banned (specs c.ls) m.val (c.elems.erase x) (mod (m.val x)).1 ∧ (mod (m.val x)).2 = false) ∨
    (∃ c', c.modifyRb m x mod back e e' = .ok ⟨m.gone x (back (mod (m.val x)).1).1, c', 0, false⟩ ∧
      Became c c' (upd m.val x (back (mod (m.val x)).1).1) (c.elems.erase x) pool ∧ c'.seqs = c.seqs.map (·.erase x) ∧
      Banned (specs c.ls) m.val (c.elems.erase x) (mod (m.val x)).1 ∧ (mod (m.val x)).2 = false ∧
      ¬ Restores (specs c.ls) mod back (m.val x)) ∨
    (∃ c' v', c.modifyRb m x mod back e e' = .threw ⟨m.gone x v', c', 0, false⟩ ∧
      Became c c' (upd m.val x v') (c.elems.erase x) pool ∧ c'.seqs = c.seqs.map (·.erase x) ∧
      ((∃ i, ¬ (e i).Quiet) ∨ (∃ i, ¬ (e' i).Quiet) ∨ (mod (m.val x)).2 = true ∨ (back (mod (m.val x)).1).2 = true)) := by
  rcases modifyRb_all (mod := mod) (back := back) (e := e) (e' := e') s hx x0 xp ha hc cl na with h | h | h | h | ⟨-, ⟨k, hk⟩, hr, -⟩
  · exact Or.inl h
  · exact Or.inr (Or.inl h)
  · exact Or.inr (Or.inr (Or.inl h))
  · exact Or.inr (Or.inr (Or.inr h))
  · rcases hyp with h | h
    · exact absurd h hr
    · exact absurd (h k) hk

end
end MI.Cont
