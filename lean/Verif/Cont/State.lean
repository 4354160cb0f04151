import Verif.Cont.World
import Verif.Cont.RollbackLemmas
import Verif.Cont.DeleteLemmas
/-!
What the operations of a container do to its memory, its elements and the sequences of its indices.
-/
set_option linter.unusedVariables false
namespace MI.Cont
open MI
variable {V : Type}

/-- A well formed container: every index is well formed, they all hold the elements `c.elems`, and their number is right. -/
structure Sound (val : Id → V) (c : Container V) : Prop where
  ne : c.ls ≠ []
  ok : OkAll (specs c.ls)
  count : c.count = c.elems.length
  fit : Fit val c.hd c.elems c.ls c.seqs

theorem Fit.congr {val val' : Id → V} {hd : Id} {els : List Id} {Ls : List (Layer V)} {xss : List (List Id)} (f : Fit val hd els Ls xss)
    (h : ∀ z ∈ els, val' z = val z) : Fit val' hd els Ls xss := by
  induction Ls generalizing xss with
  | nil => obtain rfl := f.nil'; exact .nil
  | cons L Ls ih =>
    obtain ⟨xs, yss, rfl, w, p, f2⟩ := f.cases
    exact .cons (w.congr fun z hz => h z (p.mem_iff.1 hz)) p (ih f2)

theorem Fit.perm_els {val : Id → V} {hd : Id} {els els' : List Id} {Ls : List (Layer V)} {xss : List (List Id)} (f : Fit val hd els Ls xss)
    (p : els.Perm els') : Fit val hd els' Ls xss := ⟨f.holds, fun xs h => (f.perm xs h).trans p⟩

theorem seqs_of_fit {val : Id → V} {hd : Id} {els : List Id} {n : Nat} (hn : els.length + 3 ≤ n) : ∀ {Ls : List (Layer V)} {xss : List (List Id)},
    Fit val hd els Ls xss → Ls.map (fun L => (L.walk n hd).getD []) = xss
  | [], xss, f => by rw [f.nil']; rfl
  | L :: Ls, xss, f => by
    obtain ⟨xs, yss, rfl, w, p, f2⟩ := f.cases
    rw [List.map_cons, seqs_of_fit hn f2, Layer.walk_spec w (by rw [p.length_eq]; exact hn)]
    rfl

theorem sound_intro {val : Id → V} {c : Container V} {els : List Id} {xss : List (List Id)} (ne : c.ls ≠ []) (ok : OkAll (specs c.ls))
    (hc : c.count = els.length) (f : Fit val c.hd els c.ls xss) : Sound val c ∧ c.elems.Perm els ∧ c.seqs = xss := by
  have hs : c.seqs = xss := seqs_of_fit (by unfold Container.budget; omega) f
  have hp : c.elems.Perm els := by
    unfold Container.elems
    rw [hs]
    cases hl : c.ls with
    | nil => exact absurd hl ne
    | cons L Ls =>
      rw [hl] at f
      obtain ⟨xs, yss, rfl, w, p, f2⟩ := f.cases
      exact p
  refine ⟨⟨ne, ok, by rw [hc, hp.length_eq], ?_⟩, hp, hs⟩
  rw [hs]
  exact f.perm_els hp.symm

namespace Sound
variable {val val' : Id → V} {c : Container V}

theorem budget (s : Sound val c) : c.elems.length + 3 ≤ c.budget := by have := s.count; unfold Container.budget; omega

theorem congr (s : Sound val c) (h : ∀ z ∈ c.elems, val' z = val z) : Sound val' c := ⟨s.ne, s.ok, s.count, s.fit.congr h⟩

theorem nodup (s : Sound val c) : (c.hd :: c.elems).Nodup := by
  have f := s.fit
  have ne := s.ne
  cases hl : c.ls with
  | nil => exact absurd hl ne
  | cons L Ls =>
    rw [hl] at f
    obtain ⟨xs, yss, h, w, p, f2⟩ := f.cases
    have : c.elems = xs := by unfold Container.elems; rw [h]; rfl
    rw [this]
    exact w.nodup

theorem hd_not (s : Sound val c) : c.hd ∉ c.elems := (List.nodup_cons.1 s.nodup).1

theorem good (s : Sound val c) : Each (fun S xs _ => S.Good val xs) (specs c.ls) c.seqs c.seqs := by
  have go : ∀ {Ls : List (Layer V)} {xss : List (List Id)}, OkAll (specs Ls) → Fit val c.hd c.elems Ls xss →
      Each (fun S xs _ => S.Good val xs) (specs Ls) xss xss := by
    intro Ls
    induction Ls with
    | nil => intro xss _ f; rw [f.nil']; trivial
    | cons L Ls ih =>
      intro xss ok f
      obtain ⟨xs, yss, rfl, w, p, f2⟩ := f.cases
      exact ⟨w.good ok.head, ih ok.tail f2⟩
  exact go s.ok s.fit

end Sound

/-- `c'` is a well formed successor of `c` with elements `els`. -/
structure Became (c c' : Container V) (val : Id → V) (els pool : List Id) : Prop where
  sound : Sound val c'
  perm : c'.elems.Perm els
  hd : c'.hd = c.hd
  specs : specs c'.ls = specs c.ls
  clear : Clear pool c'.ls

theorem specs_ne {Ls Ls' : List (Layer V)} (h : specs Ls' = specs Ls) (ne : Ls ≠ []) : Ls' ≠ [] := by
  rintro rfl
  have := congrArg List.length h
  simp [specs] at this
  exact ne (List.length_eq_zero_iff.1 this.symm)

theorem became {c : Container V} {val : Id → V} {els pool : List Id} {Ls' : List (Layer V)} {k : Nat} {xss : List (List Id)} (ne : c.ls ≠ [])
    (ok : OkAll (specs c.ls)) (hs : specs Ls' = specs c.ls) (hc : k = els.length) (f : Fit val c.hd els Ls' xss) (cl : Clear pool Ls') :
    Became c { c with ls := Ls', count := k } val els pool ∧ ({ c with ls := Ls', count := k } : Container V).seqs = xss := by
  obtain ⟨h1, h2, h3⟩ := sound_intro (c := { c with ls := Ls', count := k }) (specs_ne hs ne) (by rw [hs]; exact ok) hc f
  exact ⟨⟨h1, h2, rfl, hs, cl⟩, h3⟩

/-- The order in every index is unchanged, up to rehashing. -/
def SameOrders (val : Id → V) (c c' : Container V) : Prop := Each (fun S => fun xs ys => Spec.Same val xs ys S) (specs c.ls) c.seqs c'.seqs

section
variable {m : Mem V} {c : Container V} {pool : List Id}

/-- The insertion of a node that is or will be at `x`. -/
theorem insertC_cont {M : Type} {val : Id → V} {x xr : Id} {hint : Option Id} {e : Nat → Env} {m0 : M} {base : Out M} (s : Sound val c) (x0 : x ≠ 0)
    (hx : x ∉ c.hd :: c.elems) (hh : c.HintOk hint) (sub : ∀ z ∈ c.elems, z ∈ pool) (xp : x ∈ pool) (hb : ∃ m, base = .ok m ∨ base = .threw m)
    (env : EnvAll c.hd c.count pool e c.ls) (cl : Clear pool c.ls) (hr : xr ∉ c.elems) :
    (∃ Ls' m, base = .ok m ∧ insertC c.budget c.hd val hint c.count m0 base x e xr c.ls = .ok ⟨Ls', m, x, x⟩ ∧
      Became c { c with ls := Ls', count := c.count + 1 } val (x :: c.elems) pool ∧
      Each (Added val hint x) (specs c.ls) c.seqs ({ c with ls := Ls', count := c.count + 1 } : Container V).seqs ∧
      ¬ Banned (specs c.ls) val c.elems (val x)) ∨
    (∃ Ls' y, insertC c.budget c.hd val hint c.count m0 base x e xr c.ls = .ok ⟨Ls', m0, y, xr⟩ ∧ y ∈ c.elems ∧
      Became c { c with ls := Ls' } val c.elems pool ∧ SameOrders val c { c with ls := Ls' } ∧
      ∃ S ∈ specs c.ls, S.unique = true ∧ S.equiv (val x) (val y) = true) ∨
    (∃ r, insertC c.budget c.hd val hint c.count m0 base x e xr c.ls = .threw r ∧ (r.m = m0 ∨ base = .threw r.m) ∧
      Became c { c with ls := r.ls } val c.elems pool ∧ SameOrders val c { c with ls := r.ls } ∧ ((∃ i, ¬ (e i).Quiet) ∨ base = .threw r.m)) := by
  obtain ⟨Ls', xss', h1, h2, h3⟩ := insertC_spec (m0 := m0) x0 hx hh s.count s.budget sub xp hb s.ok s.fit env cl hr
  rcases h3 with ⟨m, k1, k2, k3, k4, k5⟩ | ⟨y, k1, k2, k3, k4, k5⟩ | ⟨r, k1, rfl, k2, k3, k4, k5⟩
  · left
    obtain ⟨b1, b2⟩ := became (k := c.count + 1) s.ne s.ok h1 (by simp [s.count]) k3 h2
    exact ⟨Ls', m, k1, k2, b1, by rw [b2]; exact k4, k5⟩
  · right; left
    obtain ⟨b1, b2⟩ := became (k := c.count) s.ne s.ok h1 s.count k3 h2
    exact ⟨Ls', y, k1, k2, b1, by unfold SameOrders; rw [b2]; exact k4, k5⟩
  · right; right
    obtain ⟨b1, b2⟩ := became (k := c.count) s.ne s.ok h1 s.count k3 h2
    exact ⟨r, k1, k2, b1, by unfold SameOrders; rw [b2]; exact k4, k5⟩

theorem Became.congr {c' : Container V} {val val' : Id → V} {els : List Id} (b : Became c c' val els pool) (h : ∀ z ∈ els, val' z = val z) :
    Became c c' val' els pool := ⟨b.sound.congr fun z hz => h z (b.perm.mem_iff.1 hz), b.perm, b.hd, b.specs, b.clear⟩

theorem Became.seqs_mem {c' : Container V} {val : Id → V} {els : List Id} (b : Became c c' val els pool) : ∀ xs ∈ c'.seqs, xs.Perm els :=
  fun xs h => (b.sound.fit.perm xs h).trans b.perm

theorem Mem.dealloc_alloc (m : Mem V) (x : Id) : (m.allocate x).deallocate x = some m := by
  unfold Mem.allocate Mem.deallocate
  simp

theorem Mem.delete_new (m : Mem V) (x : Id) (v : V) : ((m.allocate x).construct x v).deleteNode x = some { m with val := upd m.val x v } := by
  simp [Mem.allocate, Mem.construct, Mem.deleteNode, Mem.destroy, Mem.deallocate]

theorem same_congr {S : Spec V} {val val' : Id → V} {xs ys : List Id} (h : ∀ z ∈ xs, val' z = val z) (s : S.Same val xs ys) : S.Same val' xs ys := by
  cases S with
  | hash c eq hf =>
    obtain ⟨p, q⟩ := s
    refine ⟨p, fun y hy => ?_⟩
    have e1 : xs.filter (fun z => eq (val' y) (val' z)) = xs.filter (fun z => eq (val y) (val z)) :=
      List.filter_congr fun z hz => by rw [h z hz, h y hy]
    have e2 : ys.filter (fun z => eq (val' y) (val' z)) = ys.filter (fun z => eq (val y) (val z)) :=
      List.filter_congr fun z hz => by rw [h z (p.mem_iff.1 hz), h y hy]
    rw [e1, e2]
    exact q y hy
  | ord u lt => exact s
  | seq => exact s
  | rnd => exact s

theorem each_congr {R T : Spec V → List Id → List Id → Prop} : ∀ {Ss : List (Spec V)} {xss yss : List (List Id)},
    (∀ S ∈ Ss, ∀ xs ∈ xss, ∀ ys, R S xs ys → T S xs ys) → Each R Ss xss yss → Each T Ss xss yss
  | [], [], [], _, _ => trivial
  | S :: Ss, xs :: xss, ys :: yss, h, r =>
    ⟨h S (by simp) xs (by simp) ys r.1, each_congr (fun T hT zs hz ws => h T (by simp [hT]) zs (by simp [hz]) ws) r.2⟩

theorem SameOrders.congr {c' : Container V} {val val' : Id → V} (s : Sound val c) (h : ∀ z ∈ c.elems, val' z = val z) (o : SameOrders val c c') :
    SameOrders val' c c' :=
  each_congr (fun S _ xs hx ys r => same_congr (fun z hz => h z ((s.fit.perm xs hx).mem_iff.1 hz)) r) o

/-- `insert`: accepted, rejected or threw. -/
theorem insert_spec {v : V} {x : Id} {f : Fault} {hint : Option Id} {e : Nat → Env} (s : Sound m.val c) (x0 : x ≠ 0) (z0 : 0 ∉ c.elems)
    (hx : x ∉ c.hd :: c.elems) (hh : c.HintOk hint) (sub : ∀ z ∈ c.elems, z ∈ pool) (xp : x ∈ pool)
    (env : EnvAll c.hd c.count pool e c.ls) (cl : Clear pool c.ls) :
    (∃ c', c.insert m v x f hint e = .ok ⟨(m.allocate x).construct x v, c', x, true⟩ ∧ Became c c' (upd m.val x v) (x :: c.elems) pool ∧
      Each (Added (upd m.val x v) hint x) (specs c.ls) c.seqs c'.seqs ∧ ¬ Banned (specs c.ls) m.val c.elems v ∧ f.alloc = false ∧ f.construct = false) ∨
    (∃ c' y, c.insert m v x f hint e = .ok ⟨m, c', y, false⟩ ∧ y ∈ c.elems ∧ Became c c' m.val c.elems pool ∧ SameOrders m.val c c' ∧
      ∃ S ∈ specs c.ls, S.unique = true ∧ S.equiv v (m.val y) = true) ∨
    (∃ c', c.insert m v x f hint e = .threw ⟨m, c', 0, false⟩ ∧ Became c c' m.val c.elems pool ∧ SameOrders m.val c c' ∧
      ((∃ i, ¬ (e i).Quiet) ∨ f.alloc = true ∨ f.construct = true)) := by
  have nx : ∀ z ∈ c.elems, upd m.val x v z = m.val z := fun z hz => upd_other _ _ (by rintro rfl; exact hx (by simp [hz]))
  have nx' : ∀ z ∈ c.elems, m.val z = upd m.val x v z := fun z hz => (nx z hz).symm
  have s' := s.congr nx
  have hvx : upd m.val x v x = v := upd_same _ _ _
  have hb : (baseInsert f m x v = .ok ((m.allocate x).construct x v) ∧ f.alloc = false ∧ f.construct = false) ∨
      (baseInsert f m x v = .threw m ∧ (f.alloc = true ∨ f.construct = true)) := by
    unfold baseInsert
    cases h1 : f.alloc <;> cases h2 : f.construct <;> simp [Mem.dealloc_alloc]
  have hb' : ∃ m', baseInsert f m x v = .ok m' ∨ baseInsert f m x v = .threw m' := by
    rcases hb with h | h
    · exact ⟨_, Or.inl h.1⟩
    · exact ⟨_, Or.inr h.1⟩
  rcases insertC_cont (m0 := m) (xr := 0) s' x0 hx hh sub xp hb' env cl z0 with
    ⟨Ls', m', k1, k2, k3, k4, k5⟩ | ⟨Ls', y, k1, k2, k3, k4, k5⟩ | ⟨r, k1, k2, k3, k4, k5⟩
  · left
    rcases hb with ⟨hb, f1, f2⟩ | ⟨hb, -⟩
    swap
    · rw [hb] at k1; exact nomatch k1
    obtain rfl : (m.allocate x).construct x v = m' := by rw [hb] at k1; exact Out.ok.inj k1
    refine ⟨_, by simp only [Container.insert, k2, if_true], k3, k4, ?_, f1, f2⟩
    rintro ⟨S, q1, q2, y, q3, q4⟩
    exact k5 ⟨S, q1, q2, y, q3, by rw [hvx, nx y q3]; exact q4⟩
  · right; left
    have y0 : y ≠ 0 := by rintro rfl; exact z0 k2
    obtain ⟨S, q1, q2, q3⟩ := k5
    exact ⟨_, y, by simp only [Container.insert, k1, y0, if_false], k2, k3.congr nx', k4.congr s' nx', S, q1, q2, by rw [hvx, nx y k2] at q3; exact q3⟩
  · right; right
    have rm : r.m = m := by
      rcases k2 with h | h
      · exact h
      · rcases hb with ⟨hb, -⟩ | ⟨hb, -⟩
        · rw [hb] at h; exact nomatch h
        · rw [hb] at h; exact (Out.threw.inj h).symm
    refine ⟨{ c with ls := r.ls }, by simp only [Container.insert, k1, rm], k3.congr nx', k4.congr s' nx', ?_⟩
    rcases k5 with h | h
    · exact Or.inl h
    · rcases hb with ⟨hb, -⟩ | ⟨hb, q⟩
      · rw [hb] at h; exact nomatch h
      · exact Or.inr q

/-- `emplace`: accepted, rejected or threw. When rejected or threw, the node has been destroyed and freed: memory is as before (except for
the contents of the free address `x`). -/
theorem emplace_spec {v : V} {x : Id} {f : Fault} {hint : Option Id} {e : Nat → Env} (s : Sound m.val c) (x0 : x ≠ 0)
    (hx : x ∉ c.hd :: c.elems) (hh : c.HintOk hint) (sub : ∀ z ∈ c.elems, z ∈ pool) (xp : x ∈ pool)
    (env : EnvAll c.hd c.count pool e c.ls) (cl : Clear pool c.ls) :
    (∃ c', c.emplace m v x f hint e = .ok ⟨(m.allocate x).construct x v, c', x, true⟩ ∧ Became c c' (upd m.val x v) (x :: c.elems) pool ∧
      Each (Added (upd m.val x v) hint x) (specs c.ls) c.seqs c'.seqs ∧ ¬ Banned (specs c.ls) m.val c.elems v ∧ f.alloc = false ∧ f.construct = false) ∨
    (∃ c' y m', m' = { m with val := upd m.val x v } ∧ c.emplace m v x f hint e = .ok ⟨m', c', y, false⟩ ∧ y ∈ c.elems ∧ Became c c' m.val c.elems pool ∧
      SameOrders m.val c c' ∧ ∃ S ∈ specs c.ls, S.unique = true ∧ S.equiv v (m.val y) = true) ∨
    (∃ c' m', (m' = m ∨ m' = { m with val := upd m.val x v }) ∧ c.emplace m v x f hint e = .threw ⟨m', c', 0, false⟩ ∧
      Became c c' m.val c.elems pool ∧ SameOrders m.val c c' ∧ ((∃ i, ¬ (e i).Quiet) ∨ f.alloc = true ∨ f.construct = true)) := by
  have nx : ∀ z ∈ c.elems, upd m.val x v z = m.val z := fun z hz => upd_other _ _ (by rintro rfl; exact hx (by simp [hz]))
  have nx' : ∀ z ∈ c.elems, m.val z = upd m.val x v z := fun z hz => (nx z hz).symm
  have s' := s.congr nx
  have hvx : upd m.val x v x = v := upd_same _ _ _
  have self : Became c c m.val c.elems pool := ⟨s, .refl _, rfl, rfl, cl⟩
  have self2 : SameOrders m.val c c := each_refl s.fit
  cases h1 : f.alloc with
  | true => exact Or.inr (Or.inr ⟨c, m, Or.inl rfl, by simp only [Container.emplace, h1, if_true], self, self2, Or.inr (Or.inl rfl)⟩)
  | false =>
  cases h2 : f.construct with
  | true =>
    exact Or.inr (Or.inr ⟨c, m, Or.inl rfl, by simp only [Container.emplace, h1, h2, if_true, Bool.false_eq_true, if_false, Mem.dealloc_alloc], self, self2,
      Or.inr (Or.inr rfl)⟩)
  | false =>
  have hval : ((m.allocate x).construct x v).val = upd m.val x v := rfl
  have hdel := Mem.delete_new m x v
  rcases insertC_cont (m0 := (m.allocate x).construct x v) (base := .ok ((m.allocate x).construct x v)) (xr := x) s' x0 hx hh sub xp ⟨_, Or.inl rfl⟩ env cl
    (by intro h; exact hx (by simp [h])) with
    ⟨Ls', m', k1, k2, k3, k4, k5⟩ | ⟨Ls', y, k1, k2, k3, k4, k5⟩ | ⟨r, k1, k2, k3, k4, k5⟩
  · left
    obtain rfl := Out.ok.inj k1
    refine ⟨_, by simp only [Container.emplace, h1, h2, Bool.false_eq_true, if_false, hval, k2, if_true], k3, k4, ?_, rfl, rfl⟩
    rintro ⟨S, q1, q2, y, q3, q4⟩
    exact k5 ⟨S, q1, q2, y, q3, by rw [hvx, nx y q3]; exact q4⟩
  · right; left
    have yx : y ≠ x := by rintro rfl; exact hx (by simp [k2])
    obtain ⟨S, q1, q2, q3⟩ := k5
    exact ⟨_, y, _, rfl, by simp only [Container.emplace, h1, h2, Bool.false_eq_true, if_false, hval, k1, yx, hdel], k2, k3.congr nx', k4.congr s' nx',
      S, q1, q2, by rw [hvx, nx y k2] at q3; exact q3⟩
  · right; right
    have rm : r.m = (m.allocate x).construct x v := by
      rcases k2 with h | h
      · exact h
      · exact nomatch h
    have hd1 : ((m.allocate x).construct x v).destroy x = some { m.allocate x with val := upd m.val x v } := by
      simp [Mem.construct, Mem.destroy, Mem.allocate]
    have hd2 : ({ m.allocate x with val := upd m.val x v } : Mem V).deallocate x = some { m with val := upd m.val x v } := by
      simp [Mem.deallocate, Mem.allocate]
    refine ⟨{ c with ls := r.ls }, _, Or.inr rfl, by
      simp only [Container.emplace, h1, h2, Bool.false_eq_true, if_false, hval, k1, rm, hd1, hd2], k3.congr nx', k4.congr s' nx', ?_⟩
    rcases k5 with h | h
    · exact Or.inl h
    · exact nomatch h

/-- Insertion of the node of a handle. -/
theorem insertNh_spec {x : Id} {hint : Option Id} {e : Nat → Env} (s : Sound m.val c) (x0 : x ≠ 0)
    (hx : x ∉ c.hd :: c.elems) (hh : c.HintOk hint) (sub : ∀ z ∈ c.elems, z ∈ pool) (xp : x ∈ pool)
    (env : EnvAll c.hd c.count pool e c.ls) (cl : Clear pool c.ls) :
    (∃ c', c.insertNh m (some x) hint e = .ok (⟨m, c', x, true⟩, none) ∧ Became c c' m.val (x :: c.elems) pool ∧
      Each (Added m.val hint x) (specs c.ls) c.seqs c'.seqs ∧ ¬ Banned (specs c.ls) m.val c.elems (m.val x)) ∨
    (∃ c' y, c.insertNh m (some x) hint e = .ok (⟨m, c', y, false⟩, some x) ∧ y ∈ c.elems ∧ Became c c' m.val c.elems pool ∧ SameOrders m.val c c' ∧
      ∃ S ∈ specs c.ls, S.unique = true ∧ S.equiv (m.val x) (m.val y) = true) ∨
    (∃ c', c.insertNh m (some x) hint e = .threw (⟨m, c', 0, false⟩, some x) ∧ Became c c' m.val c.elems pool ∧ SameOrders m.val c c' ∧
      ∃ i, ¬ (e i).Quiet) := by
  rcases insertC_cont (m0 := m) (base := .ok m) (xr := x) s x0 hx hh sub xp ⟨_, Or.inl rfl⟩ env cl (by intro h; exact hx (by simp [h])) with
    ⟨Ls', m', k1, k2, k3, k4, k5⟩ | ⟨Ls', y, k1, k2, k3, k4, k5⟩ | ⟨r, k1, k2, k3, k4, k5⟩
  · left
    obtain rfl := Out.ok.inj k1
    exact ⟨_, by simp only [Container.insertNh, k2, if_true], k3, k4, k5⟩
  · right; left
    have yx : y ≠ x := by rintro rfl; exact hx (by simp [k2])
    exact ⟨_, y, by simp only [Container.insertNh, k1, yx, if_false], k2, k3, k4, k5⟩
  · right; right
    have rm : r.m = m := by
      rcases k2 with h | h
      · exact h
      · exact nomatch h
    refine ⟨{ c with ls := r.ls }, by simp only [Container.insertNh, k1, rm], k3, k4, ?_⟩
    rcases k5 with h | h
    · exact h
    · exact nomatch h

/-- The value may be changed before the element is unlinked. -/
theorem unlinkAll_spec {val : Id → V} {x : Id} (s : Sound val c) (hx : x ∈ c.elems) (ha : x ∈ m.alloc) (hv : ∀ y, y ≠ x → m.val y = val y)
    (cl : Clear pool c.ls) :
    ∃ c', Container.unlinkAll m c x = .ok c' ∧ Became c c' m.val (c.elems.erase x) pool ∧ c'.seqs = c.seqs.map (·.erase x) := by
  obtain ⟨Ls', h1, h2, h3, h4⟩ := extractC_spec hx hv s.budget s.fit
  have hl : c.count - 1 = (c.elems.erase x).length := by rw [List.length_erase_of_mem hx, s.count]
  obtain ⟨b1, b2⟩ := became (k := c.count - 1) s.ne s.ok h2 hl h3 (h4 _ cl)
  exact ⟨_, by simp only [Container.unlinkAll, ha, if_true, h1], b1, b2⟩

theorem Mem.deleteNode_mem {x : Id} (ha : x ∈ m.alloc) (hc : x ∈ m.cons) :
    m.deleteNode x = some { m with alloc := m.alloc.erase x, cons := m.cons.erase x } := by
  simp [Mem.deleteNode, Mem.destroy, Mem.deallocate, ha, hc]

theorem erase_spec {val : Id → V} {x : Id} (s : Sound val c) (hx : x ∈ c.elems) (ha : x ∈ m.alloc) (hc : x ∈ m.cons)
    (hv : ∀ y, y ≠ x → m.val y = val y) (cl : Clear pool c.ls) :
    ∃ c', c.erase m x = .ok ⟨{ m with alloc := m.alloc.erase x, cons := m.cons.erase x }, c', 0, true⟩ ∧ Became c c' m.val (c.elems.erase x) pool ∧
      c'.seqs = c.seqs.map (·.erase x) := by
  obtain ⟨c', h1, h2, h3⟩ := unlinkAll_spec s hx ha hv cl
  exact ⟨c', by simp only [Container.erase, h1, Mem.deleteNode_mem ha hc], h2, h3⟩

theorem eraseThrow_spec {val : Id → V} {x : Id} (s : Sound val c) (hx : x ∈ c.elems) (ha : x ∈ m.alloc) (hc : x ∈ m.cons)
    (hv : ∀ y, y ≠ x → m.val y = val y) (cl : Clear pool c.ls) :
    ∃ c', c.eraseThrow m x = .threw ⟨{ m with alloc := m.alloc.erase x, cons := m.cons.erase x }, c', 0, false⟩ ∧
      Became c c' m.val (c.elems.erase x) pool ∧ c'.seqs = c.seqs.map (·.erase x) := by
  obtain ⟨c', h1, h2, h3⟩ := erase_spec s hx ha hc hv cl
  exact ⟨c', by simp only [Container.eraseThrow, h1], h2, h3⟩

theorem extract_spec {x : Id} (s : Sound m.val c) (hx : x ∈ c.elems) (ha : x ∈ m.alloc) (cl : Clear pool c.ls) :
    ∃ c', c.extract m x = .ok (⟨m, c', x, true⟩, some x) ∧ Became c c' m.val (c.elems.erase x) pool ∧ c'.seqs = c.seqs.map (·.erase x) := by
  obtain ⟨c', h1, h2, h3⟩ := unlinkAll_spec s hx ha (fun _ _ => rfl) cl
  exact ⟨c', by simp only [Container.extract, h1], h2, h3⟩

/-- Deleting nodes one after another removes each of them once. -/
theorem deleteNodes_spec : ∀ {xs : List Id} {m : Mem V}, (∀ z, xs.count z ≤ m.alloc.count z) → (∀ z, xs.count z ≤ m.cons.count z) →
    ∃ m', m.deleteNodes xs = some m' ∧ m'.val = m.val ∧ m'.alloc = m.alloc.diff xs ∧ m'.cons = m.cons.diff xs
  | [], m, _, _ => ⟨m, rfl, rfl, rfl, rfl⟩
  | x :: xs, m, h1, h2 => by
    have ha : x ∈ m.alloc := List.count_pos_iff.1 (by have := h1 x; simp at this; omega)
    have hc : x ∈ m.cons := List.count_pos_iff.1 (by have := h2 x; simp at this; omega)
    obtain ⟨m', k1, k2, k3, k4⟩ := deleteNodes_spec (xs := xs) (m := { m with alloc := m.alloc.erase x, cons := m.cons.erase x })
      (by
        intro z
        have := h1 z
        rw [List.count_cons] at this
        simp only [List.count_erase, beq_iff_eq]
        by_cases hz : x = z
        · subst hz; simp at this ⊢; omega
        · simp [hz] at this ⊢; exact this)
      (by
        intro z
        have := h2 z
        rw [List.count_cons] at this
        simp only [List.count_erase, beq_iff_eq]
        by_cases hz : x = z
        · subst hz; simp at this ⊢; omega
        · simp [hz] at this ⊢; exact this)
    exact ⟨m', by simp only [Mem.deleteNodes, Mem.deleteNode_mem ha hc, k1], k2, by rw [k3, List.diff_cons], by rw [k4, List.diff_cons]⟩

theorem deleteAll_spec (s : Sound m.val c) (h1 : ∀ z, c.elems.count z ≤ m.alloc.count z) (h2 : ∀ z, c.elems.count z ≤ m.cons.count z) :
    ∃ m', c.deleteAll m = .ok m' ∧ m'.val = m.val ∧ m'.alloc = m.alloc.diff c.elems ∧ m'.cons = m.cons.diff c.elems := by
  have f := s.fit
  have ne := s.ne
  cases hl : c.ls with
  | nil => exact absurd hl ne
  | cons L Ls =>
    rw [hl] at f
    obtain ⟨xs, yss, h, w, p, f2⟩ := f.cases
    have he : c.elems = xs := by unfold Container.elems; rw [h]; rfl
    obtain ⟨ys, k1, k2⟩ := Layer.deleteAll_spec (n := c.budget) w (by have := s.budget; rw [he] at this; omega)
    have k2' : ys.Perm c.elems := by rw [he]; exact k2
    obtain ⟨m', j1, j2, j3, j4⟩ := deleteNodes_spec (xs := ys) (m := m) (fun z => by rw [k2'.count_eq]; exact h1 z)
      (fun z => by rw [k2'.count_eq]; exact h2 z)
    refine ⟨m', by simp only [Container.deleteAll, hl, k1, j1], j2, ?_, ?_⟩
    · rw [j3]; exact List.Perm.diff_left _ k2'
    · rw [j4]; exact List.Perm.diff_left _ k2'

theorem clear_spec (s : Sound m.val c) (h0 : c.hd ≠ 0) (h1 : ∀ z, c.elems.count z ≤ m.alloc.count z) (h2 : ∀ z, c.elems.count z ≤ m.cons.count z)
    (cl : Clear pool c.ls) :
    ∃ m' c', c.clear m = .ok ⟨m', c', 0, true⟩ ∧ m'.val = m.val ∧ m'.alloc = m.alloc.diff c.elems ∧ m'.cons = m.cons.diff c.elems ∧
      Became c c' m.val [] pool := by
  obtain ⟨m', k1, k2, k3, k4⟩ := deleteAll_spec s h1 h2
  obtain ⟨j1, j2, j3⟩ := clearC_spec (val' := m.val) h0 s.fit
  obtain ⟨b1, b2⟩ := became (k := 0) s.ne s.ok j1 rfl j2 (j3 _ cl)
  exact ⟨m', _, by simp only [Container.clear, k1], k2, k3, k4, b1⟩

end
end MI.Cont
