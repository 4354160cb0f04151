import Verif.Safe.Spec
import Verif.Safe.Chains
import Verif.Cont.EffectLemmas2
/-!
What each operation of the library does to the iterators of a program in safe mode.
-/
set_option linter.unusedVariables false
set_option linter.unusedSimpArgs false
namespace MI.Safe
open MI MI.Cont
variable {V : Type}

structure SInv (s : State V) : Prop where
  inv : Inv s.w
  shape : Shape s.w s.sid
  rep : Rep s.reg s.live
  loc : ∀ y ∈ s.live, s.reg.cont y ≠ 0 → ∃ i k, Located s.w s.sid s.reg y i k
  raw : ∀ y ∈ s.live, s.reg.unchecked y = true → s.reg.cont y = 0

theorem owner {w : World V} (I : Inv w) {i j : Nat} {c d : Container V} {z : Id} (hi : w.cs[i]? = some c) (hj : w.cs[j]? = some d) (h1 : Has c z) (h2 : Has d z) :
    i = j := by
  by_contra e
  exact I.disj hi (by rw [List.mem_eraseIdx_iff_getElem?]; exact ⟨j, Ne.symm e, hj⟩) h1 h2

theorem getD_some {sid : List (List Nat)} {i k a : Nat} (h : (sid.getD i [])[k]? = some a) : ∃ l, sid[i]? = some l ∧ l[k]? = some a := by
  rw [List.getD_eq_getElem?_getD] at h
  cases e : sid[i]? with
  | none => rw [e] at h; exact nomatch h
  | some l => rw [e] at h; exact ⟨l, rfl, h⟩

theorem mem_flat {sid : List (List Nat)} {i k a : Nat} (h : (sid.getD i [])[k]? = some a) : a ∈ sid.flatten := by
  obtain ⟨l, h1, h2⟩ := getD_some h
  exact List.mem_flatten.2 ⟨l, List.mem_of_getElem? h1, List.mem_of_getElem? h2⟩

theorem mem_row {sid : List (List Nat)} {i a : Nat} (h : a ∈ sid.getD i []) : a ∈ sid.flatten := by
  obtain ⟨k, hk⟩ := List.mem_iff_getElem?.1 h
  exact mem_flat hk

theorem row_nodup {sid : List (List Nat)} (nd : sid.flatten.Nodup) (i : Nat) : (sid.getD i []).Nodup := by
  rw [List.getD_eq_getElem?_getD]
  cases e : sid[i]? with
  | none => simp
  | some l => exact (List.nodup_flatten.1 nd).1 l (List.mem_of_getElem? e)

theorem rows_disj {sid : List (List Nat)} (nd : sid.flatten.Nodup) {i j a : Nat} (h1 : a ∈ sid.getD i []) (h2 : a ∈ sid.getD j []) : i = j := by
  obtain ⟨k, hk⟩ := List.mem_iff_getElem?.1 h1
  obtain ⟨l, hl⟩ := List.mem_iff_getElem?.1 h2
  obtain ⟨r1, g1, g2⟩ := getD_some hk
  obtain ⟨r2, g3, g4⟩ := getD_some hl
  have pw := (List.nodup_flatten.1 nd).2
  rw [List.pairwise_iff_getElem] at pw
  obtain ⟨a1, a2⟩ := List.getElem?_eq_some_iff.1 g1
  obtain ⟨b1, b2⟩ := List.getElem?_eq_some_iff.1 g3
  rcases Nat.lt_trichotomy i j with q | q | q
  · have := pw i j a1 b1 q
    rw [a2, b2] at this
    exact absurd (List.mem_of_getElem? g4) (this (List.mem_of_getElem? g2))
  · exact q
  · have := pw j i b1 a1 q
    rw [a2, b2] at this
    exact absurd (List.mem_of_getElem? g2) (this (List.mem_of_getElem? g4))

theorem Located.mem {w : World V} {sid : List (List Nat)} {r : Reg} {it i k : Nat} (h : Located w sid r it i k) : r.cont it ∈ sid.getD i [] := by
  obtain ⟨c, -, h, -⟩ := h
  exact List.mem_of_getElem? h

theorem Located.ne {w : World V} {sid : List (List Nat)} {r : Reg} {it i k : Nat} (S : Shape w sid) (h : Located w sid r it i k) : r.cont it ≠ 0 :=
  fun e => S.nz (e ▸ mem_row h.mem)

theorem not_estranged {w w' : World V} {o : Op V} {z : Id} {k : Nat} (h : ∀ i j x e, o ≠ .transfer i j x e) : ¬ Estranged w w' o z k := by
  rintro ⟨i, j, e, c, d, c', L, M, k, -⟩
  exact h _ _ _ _ k

section
variable {s : State V} {o : Op V} {w' : World V} {r' : Reg}

/-- Every container has its elements, and maybe more. -/
def Kept (w w' : World V) : Prop := w'.cs.length = w.cs.length ∧ ∀ (i : Nat) (c : Container V), w.cs[i]? = some c → ∃ c', w'.cs[i]? = some c' ∧ c'.ls.length = c.ls.length ∧ ∀ z, Has c z → Has c' z

theorem kept_at {w w' : World V} {i : Nat} {c c' : Container V} (hi : w.cs[i]? = some c) (h : w'.cs = w.cs.set i c') (hl : c'.ls.length = c.ls.length) (hh : c'.hd = c.hd)
    (hz : ∀ z ∈ c.elems, z ∈ c'.elems) : Kept w w' := by
  refine ⟨by rw [h, List.length_set], fun j d hj => ?_⟩
  rw [h]
  by_cases e : i = j
  · subst e
    obtain rfl := Option.some.inj (hi.symm.trans hj)
    refine ⟨c', List.getElem?_set_self (List.getElem?_eq_some_iff.1 hi).1, hl, fun z k => ?_⟩
    unfold Has at *
    rw [List.mem_cons] at *
    rw [hh]
    exact k.imp id (hz z)
  · exact ⟨d, by rw [List.getElem?_set_ne e]; exact hj, rfl, fun _ k => k⟩

theorem asked_len {c c' : Container V} (h : c'.asked = c.asked) : c'.ls.length = c.ls.length := by
  have := congrArg List.length h
  simpa [Container.asked] using this

theorem kept_same {w w' : World V} (h : w'.cs = w.cs) : Kept w w' := ⟨by rw [h], fun i c hi => ⟨c, by rw [h]; exact hi, rfl, fun _ k => k⟩⟩

theorem kept_unchanged {w w' : World V} {i : Nat} (I : Inv w) (u : Unchanged w w' i) : Kept w w' := by
  obtain ⟨c, c', o, p⟩ := u.elems I
  exact kept_at o.pre o.cs (asked_len o.asked) o.hd fun z hz => p.mem_iff.2 hz

theorem kept_seqs {w w' : World V} {i : Nat} {c c' : Container V} (o : OnlyAt w w' i c c') (h : c'.seqs = c.seqs) : Kept w w' :=
  kept_at o.pre o.cs (asked_len o.asked) o.hd fun z hz => by unfold Container.elems at *; rw [h]; exact hz

theorem kept_gained {w w' : World V} {i : Nat} {hint : Option Id} {x : Id} (I : Inv w) (g : Gained w w' i hint x) : Kept w w' := by
  obtain ⟨m, c, c', o, -, e⟩ := g
  obtain ⟨S, -, k⟩ := each_head e (asked_ne (I.facts o.pre).2.1)
  exact kept_at o.pre o.cs (asked_len o.asked) o.hd fun z hz => k.mem hz

theorem kept_changed {w w' : World V} {i : Nat} {x : Id} {v : V} (I : Inv w) (g : Changed w w' i x v) : Kept w w' := by
  obtain ⟨-, -, -, -, -, c, c', o, -, e⟩ := g
  obtain ⟨S, -, k⟩ := each_head e (asked_ne (I.facts o.pre).2.1)
  exact kept_at o.pre o.cs (asked_len o.asked) o.hd fun z hz => k.mem hz

theorem shape_kept {w w' : World V} {sid : List (List Nat)} (S : Shape w sid) (K : Kept w w') : Shape w' sid := by
  refine ⟨by rw [S.len, K.1], fun i c' hi => ?_, S.nodup, S.nz⟩
  have hl : i < w.cs.length := by rw [← K.1]; exact (List.getElem?_eq_some_iff.1 hi).1
  obtain ⟨c2, h2, h3, -⟩ := K.2 i _ (List.getElem?_eq_getElem hl)
  obtain rfl := Option.some.inj (hi.symm.trans h2)
  rw [S.row i _ (List.getElem?_eq_getElem hl), h3]

/-- The containers only grow, and the registry is left alone. -/
theorem lib_kept (K : Kept s.w w') (ne : ∀ y ∈ s.live, ∀ i k, Located s.w s.sid s.reg y i k → ¬ Estranged s.w w' o (s.reg.node y) k) :
    LibOk s o w' s.sid s.reg := by
  refine ⟨fun _ _ => rfl, fun _ _ => rfl, fun _ _ h => h, fun y hy i k L => Or.inl ⟨?_, ne y hy i k L⟩⟩
  obtain ⟨c, h1, h2, h3⟩ := L
  obtain ⟨c', g1, -, g2⟩ := K.2 i c h1
  exact ⟨i, c', g1, h2, g2 _ h3⟩

/-- The element `x` of container `i` has been removed. -/
def LostAt (w w' : World V) (i : Nat) (x : Id) : Prop := ∃ c c', w.cs[i]? = some c ∧ w'.cs = w.cs.set i c' ∧ c'.ls.length = c.ls.length ∧ Has c x ∧ ∀ z, Has c' z ↔ Has c z ∧ z ≠ x

theorem lostAt {w w' : World V} {i : Nat} {x : Id} (I : Inv w) (l : Lost w w' i x) : LostAt w w' i x := by
  obtain ⟨m, c, c', o, hx, -, e⟩ := l
  have s := (I.facts o.pre).2.1
  have nd := List.nodup_cons.1 s.nodup
  refine ⟨c, c', o.pre, o.cs, asked_len o.asked, by unfold Has; simp [hx], fun z => ?_⟩
  unfold Has
  rw [lost_elems e, o.hd, List.mem_cons, List.mem_cons, nd.2.mem_erase_iff]
  constructor
  · rintro (h | ⟨h1, h2⟩)
    · exact ⟨Or.inl h, by rintro rfl; exact nd.1 (h ▸ hx)⟩
    · exact ⟨Or.inr h2, h1⟩
  · rintro ⟨h | h, k⟩
    · exact Or.inl h
    · exact Or.inr ⟨k, h⟩

theorem lost_gone {w w' : World V} {i : Nat} {x : Id} (I : Inv w) (l : LostAt w w' i x) : Gone w' x := by
  obtain ⟨c, c', hi, hc, -, hx, hz⟩ := l
  intro d hd k
  rw [hc] at hd
  rcases mem_set_rest hi hd with rfl | hd
  · exact ((hz x).1 k).2 rfl
  · exact I.disj hi hd hx k

theorem shape_at {w w' : World V} {sid : List (List Nat)} {i : Nat} {c c' : Container V} (S : Shape w sid) (hi : w.cs[i]? = some c) (h : w'.cs = w.cs.set i c')
    (hl : c'.ls.length = c.ls.length) : Shape w' sid := by
  refine ⟨by rw [S.len, h, List.length_set], fun j d hj => ?_, S.nodup, S.nz⟩
  rw [h] at hj
  by_cases e : i = j
  · subst e
    rw [List.getElem?_set_self (List.getElem?_eq_some_iff.1 hi).1] at hj
    obtain rfl := Option.some.inj hj
    rw [S.row _ _ hi, hl]
  · rw [List.getElem?_set_ne e] at hj
    exact S.row _ _ hj

theorem lib_lost {i : Nat} {x : Id} (I : SInv s) (l : LostAt s.w w' i x) (d : Does s.reg r' s.live (gone s.reg (s.sid.getD i []) x))
    (ne : ∀ z k, ¬ Estranged s.w w' o z k) : LibOk s o w' s.sid r' := by
  refine ⟨d.node, d.unchecked, fun y hy h => ?_, fun y hy j k L => ?_⟩
  · rw [d.cont y hy]
    unfold gone
    split
    · rfl
    · exact h
  · have hm := L.mem
    obtain ⟨c, c', hi, hc, hl, hx, hz⟩ := l
    by_cases e : s.reg.node y = x
    · right
      obtain ⟨b, h1, h2, h3⟩ := L
      have := owner I.inv hi h1 (e ▸ hx) h3
      subst this
      refine ⟨by rw [d.cont y hy]; exact if_pos ⟨hm, e⟩, Or.inl ?_⟩
      rw [e]
      exact lost_gone I.inv ⟨c, c', hi, hc, hl, hx, hz⟩
    · left
      refine ⟨⟨j, ?_⟩, ne _ _⟩
      have e1 : r'.cont y = s.reg.cont y := by rw [d.cont y hy]; exact if_neg fun q => e q.2
      obtain ⟨b, h1, h2, h3⟩ := L
      unfold Located
      rw [e1, d.node y hy, hc]
      by_cases q : i = j
      · subst q
        obtain rfl := Option.some.inj (hi.symm.trans h1)
        exact ⟨c', List.getElem?_set_self (List.getElem?_eq_some_iff.1 hi).1, h2, (hz _).2 ⟨h3, e⟩⟩
      · exact ⟨b, by rw [List.getElem?_set_ne q]; exact h1, h2, h3⟩

/-- `clear()`. -/
theorem lib_clear {i : Nat} {c c' : Container V} (I : SInv s) (oa : OnlyAt s.w w' i c c') (em : c'.elems = [])
    (d : Does s.reg r' s.live (fun y => if s.reg.cont y ∈ s.sid.getD i [] ∧ s.reg.node y ≠ c.hd then 0 else s.reg.cont y))
    (ne : ∀ z k, ¬ Estranged s.w w' o z k) : LibOk s o w' s.sid r' := by
  refine ⟨d.node, d.unchecked, fun y hy h => ?_, fun y hy j k L => ?_⟩
  · rw [d.cont y hy]
    split
    · rfl
    · exact h
  · have hm := L.mem
    obtain ⟨b, h1, h2, h3⟩ := L
    by_cases q : i = j
    · subst q
      obtain rfl := Option.some.inj (oa.pre.symm.trans h1)
      by_cases e : s.reg.node y = c.hd
      · left
        refine ⟨⟨i, c', ?_, ?_, ?_⟩, ne _ _⟩
        · rw [oa.cs]; exact List.getElem?_set_self (List.getElem?_eq_some_iff.1 h1).1
        · rw [d.cont y hy, if_neg fun q => q.2 e]; exact h2
        · rw [d.node y hy]; unfold Has; rw [e, oa.hd]; simp
      · right
        refine ⟨by rw [d.cont y hy]; exact if_pos ⟨hm, e⟩, Or.inl fun f hf k => ?_⟩
        rw [oa.cs] at hf
        rcases mem_set_rest h1 hf with rfl | hf
        · unfold Has at k
          rw [em, oa.hd] at k
          exact e (by simpa using k)
        · exact I.inv.disj h1 hf h3 k
    · left
      have : s.reg.cont y ∉ s.sid.getD i [] := fun k => q (rows_disj I.shape.nodup k hm)
      refine ⟨⟨j, b, ?_, ?_, ?_⟩, ne _ _⟩
      · rw [oa.cs, List.getElem?_set_ne q]; exact h1
      · rw [d.cont y hy, if_neg fun q => this q.1]; exact h2
      · rw [d.node y hy]; exact h3

theorem getElem?_eraseIdx' {α : Type} {l : List α} {i j : Nat} {a : α} (h : l[j]? = some a) (ne : j ≠ i) : (l.eraseIdx i)[if j < i then j else j - 1]? = some a := by
  rw [List.getElem?_eraseIdx]
  by_cases k : j < i
  · rw [if_pos k, if_pos k]; exact h
  · rw [if_neg k, if_neg (by omega)]
    rw [show j - 1 + 1 = j by omega]; exact h

theorem flatten_sub {α : Type} {l l' : List (List α)} (h : l.Sublist l') : l.flatten.Sublist l'.flatten := by
  induction h with
  | slnil => simp
  | cons a _ ih => exact ih.trans (List.sublist_append_right _ _)
  | cons_cons a _ ih => exact (List.append_sublist_append_left _).2 ih

theorem shape_destroy {w w' : World V} {sid : List (List Nat)} {i : Nat} (S : Shape w sid) (h : w'.cs = w.cs.eraseIdx i) : Shape w' (sid.eraseIdx i) := by
  refine ⟨by rw [h, List.length_eraseIdx, List.length_eraseIdx, S.len], fun j d hj => ?_, ?_, ?_⟩
  · rw [h, List.getElem?_eraseIdx] at hj
    rw [List.getD_eq_getElem?_getD, List.getElem?_eraseIdx]
    split at hj
    · rw [if_pos (by assumption)]; have := S.row _ _ hj; rwa [List.getD_eq_getElem?_getD] at this
    · rw [if_neg (by assumption)]; have := S.row _ _ hj; rwa [List.getD_eq_getElem?_getD] at this
  · exact S.nodup.sublist (flatten_sub (List.eraseIdx_sublist _ _))
  · exact fun k => S.nz ((flatten_sub (List.eraseIdx_sublist _ _)).subset k)

/-- The destructor. -/
theorem lib_destroy {i : Nat} {c : Container V} (I : SInv s) (hi : s.w.cs[i]? = some c) (hc : w'.cs = s.w.cs.eraseIdx i)
    (d : Does s.reg r' s.live (fun y => if s.reg.cont y ∈ s.sid.getD i [] then 0 else s.reg.cont y))
    (ne : ∀ z k, ¬ Estranged s.w w' o z k) : LibOk s o w' (s.sid.eraseIdx i) r' := by
  refine ⟨d.node, d.unchecked, fun y hy h => ?_, fun y hy j k L => ?_⟩
  · rw [d.cont y hy]
    split
    · rfl
    · exact h
  · have hm := L.mem
    obtain ⟨b, h1, h2, h3⟩ := L
    by_cases q : j = i
    · subst q
      obtain rfl := Option.some.inj (hi.symm.trans h1)
      right
      refine ⟨by rw [d.cont y hy]; exact if_pos hm, Or.inl fun f hf k => ?_⟩
      rw [hc] at hf
      exact I.inv.disj h1 hf h3 k
    · left
      have : s.reg.cont y ∉ s.sid.getD i [] := fun k => q (rows_disj I.shape.nodup hm k)
      obtain ⟨l, g1, g2⟩ := getD_some h2
      refine ⟨⟨if j < i then j else j - 1, b, ?_, ?_, ?_⟩, ne _ _⟩
      · rw [hc]; exact getElem?_eraseIdx' h1 q
      · rw [d.cont y hy, if_neg this, List.getD_eq_getElem?_getD, getElem?_eraseIdx' g1 q]; exact g2
      · rw [d.node y hy]; exact h3

theorem shape_new {w w' : World V} {sid : List (List Nat)} {ids : List Nat} {c' : Container V} (S : Shape w sid) (h : w'.cs = w.cs ++ [c']) (hl : ids.length = c'.ls.length)
    (nd : ids.Nodup) (fr : ∀ a ∈ ids, a ≠ 0 ∧ a ∉ sid.flatten) : Shape w' (sid ++ [ids]) := by
  refine ⟨by rw [h]; simp [S.len], fun j d hj => ?_, ?_, ?_⟩
  · rw [h] at hj
    rw [List.getD_eq_getElem?_getD]
    by_cases k : j < w.cs.length
    · rw [List.getElem?_append_left k] at hj
      rw [List.getElem?_append_left (by rw [S.len]; exact k)]
      have := S.row _ _ hj
      rwa [List.getD_eq_getElem?_getD] at this
    · have e : j = w.cs.length := by
        have := (List.getElem?_eq_some_iff.1 hj).1
        simp at this
        omega
      subst e
      rw [List.getElem?_append_right (Nat.le_refl _)] at hj
      rw [← S.len, List.getElem?_append_right (Nat.le_refl _)]
      simp at hj
      subst hj
      simpa using hl
  · rw [List.flatten_append, List.nodup_append]
    refine ⟨S.nodup, by simpa using nd, fun a ha b hb e => ?_⟩
    subst e
    exact (fr a (by simpa using hb)).2 ha
  · rw [List.flatten_append, List.mem_append]
    rintro (k | k)
    · exact S.nz k
    · exact (fr 0 (by simpa using k)).1 rfl

/-- A container has been constructed. -/
theorem lib_new {ids : List Nat} {c' : Container V} (S : Shape s.w s.sid) (h : w'.cs = s.w.cs ++ [c'])
    (d : r'.cont = s.reg.cont ∧ r'.node = s.reg.node ∧ r'.unchecked = s.reg.unchecked)
    (ne : ∀ z k, ¬ Estranged s.w w' o z k) : LibOk s o w' (s.sid ++ [ids]) r' := by
  refine ⟨fun _ _ => by rw [d.2.1], fun _ _ => by rw [d.2.2], fun _ _ k => by rw [d.1]; exact k, fun y hy j k L => Or.inl ⟨⟨j, ?_⟩, ne _ _⟩⟩
  obtain ⟨b, h1, h2, h3⟩ := L
  obtain ⟨l, g1, g2⟩ := getD_some h2
  refine ⟨b, ?_, ?_, by rw [d.2.1]; exact h3⟩
  · rw [h, List.getElem?_append_left (List.getElem?_eq_some_iff.1 h1).1]; exact h1
  · rw [d.1, List.getD_eq_getElem?_getD, List.getElem?_append_left (List.getElem?_eq_some_iff.1 g1).1, g1]; exact g2

theorem shape_swap {w w' : World V} {sid : List (List Nat)} {i j : Nat} {c d : Container V} (S : Shape w sid) (hi : w.cs[i]? = some c) (hj : w.cs[j]? = some d)
    (hl : c.ls.length = d.ls.length) (h : w'.cs = (w.cs.set i d).set j c) : Shape w' sid := by
  have S1 : Shape (⟨w.m, w.cs.set i d, w.hs⟩ : World V) sid := shape_at S hi rfl hl.symm
  have hj' : (⟨w.m, w.cs.set i d, w.hs⟩ : World V).cs[j]? = some d := by
    show (w.cs.set i d)[j]? = _
    by_cases e : i = j
    · subst e; exact List.getElem?_set_self (List.getElem?_eq_some_iff.1 hi).1
    · rw [List.getElem?_set_ne e]; exact hj
  exact shape_at S1 hj' h hl

/-- `swap`. -/
theorem lib_swap {i j : Nat} {c d : Container V} (I : SInv s) (ij : i ≠ j) (hi : s.w.cs[i]? = some c) (hj : s.w.cs[j]? = some d)
    (h : w'.cs = (s.w.cs.set i d).set j c) (q : Does s.reg r' s.live r'.cont)
    (m : ∀ y ∈ s.live, (∀ k : Nat, (s.sid.getD i [])[k]? = some (s.reg.cont y) → (s.sid.getD j [])[k]? = some (r'.cont y)) ∧
      (∀ k : Nat, (s.sid.getD j [])[k]? = some (s.reg.cont y) → (s.sid.getD i [])[k]? = some (r'.cont y)) ∧
      (s.reg.cont y ∉ s.sid.getD i [] → s.reg.cont y ∉ s.sid.getD j [] → r'.cont y = s.reg.cont y))
    (ne : ∀ z k, ¬ Estranged s.w w' o z k) : LibOk s o w' s.sid r' := by
  refine ⟨q.node, q.unchecked, fun y hy e => ?_, fun y hy a k L => Or.inl ⟨?_, ne _ _⟩⟩
  · rw [(m y hy).2.2 (fun k => I.shape.nz (e ▸ mem_row k)) (fun k => I.shape.nz (e ▸ mem_row k))]; exact e
  · have hm := L.mem
    obtain ⟨b, h1, h2, h3⟩ := L
    have li := (List.getElem?_eq_some_iff.1 hi).1
    have lj := (List.getElem?_eq_some_iff.1 hj).1
    by_cases e1 : i = a
    · subst e1
      obtain rfl := Option.some.inj (hi.symm.trans h1)
      exact ⟨j, c, by rw [h, List.getElem?_set_self (by simpa using lj)], (m y hy).1 k h2, by rw [q.node y hy]; exact h3⟩
    · by_cases e2 : j = a
      · subst e2
        obtain rfl := Option.some.inj (hj.symm.trans h1)
        exact ⟨i, d, by rw [h, List.getElem?_set_ne (Ne.symm ij), List.getElem?_set_self li], (m y hy).2.1 k h2, by rw [q.node y hy]; exact h3⟩
      · refine ⟨a, b, by rw [h, List.getElem?_set_ne e2, List.getElem?_set_ne e1]; exact h1, ?_, by rw [q.node y hy]; exact h3⟩
        rw [(m y hy).2.2 (fun k => e1 (rows_disj I.shape.nodup k hm)) (fun k => e2 (rows_disj I.shape.nodup k hm))]
        exact h2

end
end MI.Safe
