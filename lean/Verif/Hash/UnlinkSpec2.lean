import Verif.Hash.UnlinkSpec
set_option linter.unnecessarySeqFocus false
set_option linter.unusedTactic false
set_option linter.unreachableTactic false
set_option linter.unusedSimpArgs false
/-! `unlink` of hashed indices: effect on the links, inner nodes of larger groups. -/
namespace MI.Hash
open MI
attribute [local simp] St.asgP St.asgN Heap.setPrior Heap.setNext

theorem N.cut_last {h : Heap} {p x w m f f' : Id} {u : List Id} {ob ob' : Option Id}
    (lc : Loc h p ob (.many f (u ++ [w, m]) x) ob' f') :
    Cut h (N.unlink h x) p ob (.many f (u ++ [w, m]) x) ob' f' (some (.many f (u ++ [w]) m)) := by
  obtain ⟨jj, i, ⟨k1, k2, k3⟩, nd, nz, f0, pg, fg, ob1, ob2, ob3, pri, nxtpri, nxtf⟩ := lc
  have j1 : h.prior f = p := jj.1
  have jj : Join h p ob f := jj
  obtain ⟨i1, i2, i3, i5⟩ := i
  obtain ⟨i3, i4, i6, -⟩ := Line.append.1 i3
  have i5 := i5 (by simp)
  have el : (u ++ [w, m]).getLastD f = m := by
    rw [show u ++ [w, m] = (u ++ [w]) ++ [m] by simp, List.getLastD_concat]
  obtain ⟨s, es⟩ : ∃ s, (u ++ [w, m]).headD x = s := ⟨_, rfl⟩
  have es' : (u ++ [w]).headD m = s := by rw [← es]; cases u <;> rfl
  have sm : s ∈ u ++ [w] := by rw [← es']; exact headD_mem _ _ (by simp)
  rw [es] at i1 i5
  rw [el] at i2 i5
  have nd0 : (u ++ [w]).Nodup := by
    have := nd
    simp [List.nodup_append] at this ⊢
    grind
  have wl : w ∉ (u ++ [w]).dropLast := notin_dropLast nd0
  have st : s ∉ (u ++ [w]).tail := by
    cases u with
    | nil => simp
    | cons a r =>
      have : a = s := es'
      subst this
      exact (List.nodup_cons.1 nd0).1
  have ndf : f ∉ u ++ [w] ∧ x ∉ u ++ [w] ∧ m ∉ u ++ [w] ∧ f ≠ m ∧ f ≠ x ∧ m ≠ x := by
    simp [List.nodup_append] at nd ⊢
    grind
  have pu : p ∉ u ++ [w] ∧ p ≠ f ∧ p ≠ x ∧ p ≠ m := by simp at pg ⊢; grind
  have fu : f' ∉ u ++ [w] ∧ f' ≠ f ∧ f' ≠ x ∧ f' ≠ m := by simp at fg ⊢; grind
  have ob1' : ∀ b, ob = some b → b ∉ u ++ [w] ∧ b ≠ f' := by
    intro b hb; have := ob1 b hb; simp at this ⊢; grind
  have ob1'' : ∀ b, ob' = some b → b ∉ u ++ [w] ∧ b ≠ f' := by
    intro b hb; have := ob2 b hb; simp at this ⊢; grind
  have wm : w ∈ u ++ [w] := by simp
  have nf : h.next f' ≠ x := nxtf x (by simp)
  clear nxtf nxtpri pri ob1 ob2 ob3 fg pg nd nz el es
  simp only [Grp.last_many] at k1 k2
  have n1 : m ≠ s ∧ x ≠ s ∧ f ≠ s ∧ f' ≠ s ∧ p ≠ s ∧ m ≠ w ∧ x ≠ w ∧ f ≠ w ∧ f' ≠ w ∧ p ≠ w := by grind
  obtain ⟨n1, n2, n3, n4, n5, n6, n7, n8, n9, n10⟩ := n1
  have hfu : f' ∉ u ++ [w] ∧ m ∉ u ++ [w] := ⟨fu.1, ndf.2.2.1⟩
  obtain ⟨-, -, -, o1, o2, o3⟩ := ndf
  obtain ⟨-, o4, o5, o6⟩ := pu
  obtain ⟨-, o7, o8, o9⟩ := fu
  have ob1' : ∀ b, ob = some b → b ≠ s ∧ b ≠ f' := by grind
  have ob1'' : ∀ b, ob' = some b → b ≠ s ∧ b ≠ f' := by grind
  cases ob' with
  | none =>
    simp at k2
    have e : N.unlink h x = (((h.setPrior s m).setNext w f).setNext m f').setPrior f' m := by
      simp [N.unlink, N.unlinkA, N.leftUnlinkLastOfGroup, N.rightUnlink, j1, k1, k2, i1, i2, i4, i5, i6, upd, n1, n7, Ne.symm n7, o2, o3, Ne.symm o3, o5, nf, o8, Ne.symm o8, n2, Ne.symm n2, n4, o9]
    rw [e]
    have ag : Agree h ((((h.setPrior s m).setNext w f).setNext m f').setPrior f' m) [f', s] [w, m] :=
      ((((Agree.refl h _ _).setPrior _ _ (by simp)).setNext _ _ (by simp)).setNext _ _ (by simp)).setPrior _ _ (by simp)
    refine ⟨ag.mono ?_ ?_, ?_, ?_, ?_⟩
    · have : s ∈ u ++ [w] := sm
      simp at this ⊢; grind
    · simp
    · refine jj.frame ag ?_ ?_ ?_ <;> simp <;> grind
    · show _ ∧ _ ∧ Line _ (u ++ [w]) ∧ _
      rw [List.getLastD_concat, es']
      refine ⟨?_, ?_, i3.congr (fun a ha => ag.1 a ?_) (fun a ha => ag.2 a ?_), fun _ => ?_⟩
      · simp [upd]; grind
      · simp [upd]; grind
      · have := List.mem_of_mem_tail ha
        simp; grind
      · have := List.dropLast_subset _ ha
        simp; grind
      · simp [upd]; grind
    · simp [Join, upd]
  | some b =>
    simp at k2
    have q := ob1'' b rfl
    have k3 := k3 b rfl
    have e : N.unlink h x = (((h.setPrior s m).setNext w f).setNext m b).setPrior f' m := by
      simp [N.unlink, N.unlinkA, N.leftUnlinkLastOfGroup, N.rightUnlinkLastOfBucket, j1, k1, k2, k3, i1, i2, i4, i5, i6, upd, n1, n7, Ne.symm n7, o2, o3, Ne.symm o3, o5, nf, o8, Ne.symm o8, n2, Ne.symm n2, n4, o9, (ob1'' _ rfl).1, (ob1'' _ rfl).2]
    rw [e]
    have ag : Agree h ((((h.setPrior s m).setNext w f).setNext m b).setPrior f' m) [f', s] [w, m] :=
      ((((Agree.refl h _ _).setPrior _ _ (by simp)).setNext _ _ (by simp)).setNext _ _ (by simp)).setPrior _ _ (by simp)
    refine ⟨ag.mono ?_ ?_, ?_, ?_, ?_⟩
    · have : s ∈ u ++ [w] := sm
      simp at this ⊢; grind
    · simp
    · refine jj.frame ag ?_ ?_ ?_ <;> simp <;> grind
    · show _ ∧ _ ∧ Line _ (u ++ [w]) ∧ _
      rw [List.getLastD_concat, es']
      refine ⟨?_, ?_, i3.congr (fun a ha => ag.1 a ?_) (fun a ha => ag.2 a ?_), fun _ => ?_⟩
      · simp [upd]; grind
      · simp [upd]; grind
      · have := List.mem_of_mem_tail ha
        simp; grind
      · have := List.dropLast_subset _ ha
        simp; grind
      · simp [upd]; grind
    · simp [Join, upd]; grind

theorem N.cut_mid3 {h : Heap} {p x l f f' : Id} {ob ob' : Option Id} (lc : Loc h p ob (.many f [x] l) ob' f') :
    Cut h (N.unlink h x) p ob (.many f [x] l) ob' f' (some (.many f [] l)) := by
  obtain ⟨jj, i, kk, nd, nz, f0, pg, fg, ob1, ob2, ob3, pri, nxtpri, nxtf⟩ := lc
  have j1 : h.prior f = p := jj.1
  have k1 : h.prior f' = l := kk.1
  have k2 : h.next l = ob'.getD f' := kk.2.1
  have nx : h.next l ≠ x := by
    rw [k2]
    cases ob' with
    | none => simp at fg ⊢; grind
    | some b => have := ob2 b rfl; simp at this ⊢; grind
  have px : h.prior (h.next l) ≠ x := by
    rw [k2]
    cases ob' with
    | none => simp at nd ⊢; rw [k1]; grind
    | some b => have := kk.2.2 b rfl; simp at fg ⊢; grind
  simp [Inner, Line] at i
  obtain ⟨i1, i2, i3, i4⟩ := i
  have e : N.unlink h x = (h.setNext f l).setPrior l f := by
    simp at nd pri
    simp [N.unlink, N.unlinkA, N.unlinkSecondOfGroup, j1, i1, i2, i3, i4, nx, px, upd]
    grind
  rw [e]
  have ag : Agree h ((h.setNext f l).setPrior l f) [l] [f] :=
    (((Agree.refl h _ _).setNext _ _ (by simp))).setPrior _ _ (by simp)
  simp at nd pg fg
  refine ⟨ag.mono (by simp) (by simp), ?_, ?_, ?_⟩
  · refine Join.frame jj ag ?_ ?_ ?_
    · simp; grind
    · intro b hb; have := ob1 b hb; simp at this ⊢; grind
    · simp; grind
  · simp [Inner, Line, upd]
  · refine Join.frame kk ag ?_ ?_ ?_
    · simp; grind
    · intro b hb; have := ob2 b hb; simp at this ⊢; grind
    · simp; grind

theorem N.cut_second {h : Heap} {p x t l f f' : Id} {r : List Id} {ob ob' : Option Id}
    (lc : Loc h p ob (.many f (x :: t :: r) l) ob' f') :
    Cut h (N.unlink h x) p ob (.many f (x :: t :: r) l) ob' f' (some (.many f (t :: r) l)) := by
  obtain ⟨jj, i, kk, nd, nz, f0, pg, fg, ob1, ob2, ob3, pri, nxtpri, nxtf⟩ := lc
  have j1 : h.prior f = p := jj.1
  have k1 : h.prior f' = l := kk.1
  have k2 : h.next l = ob'.getD f' := kk.2.1
  have jj : Join h p ob f := jj
  have kk : Join h l ob' f' := kk
  have nx : h.next l ≠ x := by
    rw [k2]
    cases ob' with
    | none => simp at fg ⊢; grind
    | some b => have := ob2 b rfl; simp at this ⊢; grind
  have px : h.prior (h.next l) ≠ x := by
    rw [k2]
    cases ob' with
    | none => simp at nd ⊢; rw [k1]; grind
    | some b => have := kk.2.2 b rfl; simp at fg ⊢; grind
  obtain ⟨i1, i2, ⟨i3, i4⟩, i5⟩ := i
  have i3 := i3 t rfl
  have i5 := i5 (by simp)
  have nd' : (t :: r).Nodup := by
    have := nd
    simp at this ⊢
    grind
  obtain ⟨m, m1, m2, m3, m4⟩ := last_facts (z := f) nd'
  have m1' : (x :: t :: r).getLastD f = m := by rw [← m1]; rfl
  rw [m1'] at i2 i5
  simp only [List.headD_cons] at i1 i5
  have q : x ∉ t :: r ∧ l ∉ t :: r ∧ f ∉ t :: r ∧ x ≠ l ∧ x ≠ f ∧ l ≠ f := by simp at nd ⊢; grind
  have pu : p ∉ t :: r ∧ p ≠ f ∧ p ≠ x ∧ p ≠ l := by simp at pg ⊢; grind
  have fu : f' ∉ t :: r ∧ f' ≠ f ∧ f' ≠ x ∧ f' ≠ l := by simp at fg ⊢; grind
  have ob1' : ∀ b, ob = some b → b ∉ t :: r := by
    intro b hb; have := ob1 b hb; simp at this ⊢; grind
  have ob2' : ∀ b, ob' = some b → b ∉ t :: r := by
    intro b hb; have := ob2 b hb; simp at this ⊢; grind
  clear nxtf nxtpri pri ob1 ob2 ob3 fg pg nd nz
  have e : N.unlink h x = (h.setNext f t).setPrior t l := by
    simp [N.unlink, N.unlinkA, N.unlinkSecondOfGroup, j1, i1, i2, i3, i5, nx, px, upd]
    grind
  rw [e]
  have ag : Agree h ((h.setNext f t).setPrior t l) [t] [f] :=
    (((Agree.refl h _ _).setNext _ _ (by simp))).setPrior _ _ (by simp)
  refine ⟨ag.mono (by simp) (by simp), ?_, ?_, ?_⟩
  · refine Join.frame jj ag ?_ ?_ ?_ <;> simp <;> grind
  · refine ⟨?_, ?_, i4.congr (fun a ha => ag.1 a ?_) (fun a ha => ag.2 a ?_), fun _ => ?_⟩
    · simp
    · rw [m1]; simp [upd]; grind
    · have ha : a ∈ r := ha
      simp; grind
    · have := List.dropLast_subset _ ha
      simp; grind
    · rw [m1]; simp [upd]; grind
  · refine Join.frame kk ag ?_ ?_ ?_ <;> simp <;> grind

theorem N.cut_lastButOne {h : Heap} {p x w l f f' : Id} {u : List Id} {ob ob' : Option Id}
    (lc : Loc h p ob (.many f (u ++ [w, x]) l) ob' f') :
    Cut h (N.unlink h x) p ob (.many f (u ++ [w, x]) l) ob' f' (some (.many f (u ++ [w]) l)) := by
  obtain ⟨jj, i, kk, nd, nz, f0, pg, fg, ob1, ob2, ob3, pri, nxtpri, nxtf⟩ := lc
  have j1 : h.prior f = p := jj.1
  have jj : Join h p ob f := jj
  have kk : Join h l ob' f' := kk
  obtain ⟨i1, i2, i3, i5⟩ := i
  obtain ⟨i3, i4, i6, -⟩ := Line.append.1 i3
  have i5 := i5 (by simp)
  have el : (u ++ [w, x]).getLastD f = x := by
    rw [show u ++ [w, x] = (u ++ [w]) ++ [x] by simp, List.getLastD_concat]
  obtain ⟨s, es⟩ : ∃ s, (u ++ [w, x]).headD l = s := ⟨_, rfl⟩
  have es' : (u ++ [w]).headD l = s := by rw [← es]; cases u <;> rfl
  have sm : s ∈ u ++ [w] := by rw [← es']; exact headD_mem _ _ (by simp)
  rw [es] at i1 i5
  rw [el] at i2 i5
  have nd0 : (u ++ [w]).Nodup := by
    have := nd
    simp [List.nodup_append] at this ⊢
    grind
  have wl : w ∉ (u ++ [w]).dropLast := notin_dropLast nd0
  have ndf : f ∉ u ++ [w] ∧ x ∉ u ++ [w] ∧ l ∉ u ++ [w] ∧ f ≠ l ∧ f ≠ x ∧ l ≠ x := by
    simp [List.nodup_append] at nd ⊢
    grind
  have pu : p ∉ u ++ [w] ∧ p ≠ f ∧ p ≠ x ∧ p ≠ l := by simp at pg ⊢; grind
  have fu : f' ∉ u ++ [w] ∧ f' ≠ f ∧ f' ≠ x ∧ f' ≠ l := by simp at fg ⊢; grind
  have ob1' : ∀ b, ob = some b → b ≠ l := by
    intro b hb; have := ob1 b hb; simp at this ⊢; grind
  have ob2' : ∀ b, ob' = some b → b ≠ l := by
    intro b hb; have := ob2 b hb; simp at this ⊢; grind
  have q1 : h.prior p ≠ x := pri x (by simp) (by simp; grind)
  have q2 : h.next (h.prior p) ≠ x := nxtpri x (by simp)
  have wm : w ∈ u ++ [w] := by simp
  clear nxtf nxtpri pri ob1 ob2 ob3 fg pg nd nz el es
  have n1 : x ≠ s ∧ l ≠ s ∧ f ≠ s ∧ p ≠ s ∧ x ≠ w ∧ f ≠ w ∧ p ≠ w ∧ l ≠ w := by grind
  obtain ⟨n1, n2, n3, n4, n5, n6, n7, n8⟩ := n1
  have e : N.unlink h x = (h.setPrior l w).setNext w f := by
    simp [N.unlink, N.unlinkA, N.unlinkLastButOneOfGroup, j1, i1, i2, i4, i5, i6, q1, q2, upd, n1, Ne.symm n1, ndf.2.2.2.2.2, Ne.symm ndf.2.2.2.2.2, Ne.symm n5, pu.2.2.1]
  rw [e]
  have ag : Agree h ((h.setPrior l w).setNext w f) [l] [w] :=
    (((Agree.refl h _ _).setPrior _ _ (by simp))).setNext _ _ (by simp)
  refine ⟨ag.mono (by simp) (by simp), ?_, ?_, ?_⟩
  · refine Join.frame jj ag ?_ ?_ ?_ <;> simp <;> grind
  · show _ ∧ _ ∧ Line _ (u ++ [w]) ∧ _
    rw [List.getLastD_concat, es']
    refine ⟨?_, ?_, i3.congr (fun a ha => ag.1 a ?_) (fun a ha => ag.2 a ?_), fun _ => ?_⟩
    · simp [upd]; grind
    · simp
    · have := List.mem_of_mem_tail ha
      simp; grind
    · have := List.dropLast_subset _ ha
      simp; grind
    · simp [upd]; grind
  · refine Join.frame kk ag ?_ ?_ ?_ <;> simp <;> grind

theorem N.cut_inner {h : Heap} {p x w t l f f' : Id} {u r : List Id} {ob ob' : Option Id}
    (lc : Loc h p ob (.many f (u ++ w :: x :: t :: r) l) ob' f') :
    Cut h (N.unlink h x) p ob (.many f (u ++ w :: x :: t :: r) l) ob' f' (some (.many f (u ++ w :: t :: r) l)) := by
  obtain ⟨jj, i, kk, nd, nz, f0, pg, fg, ob1, ob2, ob3, pri, nxtpri, nxtf⟩ := lc
  have jj : Join h p ob f := jj
  have kk : Join h l ob' f' := kk
  obtain ⟨i1, i2, i3, i5⟩ := i
  obtain ⟨i3, i4, i6, i7, i8⟩ := Line.append.1 i3
  have i7 := i7 t rfl
  have i5 := i5 (by simp)
  have el : (u ++ w :: x :: t :: r).getLastD f = (t :: r).getLastD f := by
    obtain ⟨v, m, e⟩ := (List.eq_nil_or_concat' (t :: r)).resolve_left (by simp)
    rw [e, List.getLastD_concat, show u ++ w :: x :: (v ++ [m]) = (u ++ w :: x :: v) ++ [m] by simp, List.getLastD_concat]
  have el' : (u ++ w :: t :: r).getLastD f = (t :: r).getLastD f := by
    obtain ⟨v, m, e⟩ := (List.eq_nil_or_concat' (t :: r)).resolve_left (by simp)
    rw [e, List.getLastD_concat, show u ++ w :: (v ++ [m]) = (u ++ w :: v) ++ [m] by simp, List.getLastD_concat]
  obtain ⟨s, es⟩ : ∃ s, (u ++ w :: x :: t :: r).headD l = s := ⟨_, rfl⟩
  have es' : (u ++ w :: t :: r).headD l = s := by rw [← es]; cases u <;> rfl
  have es'' : (u ++ [w]).headD l = s := by rw [← es]; cases u <;> rfl
  have sm : s ∈ u ++ [w] := by rw [← es'']; exact headD_mem _ _ (by simp)
  rw [es] at i1 i5
  rw [el] at i2 i5
  have nd0 : (u ++ [w]).Nodup ∧ (t :: r).Nodup ∧ ∀ a ∈ u ++ [w], a ∉ t :: r := by
    have := nd
    simp [List.nodup_append] at this ⊢
    grind
  obtain ⟨m, m1, m2, m3, m4⟩ := last_facts (z := f) nd0.2.1
  rw [m1] at i2 i5 el'
  have wl : w ∉ (u ++ [w]).dropLast := notin_dropLast nd0.1
  have ndf : f ∉ u ++ [w] ∧ x ∉ u ++ [w] ∧ l ∉ u ++ [w] ∧ f ≠ l ∧ f ≠ x ∧ l ≠ x ∧ f ∉ t :: r ∧ x ∉ t :: r ∧ l ∉ t :: r := by
    simp [List.nodup_append] at nd ⊢
    grind
  have pu : p ∉ u ++ [w] ∧ p ≠ f ∧ p ≠ x ∧ p ≠ l ∧ p ∉ t :: r := by simp at pg ⊢; grind
  have fu : f' ∉ u ++ [w] ∧ f' ≠ f ∧ f' ≠ x ∧ f' ≠ l ∧ f' ∉ t :: r := by simp at fg ⊢; grind
  have ob1' : ∀ b, ob = some b → b ≠ t := by
    intro b hb; have := ob1 b hb; simp at this ⊢; grind
  have ob2' : ∀ b, ob' = some b → b ≠ t := by
    intro b hb; have := ob2 b hb; simp at this ⊢; grind
  have wm : w ∈ u ++ [w] := by simp
  have e : N.unlink h x = (h.setNext w t).setPrior t w := by
    have : w ≠ x := by intro k; exact ndf.2.1 (k ▸ wm)
    simp [N.unlink, N.unlinkA, N.leftUnlink, N.rightUnlink, i4, i6, i7, upd, Ne.symm this]
  rw [e]
  have ag : Agree h ((h.setNext w t).setPrior t w) [t] [w] :=
    (((Agree.refl h _ _).setNext _ _ (by simp))).setPrior _ _ (by simp)
  refine ⟨ag.mono (by simp) (by simp), ?_, ?_, ?_⟩
  · clear nxtf nxtpri pri ob1 ob2 ob3 fg pg nd nz el es
    refine Join.frame jj ag ?_ ?_ ?_ <;> simp <;> grind
  · show _ ∧ _ ∧ Line _ (u ++ w :: t :: r) ∧ _
    rw [el', es']
    refine ⟨?_, ?_, Line.append.2 ⟨i3.congr (fun a ha => ag.1 a ?_) (fun a ha => ag.2 a ?_), ?_, ?_, i8.congr (fun a ha => ag.1 a ?_) (fun a ha => ag.2 a ?_)⟩, fun _ => ?_⟩
    · rw [ag.2 f (by simp; grind)]; exact i1
    · rw [ag.1 l (by simp; grind)]; exact i2
    · have := nd0.2.2 a (List.mem_of_mem_tail ha)
      simp at this ⊢; tauto
    · intro k
      simp only [List.mem_singleton] at k
      exact wl (k ▸ ha)
    · simp
    · simp
    · have ha : a ∈ r := ha
      simp; rintro rfl; exact m4 ha
    · have := List.dropLast_subset _ ha
      have := nd0.2.2 w wm
      simp; rintro rfl; contradiction
    · rw [ag.1 s (by simp; rintro rfl; exact nd0.2.2 _ sm (by simp)),
        ag.2 m (by simp; rintro rfl; exact nd0.2.2 _ wm m2)]
      exact i5
  · clear nxtf nxtpri pri ob1 ob2 ob3 fg pg nd nz el es
    refine Join.frame kk ag ?_ ?_ ?_ <;> simp <;> grind

end MI.Hash
