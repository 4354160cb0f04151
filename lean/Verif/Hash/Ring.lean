import Verif.Hash.UnlinkSpec2
set_option linter.unnecessarySeqFocus false
set_option linter.unusedTactic false
set_option linter.unreachableTactic false
set_option linter.unusedSimpArgs false
/-! Effect of the node algorithms of hashed indices on whole indices. -/
namespace MI.Hash
open MI
attribute [local simp] St.asgP St.asgN Heap.setPrior Heap.setNext

theorem Grp.remove_spec (g : Grp) (x : Id) (nd : g.toList.Nodup) (m : x ∈ g.toList) :
    ((g.remove x).map Grp.toList).getD [] = g.toList.erase x := by
  cases g with
  | one y => simp at m; subst m; simp [Grp.remove]
  | many f mid l =>
    simp only [Grp.remove]
    split
    · rename_i e
      subst e
      cases mid <;> simp
    · rename_i e
      split
      · rename_i e'
        subst e'
        cases mid with
        | nil =>
          simp [List.erase_cons, Ne.symm e]
        | cons s r =>
          simp only [Option.map_some, Option.getD_some, Grp.toList_many]
          obtain ⟨u, z, he⟩ := (List.eq_nil_or_concat' (s :: r)).resolve_left (by simp)
          have hz : (s :: r).getLastD s = z := by rw [he, List.getLastD_concat]
          have hu : (s :: r).dropLast = u := by rw [he, List.dropLast_concat]
          rw [hz, hu, List.erase_cons, if_neg (by simp [Ne.symm e]), he]
          congr 1
          rw [List.erase_append_right, List.erase_cons_head, List.append_nil]
          simp [List.nodup_append, he] at nd ⊢
          grind
      · rename_i e'
        simp only [Option.map_some, Option.getD_some, Grp.toList_many]
        rw [List.erase_cons, if_neg (by simp [Ne.symm e])]
        congr 1
        have : x ∈ mid := by simp at m; grind
        rw [List.erase_append_left _ this]

theorem N.unlink_cut {h : Heap} {p x f' : Id} {ob ob' : Option Id} {g : Grp} (lc : Loc h p ob g ob' f')
    (m : x ∈ g.toList) : Cut h (N.unlink h x) p ob g ob' f' (g.remove x) := by
  cases g with
  | one y =>
    have : x = y := by simpa using m
    subst this
    exact N.cut_one lc
  | many f mid l =>
    have nd := lc.nd
    simp only [Grp.remove]
    split
    · rename_i e
      subst e
      cases mid with
      | nil => exact N.cut_pair_first lc
      | cons s r =>
        cases r with
        | nil => exact N.cut_first3 lc
        | cons t r => exact N.cut_first lc
    · rename_i e
      split
      · rename_i e'
        subst e'
        cases mid with
        | nil => exact N.cut_pair_last lc
        | cons s r =>
          rcases List.eq_nil_or_concat' r with e | ⟨u, z, rfl⟩
          · subst e
            exact N.cut_last3 lc
          · obtain ⟨u', w, e⟩ := (List.eq_nil_or_concat' (s :: u)).resolve_left (by simp)
            have e1 : s :: (u ++ [z]) = u' ++ [w, z] := by
              rw [← List.cons_append, e]; simp
            have e2 : (s :: (u ++ [z])).dropLast = u' ++ [w] := by
              rw [← List.cons_append, List.dropLast_concat, e]
            have e3 : (s :: (u ++ [z])).getLastD s = z := by
              rw [← List.cons_append, List.getLastD_concat]
            rw [e1] at lc
            show Cut _ _ _ _ (.many f (s :: (u ++ [z])) x) _ _ (some (.many f (s :: (u ++ [z])).dropLast ((s :: (u ++ [z])).getLastD s)))
            rw [e2, e3, e1]
            exact N.cut_last lc
      · rename_i e'
        have hm : x ∈ mid := by simp at m; grind
        obtain ⟨u, v, rfl⟩ := List.append_of_mem hm
        have hx : x ∉ u := by
          simp [List.nodup_append] at nd
          grind
        have he : (u ++ x :: v).erase x = u ++ v := by
          rw [List.erase_append_right _ hx, List.erase_cons_head]
        rw [he]
        rcases List.eq_nil_or_concat' u with rfl | ⟨u', w, rfl⟩
        · cases v with
          | nil => exact N.cut_mid3 lc
          | cons t r => exact N.cut_second lc
        · have e1 : u' ++ [w] ++ x :: v = u' ++ w :: x :: v := by simp
          have e2 : u' ++ [w] ++ v = u' ++ w :: v := by simp
          rw [e1] at lc ⊢
          rw [e2]
          cases v with
          | nil => exact N.cut_lastButOne lc
          | cons t r => exact N.cut_inner lc

/-- The segments after taking the node out of the group between `pre` and the segment of `g'`. -/
def cutSegs (pre : List Seg) (ob : Option Id) (o : Option Grp) (ob' : Option Id) (g' : Grp) (post : List Seg) : List Seg :=
  match o with
  | none => pre ++ (mergeB ob ob', g') :: post
  | some g1 => pre ++ (ob, g1) :: (ob', g') :: post

/-- The part of a cut that concerns an index as a whole. -/
theorem ring_cut {h h' : Heap} {hd eb : Id} {fs pre : List Seg} {ob ob' : Option Id} {g g' : Grp} {post : List Seg}
    {o : Option Grp} (sp : Sep hd eb fs) (c : Ring h hd eb fs)
    (e : close hd eb fs = pre ++ (ob, g) :: (ob', g') :: post)
    (ct : Cut h h' (lastOf hd pre) ob g ob' g'.first o) :
    Chain h' hd (cutSegs pre ob o ob' g' post) := by
  obtain ⟨ag, ct⟩ := ct
  have e2 : close hd eb fs = pre ++ [(ob, g)] ++ (ob', g') :: post := by rw [e]; simp
  have hP : ∀ a ∈ g'.first :: (g.toList ++ ob.toList),
      a ∈ g'.first :: (nodesS [(ob, g)] ++ bucks [(ob, g)] ++ ob'.toList ++ []) := by
    intro a ha
    simp only [nodesS_cons, nodesS_nil, bucks_cons, bucks_nil, List.append_nil, List.mem_cons, List.mem_append] at ha ⊢
    tauto
  have hN : ∀ a ∈ lastOf hd pre :: g.toList, a ∈ lastOf hd pre :: (nodesS [(ob, g)] ++ []) := by
    intro a ha
    simpa using ha
  cases o with
  | none =>
    have := ring_splice (M' := []) (ob' := mergeB ob ob') sp c e2 ag (fr := []) (by simp) hP hN trivial ct.1
    simpa [cutSegs] using this
  | some g1 =>
    obtain ⟨c1, c2, c3⟩ := ct
    have := ring_splice (M' := [(ob, g1)]) (ob' := ob') sp c e2 ag (fr := []) (by simp) hP hN ⟨c1, c2, trivial⟩ c3
    simpa [cutSegs] using this

/-- The end of an index. -/
theorem ring_end {h : Heap} {hd eb : Id} {fs : List Seg} (sp : Sep hd eb fs) (c : Ring h hd eb fs) :
    h.prior hd = lastOf hd fs ∧ h.next (lastOf hd fs) = eb ∧ h.prior eb = hd ∧ eb ≠ hd ∧ eb ≠ 0 ∧ hd ≠ 0 ∧
      lastOf hd fs ≠ eb ∧ lastOf hd fs ∈ hd :: nodesS fs := by
  have cc := Chain.append.1 c
  obtain ⟨c1, j, -, -⟩ := cc
  have nd := sp.1
  have nz := sp.2
  simp only [close, nodesS_append, nodesS_cons, nodesS_nil, bucks_append, bucks_some, bucks_nil, Grp.toList_one,
    List.append_nil] at nd nz
  have q := (List.nodup_append.1 nd).2.2
  have lm := lastOf_mem hd fs
  refine ⟨j.1, j.2.1, j.2.2 eb rfl, ?_, ?_, ?_, ?_, lm⟩
  · exact (q hd (by simp) eb (by simp)).symm
  · rintro rfl; simp at nz
  · rintro rfl; simp at nz
  · intro k
    rcases List.mem_cons.1 lm with e | e
    · exact q hd (by simp) eb (by simp) (e ▸ k)
    · exact q _ (by simp [e]) eb (by simp) k

/-- `link_range` into an empty bucket puts the group at the end. -/
theorem ring_linkRange_empty {h : Heap} {hd eb b : Id} {fs : List Seg} {g : Grp} (sp : Sep hd eb fs) (c : Ring h hd eb fs)
    (i : Inner h g) (nd : g.toList.Nodup) (fr : ∀ a ∈ b :: g.toList, a ∉ nodesS (close hd eb fs) ++ bucks (close hd eb fs))
    (bg : b ∉ g.toList) (h0 : h.prior b = 0) :
    Ring (N.linkRange h g.first g.last b hd) hd eb (fs ++ [(some b, g)]) ∧
      Agree h (N.linkRange h g.first g.last b hd) [g.first, b, hd] [g.last, lastOf hd fs] := by
  obtain ⟨e1, e2, e3, e4, e5, e6, e7, e8⟩ := ring_end sp c
  have dis : ∀ a ∈ b :: g.toList, a ≠ hd ∧ a ≠ eb ∧ a ≠ lastOf hd fs := by
    intro a ha
    have := fr a ha
    simp only [close, nodesS_append, nodesS_cons, nodesS_nil, bucks_append, bucks_some, bucks_nil, Grp.toList_one,
      List.append_nil, List.mem_append, List.mem_cons, List.not_mem_nil, or_false, not_or] at this
    refine ⟨this.1.2, this.2.2, ?_⟩
    rintro rfl
    rcases List.mem_cons.1 e8 with e | e
    · exact this.1.2 e
    · exact this.1.1 e
  obtain ⟨q, hq⟩ : ∃ q, lastOf hd fs = q := ⟨_, rfl⟩
  rw [hq] at e1 e2 e7 e8 dis ⊢
  have d1 := dis g.first (by simp [g.first_mem])
  have d2 := dis g.last (by simp [g.last_mem])
  have d3 := dis b (by simp)
  have bf : b ≠ g.first := fun k => bg (k ▸ g.first_mem)
  have bl : b ≠ g.last := fun k => bg (k ▸ g.last_mem)
  have e : N.linkRange h g.first g.last b hd =
      ((((h.setPrior g.first q).setNext g.last eb).setNext q b).setPrior b g.first).setPrior hd g.last := by
    simp [N.linkRange, h0, e1, e2, upd, Ne.symm d1.1, Ne.symm d2.1, bf]
  rw [e]
  have ag : Agree h (((((h.setPrior g.first q).setNext g.last eb).setNext q b).setPrior b g.first).setPrior hd g.last)
      [g.first, b, hd] [g.last, q] :=
    (((((Agree.refl h _ _).setPrior _ _ (by simp)).setNext _ _ (by simp)).setNext _ _ (by simp)).setPrior _ _ (by simp)).setPrior _ _ (by simp)
  refine ⟨?_, ag⟩
  have cl : close hd eb fs = fs ++ [] ++ (some eb, .one hd) :: [] := by simp [close]
  have := ring_splice (M' := [(some b, g)]) (ob' := some eb) sp c cl ag (fr := b :: g.toList) fr
    (by intro a ha; simp only [List.mem_cons, List.not_mem_nil, or_false] at ha
        rcases ha with rfl | rfl | rfl
        · simp [g.first_mem]
        · simp
        · simp)
    (by intro a ha; simp only [List.mem_cons, List.not_mem_nil, or_false] at ha
        rw [hq]
        rcases ha with rfl | rfl
        · simp [g.last_mem]
        · simp)
    (by rw [hq]
        refine ⟨⟨?_, ?_, ?_⟩, i.congr (fun a ha => ag.1 a ?_) (fun a ha => ag.2 a ?_), trivial⟩
        · simp [upd, d1, Ne.symm bf]
        · simp [upd, Ne.symm d2.2.2]
        · rintro b' ⟨⟩; simp [upd, d3]
        · have := List.mem_of_mem_tail ha
          have dd := dis a (by simp [this])
          have nf : a ≠ g.first := by
            rintro rfl
            rw [g.toList_eq_first] at nd
            exact (List.nodup_cons.1 nd).1 ha
          have nb : a ≠ b := fun k => bg (k ▸ this)
          simp [dd, nf, nb]
        · have := List.dropLast_subset _ ha
          have dd := dis a (by simp [this])
          have nf : a ≠ g.last := by
            rintro rfl
            rw [g.toList_eq_last] at nd
            rw [g.toList_eq_last] at ha
            exact notin_dropLast nd ha
          simp [dd, nf])
    (by simp only [lastOf_one, hq]
        refine ⟨by simp, by simp [upd, d2], ?_⟩
        rintro b' ⟨⟩
        simp [upd, e4, Ne.symm d3.2.1, Ne.symm d1.2.1, e3])
  simpa [Ring, close] using this

/-- `link_range` into a bucket with elements puts the group at the beginning of the bucket. -/
theorem ring_linkRange {h : Heap} {hd eb b : Id} {fs pre : List Seg} {g g' : Grp} {post : List Seg} (sp : Sep hd eb fs)
    (c : Ring h hd eb fs) (e0 : close hd eb fs = pre ++ (some b, g') :: post)
    (i : Inner h g) (nd : g.toList.Nodup) (fr : ∀ a ∈ g.toList, a ∉ nodesS (close hd eb fs) ++ bucks (close hd eb fs)) :
    Chain (N.linkRange h g.first g.last b hd) hd (pre ++ (some b, g) :: (none, g') :: post) ∧
      Agree h (N.linkRange h g.first g.last b hd) [g.first, b, g'.first] [g.last] := by
  have cc := c
  unfold Ring at cc
  rw [e0] at cc
  obtain ⟨c1, ⟨j1, j2, j3⟩, i2, c2⟩ := Chain.append.1 cc
  have j3 := j3 b rfl
  simp only [Option.getD_some] at j2
  have spn := sp.1
  have nz := sp.2
  have fr' := fr
  rw [e0] at spn nz fr'
  simp only [nodesS_append, nodesS_cons, bucks_append, bucks_some] at spn nz fr'
  have gm := g'.first_mem
  have n0 : g'.first ≠ 0 := fun k => nz (by rw [← k]; simp [gm])
  have bg' : b ≠ g'.first := by
    intro k
    exact (List.nodup_append.1 spn).2.2 g'.first (by simp [gm]) b (by simp) k.symm
  have dis : ∀ a ∈ g.toList, a ≠ g'.first ∧ a ≠ b := by
    intro a ha
    have := fr' a ha
    simp only [List.mem_append, List.mem_cons, not_or] at this
    exact ⟨fun k => this.1.2.1 (k ▸ gm), this.2.2.1⟩
  obtain ⟨q, hq⟩ : ∃ q, lastOf hd pre = q := ⟨_, rfl⟩
  have qb : q ≠ b := by
    rintro rfl
    obtain ⟨w, hw⟩ := close_last e0
    have hm : hd ∈ g'.toList ++ nodesS post := by rw [hw]; simp
    have lm := lastOf_mem hd pre
    rw [hq] at lm
    refine (List.nodup_append.1 spn).2.2 q ?_ q (by simp) rfl
    rcases List.mem_cons.1 lm with e | e
    · rw [e, List.mem_append]; exact Or.inr hm
    · simp [e]
  have ql : g.last ≠ q := by
    rintro rfl
    obtain ⟨w, hw⟩ := close_last e0
    have hm : hd ∈ g'.toList ++ nodesS post := by rw [hw]; simp
    have lm := lastOf_mem hd pre
    rw [hq] at lm
    have := fr' g.last g.last_mem
    apply this
    rw [List.mem_append]
    left
    rcases List.mem_cons.1 lm with e | e
    · rw [e, List.mem_append]; exact Or.inr hm
    · simp [e]
  rw [hq] at j1 j2
  have d1 := dis _ g.first_mem
  have d2 := dis _ g.last_mem
  have e : N.linkRange h g.first g.last b hd =
      (((h.setPrior g.first q).setNext g.last g'.first).setPrior b g.first).setPrior g'.first g.last := by
    simp [N.linkRange, j3, n0, j1, upd, Ne.symm d1.2, Ne.symm d1.1]
  rw [e]
  have ag : Agree h ((((h.setPrior g.first q).setNext g.last g'.first).setPrior b g.first).setPrior g'.first g.last)
      [g.first, b, g'.first] [g.last] :=
    ((((Agree.refl h _ _).setPrior _ _ (by simp)).setNext _ _ (by simp)).setPrior _ _ (by simp)).setPrior _ _ (by simp)
  refine ⟨?_, ag⟩
  have cl : close hd eb fs = pre ++ [] ++ (some b, g') :: post := by simp [e0]
  have := ring_splice (M' := [(some b, g)]) (ob' := none) sp c cl ag (fr := g.toList) fr
    (by intro a ha; simp only [List.mem_cons, List.not_mem_nil, or_false] at ha
        rcases ha with rfl | rfl | rfl
        · simp [g.first_mem]
        · simp
        · simp)
    (by intro a ha; simp only [List.mem_cons, List.not_mem_nil, or_false] at ha
        rcases ha with rfl
        simp [g.last_mem])
    (by rw [hq]
        refine ⟨⟨?_, ?_, ?_⟩, i.congr (fun a ha => ag.1 a ?_) (fun a ha => ag.2 a ?_), trivial⟩
        · simp [upd, d1]
        · simp [upd, Ne.symm ql, j2]
        · rintro b' ⟨⟩; simp [upd, bg']
        · have := List.mem_of_mem_tail ha
          have dd := dis a this
          have nf : a ≠ g.first := by
            rintro rfl
            rw [g.toList_eq_first] at nd
            exact (List.nodup_cons.1 nd).1 ha
          simp [dd, nf]
        · have nf : a ≠ g.last := by
            rintro rfl
            rw [g.toList_eq_last] at nd
            rw [g.toList_eq_last] at ha
            exact notin_dropLast nd ha
          simp [nf])
    (by simp only [lastOf_one, hq]
        exact ⟨by simp, by simp, by rintro b' ⟨⟩⟩)
  simpa using this

/-- `append_range`: the group is put at the end, in the bucket of the current last group. -/
theorem ring_appendRange {h : Heap} {hd eb : Id} {fs : List Seg} {g : Grp} (sp : Sep hd eb fs) (c : Ring h hd eb fs)
    (i : Inner h g) (nd : g.toList.Nodup) (fr : ∀ a ∈ g.toList, a ∉ nodesS (close hd eb fs) ++ bucks (close hd eb fs)) :
    Ring (N.appendRange h g.first g.last hd) hd eb (fs ++ [(none, g)]) ∧
      Agree h (N.appendRange h g.first g.last hd) [g.first, hd] [g.last, lastOf hd fs] := by
  obtain ⟨e1, e2, e3, e4, e5, e6, e7, e8⟩ := ring_end sp c
  have dis : ∀ a ∈ g.toList, a ≠ hd ∧ a ≠ eb ∧ a ≠ lastOf hd fs := by
    intro a ha
    have := fr a ha
    simp only [close, nodesS_append, nodesS_cons, nodesS_nil, bucks_append, bucks_some, bucks_nil, Grp.toList_one,
      List.append_nil, List.mem_append, List.mem_cons, List.not_mem_nil, or_false, not_or] at this
    refine ⟨this.1.2, this.2.2, ?_⟩
    rintro rfl
    rcases List.mem_cons.1 e8 with e | e
    · exact this.1.2 e
    · exact this.1.1 e
  obtain ⟨q, hq⟩ : ∃ q, lastOf hd fs = q := ⟨_, rfl⟩
  rw [hq] at e1 e2 e7 e8 dis ⊢
  have d1 := dis g.first (by simp [g.first_mem])
  have d2 := dis g.last (by simp [g.last_mem])
  have e : N.appendRange h g.first g.last hd =
      (((h.setPrior g.first q).setNext g.last eb).setNext q g.first).setPrior hd g.last := by
    simp [N.appendRange, e1, e2, upd, Ne.symm d1.1, Ne.symm d2.1]
  rw [e]
  have ag : Agree h ((((h.setPrior g.first q).setNext g.last eb).setNext q g.first).setPrior hd g.last)
      [g.first, hd] [g.last, q] :=
    ((((Agree.refl h _ _).setPrior _ _ (by simp)).setNext _ _ (by simp)).setNext _ _ (by simp)).setPrior _ _ (by simp)
  refine ⟨?_, ag⟩
  have cl : close hd eb fs = fs ++ [] ++ (some eb, .one hd) :: [] := by simp [close]
  have := ring_splice (M' := [(none, g)]) (ob' := some eb) sp c cl ag (fr := g.toList) fr
    (by intro a ha; simp only [List.mem_cons, List.not_mem_nil, or_false] at ha
        rcases ha with rfl | rfl
        · simp [g.first_mem]
        · simp)
    (by intro a ha; simp only [List.mem_cons, List.not_mem_nil, or_false] at ha
        rw [hq]
        rcases ha with rfl | rfl
        · simp [g.last_mem]
        · simp)
    (by rw [hq]
        refine ⟨⟨?_, ?_, ?_⟩, i.congr (fun a ha => ag.1 a ?_) (fun a ha => ag.2 a ?_), trivial⟩
        · simp [upd, d1]
        · simp [upd, Ne.symm d2.2.2]
        · rintro b' ⟨⟩
        · have := List.mem_of_mem_tail ha
          have dd := dis a this
          have nf : a ≠ g.first := by
            rintro rfl
            rw [g.toList_eq_first] at nd
            exact (List.nodup_cons.1 nd).1 ha
          simp [dd, nf]
        · have := List.dropLast_subset _ ha
          have dd := dis a this
          have nf : a ≠ g.last := by
            rintro rfl
            rw [g.toList_eq_last] at nd
            rw [g.toList_eq_last] at ha
            exact notin_dropLast nd ha
          simp [dd, nf])
    (by simp only [lastOf_one, hq]
        refine ⟨by simp, by simp [upd, d2], ?_⟩
        rintro b' ⟨⟩
        simp [upd, e4, Ne.symm d1.2.1, e3])
  simpa [Ring, close] using this

end MI.Hash
