import Verif.Hash.Trav
set_option linter.unusedSimpArgs false
/-! Moving groups between two indices on the same memory: the steps of rehashing. -/
namespace MI.Hash
open MI

section
variable {h : Heap} {a : Arr} {hd : Id} {T : Tab}

theorem put_dropLast_flat {o : List Nat} {i : Nat} {G : List Grp} {g : Grp} (nd : T.ord.Nodup) (e : T.ord = o ++ [i]) (hB : T.B i = G ++ [g])
    (base : Id) :
    T.flat base = (T.put i G).flat base ++ [((if G = [] then some (base + i) else none), g)] := by
  rw [flat_split (i := i) (o1 := o) (o2 := []) e, flat_put_mem (o1 := o) (o2 := []) e nd, hB, flatC_split]
  simp [flatO]

/-- `unlink_last_group`. -/
theorem Rep.popLast (r : Rep h a hd T) {o : List Nat} {i : Nat} {G : List Grp} {g : Grp} (e : T.ord = o ++ [i]) (hB : T.B i = G ++ [g])
    (so : g.Solid) :
    h.prior hd = g.last ∧ (N.unlinkLastGroup h hd).2 = (g.first, decide (G = [])) ∧
      Rep (N.unlinkLastGroup h hd).1 a hd (T.put i G) ∧ Inner (N.unlinkLastGroup h hd).1 g ∧
      Frame h (N.unlinkLastGroup h hd).1 a hd T [] := by
  have hi : i < a.size := r.ordlt i (by rw [e]; simp)
  have ef := put_dropLast_flat r.ordnd e hB a.base
  have sp := r.sep
  have c := r.ring
  rw [ef] at sp c
  obtain ⟨h1, h2, h3, h4, h5, h6⟩ := ring_unlinkLastGroup sp c so
  have nn := nodes_put_mem (o1 := o) (o2 := []) e r.ordnd G
  have n0 := nodes_split (i := i) (o1 := o) (o2 := []) e
  have sub : (T.put i G).nodes.Sublist T.nodes := by
    rw [nn, n0, hB]
    simp [nodesO]
  have lm : lastOf hd ((T.put i G).flat a.base) ∈ hd :: T.nodes := by
    have := lastOf_mem hd ((T.put i G).flat a.base)
    unfold Tab.flat at this
    rw [nodesS_flatO] at this
    rcases List.mem_cons.1 this with k | k
    · exact List.mem_cons.2 (Or.inl k)
    · exact List.mem_cons.2 (Or.inr (sub.subset k))
  refine ⟨h1, ?_, r.put hi h3 (sub.nodup (List.nodup_cons.1 r.nd).2) ?_ ?_ ?_, h4, ?_, ?_⟩
  · rw [h2]
    by_cases k : G = [] <;> simp [k]
  · intro x hx nx
    exact absurd (by rw [hB]; simp [hx]) nx
  · intro j hj ne _
    apply h5.1
    have := r.bucket_notin hj
    simp only [List.mem_cons, not_or] at this ⊢
    refine ⟨this.1.1, ?_⟩
    split
    · simp only [Option.toList_some, List.mem_singleton]; intro k; exact ne (Nat.add_left_cancel k)
    · simp
  · intro k
    exact h6 _ (by rw [if_pos k])
  · intro z _ z2 z3
    apply h5.1
    simp only [List.mem_cons, not_or] at z2 ⊢
    refine ⟨z2.1, ?_⟩
    split
    · simp only [Option.toList_some, List.mem_singleton]
      unfold Arr.endB at z3
      simp only [Id] at *
      omega
    · simp
  · intro z _ z2
    apply h5.2
    simp only [List.mem_cons, List.not_mem_nil, or_false]
    intro k
    exact z2 (k ▸ lm)

/-- `append_range`. -/
theorem Rep.appendLast (r : Rep h a hd T) {o : List Nat} {i : Nat} {g : Grp} (e : T.ord = o ++ [i])
    (inn : Inner h g) (nd : g.toList.Nodup) (fr : ∀ x ∈ g.toList, Fresh a hd T x) :
    Rep (N.appendRange h g.first g.last hd) a hd (T.put i (T.B i ++ [g])) ∧
      Frame h (N.appendRange h g.first g.last hd) a hd T [g.first, g.last] := by
  have hi : i < a.size := r.ordlt i (by rw [e]; simp)
  have bne : T.B i ≠ [] := (r.ordB i).1 (by rw [e]; simp)
  obtain ⟨h1, h2⟩ := ring_appendRange r.sep r.ring inn nd (fun x hx => r.fresh_close (fr x hx))
  have lm : lastOf hd (T.flat a.base) ∈ hd :: T.nodes := by
    have := lastOf_mem hd (T.flat a.base)
    rwa [r.nodesS] at this
  have n0 := nodes_split (i := i) (o1 := o) (o2 := []) e
  have gd : ∀ x ∈ g.toList, x ∉ T.nodes := fun x hx k => (fr x hx).2.1 (by simp [k])
  refine ⟨r.put hi ?_ ?_ ?_ ?_ ?_, ?_, ?_⟩
  · rw [flat_put_mem (o1 := o) (o2 := []) e r.ordnd]
    rw [flat_split (i := i) (o1 := o) (o2 := []) e] at h1
    rw [flatC_split, if_neg bne]
    simpa [flatO] using h1
  · rw [nodes_put_mem (o1 := o) (o2 := []) e r.ordnd]
    have : nodesO T.B o ++ gnodes (T.B i ++ [g]) ++ nodesO T.B [] = T.nodes ++ g.toList := by
      rw [n0]; simp [nodesO]
    rw [this, List.nodup_append]
    refine ⟨(List.nodup_cons.1 r.nd).2, nd, ?_⟩
    rintro x hx y hy rfl
    exact gd x hy hx
  · intro x hx nx
    have hx : x ∈ g.toList := by
      simp only [gnodes_append, gnodes_cons, gnodes_nil, List.append_nil, List.mem_append] at hx
      exact hx.resolve_left nx
    have := fr x hx
    refine ⟨this.1, ?_, this.2.2⟩
    rintro rfl
    exact this.2.1 (by simp)
  · intro j hj _ _
    apply h2.1
    have := r.bucket_notin hj
    simp only [List.mem_cons, not_or, List.not_mem_nil, not_false_eq_true, and_true] at this ⊢
    refine ⟨?_, this.1.1⟩
    intro k
    have := (fr _ g.first_mem).2.2
    rw [← k] at this
    unfold Arr.endB at this
    simp only [Id] at *
    omega
  · intro k
    simp at k
  · intro z z1 z2 z3
    apply h2.1
    simp only [List.mem_cons, not_or, List.not_mem_nil, not_false_eq_true, and_true] at z1 z2 ⊢
    exact ⟨z1.1, z2.1⟩
  · intro z z1 z2
    apply h2.2
    simp only [List.mem_cons, not_or, List.not_mem_nil, not_false_eq_true, and_true] at z1 ⊢
    exact ⟨z1.2, fun k => z2 (k ▸ lm)⟩

/-- `unlink_range` of a whole group. -/
theorem Rep.cutGroup (r : Rep h a hd T) {i : Nat} {G1 G2 : List Grp} {g : Grp} (hB : T.B i = G1 ++ g :: G2) (so : g.Solid) :
    Rep (N.unlinkRange h g.first g.last) a hd (T.put i (G1 ++ G2)) ∧ Inner (N.unlinkRange h g.first g.last) g ∧
      Frame h (N.unlinkRange h g.first g.last) a hd T [] := by
  have ct := r.cut (h' := N.unlinkRange h g.first g.last) (o := none) hB (by simp) (by
    intro p ob' f' lc
    obtain ⟨h1, h2, h3⟩ := N.unlinkRange_cut lc so
    refine ⟨h1.mono ?_ ?_, h2, fun b hb => h3 b hb⟩
    · intro z hz
      simp only [List.mem_cons, List.mem_append] at hz ⊢
      tauto
    · intro z hz
      simp only [List.mem_cons, List.not_mem_nil, or_false] at hz ⊢
      tauto)
  obtain ⟨o1, o2, ob', g', post, e, e2, -, -, gm, ec⟩ := r.around hB
  have := (ring_unlinkRange r.sep r.ring ec so).2.1
  refine ⟨?_, this, ct.2⟩
  simpa using ct.1

/-- The first node of the group to restore: hashed_index.hpp:1550-1554. -/
theorem Rep.rangeStart (r : Rep h a hd T) {i : Nat} {G1 G2 : List Grp} {g : Grp} (hB : T.B i = G1 ++ g :: G2) (so : g.Solid) :
    Hash.rangeStart h g.last = g.first := by
  obtain ⟨o1, o2, ob', g', post, e, e2, -, -, gm, ec⟩ := r.around hB
  have lc := ring_loc r.sep r.ring ec
  obtain ⟨⟨j1, j2, j3⟩, inn, ⟨k1, k2, k3⟩, nd, nz, f0, pg, fg, ob1, ob2, ob3, -, -, -⟩ := lc
  cases g with
  | one x =>
    simp only [Grp.first_one, Grp.last_one] at *
    unfold Hash.rangeStart
    rw [if_neg]
    rw [j1, j2]
    split
    · rename_i k
      simp only [Option.getD_some]
      have := j3 (a.base + i) (by rw [if_pos k])
      simp [this]
    · simp
  | many f mid l =>
    cases mid with
    | nil => exact absurd so (by simp [Grp.Solid])
    | cons s m =>
      obtain ⟨i1, i2, i3, i4⟩ := inn
      have i4 := i4 (by simp)
      simp only [Grp.first_many, Grp.last_many, Grp.toList_many] at *
      unfold Hash.rangeStart
      have fl : f ≠ l := by
        rintro rfl
        simp at nd
      rw [i2, i4.2, if_pos]
      refine ⟨fl, ?_⟩
      rw [j1]
      intro k
      apply pg
      rw [k]
      simp

end

/-- Two indices on the same memory have no address in common. -/
structure Apart (a : Arr) (hd : Id) (T : Tab) (b : Arr) (ky : Id) (T' : Tab) : Prop where
  n1 : ∀ z ∈ hd :: T.nodes, z ∉ ky :: T'.nodes ∧ (z < b.base ∨ b.endB < z)
  n2 : ∀ z ∈ ky :: T'.nodes, z < a.base ∨ a.endB < z
  ar : a.endB < b.base ∨ b.endB < a.base

theorem Apart.symm {a : Arr} {hd : Id} {T : Tab} {b : Arr} {ky : Id} {T' : Tab} (p : Apart a hd T b ky T') : Apart b ky T' a hd T where
  n1 z hz := ⟨fun k => (p.n1 z k).1 hz, p.n2 z hz⟩
  n2 z hz := (p.n1 z hz).2
  ar := p.ar.symm

theorem Apart.mono {a : Arr} {hd : Id} {T T1 : Tab} {b : Arr} {ky : Id} {T' T1' : Tab} (p : Apart a hd T b ky T')
    (h1 : ∀ z ∈ T1.nodes, (z ∈ T.nodes ∨ (z ≠ ky ∧ z ∈ T'.nodes ∧ z ∉ T1'.nodes)))
    (h2 : ∀ z ∈ T1'.nodes, (z ∈ T'.nodes ∨ (z ≠ hd ∧ z ∈ T.nodes ∧ z ∉ T1.nodes)))
    (o1 : ∀ z ∈ T.nodes, z < a.base ∨ a.endB < z) (o2 : ∀ z ∈ T'.nodes, z < b.base ∨ b.endB < z)
    (ds : ∀ z ∈ T1.nodes, z ∉ T1'.nodes) : Apart a hd T1 b ky T1' where
  n1 z hz := by
    rcases List.mem_cons.1 hz with rfl | hz
    · have q := p.n1 z (by simp)
      refine ⟨?_, q.2⟩
      intro k
      rcases List.mem_cons.1 k with k | k
      · exact q.1 (by simp [k])
      · rcases h2 z k with m | m
        · exact q.1 (by simp [m])
        · exact m.1 rfl
    · rcases h1 z hz with m | m
      · have q := p.n1 z (by simp [m])
        refine ⟨?_, q.2⟩
        intro k
        rcases List.mem_cons.1 k with k | k
        · exact q.1 (by simp [k])
        · exact ds z hz k
      · refine ⟨?_, o2 z m.2.1⟩
        simp [m.1, m.2.2]
  n2 z hz := by
    rcases List.mem_cons.1 hz with rfl | hz
    · exact p.n2 z (by simp)
    · rcases h2 z hz with m | m
      · exact p.n2 z (by simp [m])
      · exact o1 z m.2.1
  ar := p.ar

/-- An index is not affected by changes to the other one. -/
theorem Rep.frame {h h' : Heap} {a : Arr} {hd : Id} {T : Tab} {b : Arr} {ky : Id} {T' : Tab} {X : List Id} (r : Rep h b ky T')
    (p : Apart a hd T b ky T') (f : Frame h h' a hd T X) (x1 : ∀ z ∈ X, z ∉ ky :: T'.nodes ∧ (z < b.base ∨ b.endB < z)) :
    Rep h' b ky T' := by
  refine r.congr ?_ ?_ ?_
  · intro z hz
    exact f.1 z (fun k => (x1 z k).1 hz) (fun k => (p.n1 z k).1 hz) (p.n2 z hz)
  · intro z h1 h2
    refine f.1 z ?_ ?_ ?_
    · intro k
      have := (x1 z k).2
      simp only [Id] at *
      omega
    · intro k
      have := (p.n1 z k).2
      simp only [Id] at *
      omega
    · have := p.ar
      simp only [Id] at *
      omega
  · intro z hz
    exact f.2 z (fun k => (x1 z k).1 hz) (fun k => (p.n1 z k).1 hz)

theorem Inner.frame {h h' : Heap} {a : Arr} {hd : Id} {T : Tab} {g : Grp} (i : Inner h g) (f : Frame h h' a hd T [])
    (o : ∀ z ∈ g.toList, z ∉ hd :: T.nodes ∧ (z < a.base ∨ a.endB < z)) : Inner h' g :=
  i.congr (fun z hz => f.1 z (by simp) (o z (List.mem_of_mem_tail hz)).1 (o z (List.mem_of_mem_tail hz)).2)
    (fun z hz => f.2 z (by simp) (o z (List.dropLast_subset _ hz)).1)

theorem nodes_put_perm {h : Heap} {a : Arr} {hd : Id} {T : Tab} (r : Rep h a hd T) {i : Nat} {gs : List Grp} {z : Id} :
    z ∈ (T.put i gs).nodes ↔ z ∈ gnodes gs ∨ ∃ j, j ≠ i ∧ z ∈ gnodes (T.B j) := by
  simp only [Tab.nodes, nodesO, List.mem_flatMap]
  constructor
  · rintro ⟨j, -, hj⟩
    by_cases e : j = i
    · subst e
      simp only [Tab.put, upd_same] at hj
      exact Or.inl hj
    · simp only [Tab.put, upd_other _ _ e] at hj
      exact Or.inr ⟨j, e, hj⟩
  · rintro (k | ⟨j, e, k⟩)
    · refine ⟨i, ?_, by simpa [Tab.put] using k⟩
      simp only [Tab.put]
      have : gs ≠ [] := by rintro rfl; simp at k
      rw [if_neg this]
      split
      · assumption
      · simp
    · refine ⟨j, ?_, by simpa only [Tab.put, upd_other _ _ e] using k⟩
      have : j ∈ T.ord := (r.ordB j).2 (by intro q; rw [q] at k; simp at k)
      simp only [Tab.put]
      split
      · exact (List.mem_erase_of_ne e).2 this
      · split
        · exact this
        · simp [this]

theorem Rep.mem_split {h : Heap} {a : Arr} {hd : Id} {T : Tab} (r : Rep h a hd T) (i : Nat) {z : Id} :
    z ∈ T.nodes ↔ z ∈ gnodes (T.B i) ∨ ∃ j, j ≠ i ∧ z ∈ gnodes (T.B j) := by
  rw [r.mem_nodes]
  constructor
  · rintro ⟨j, hj⟩
    by_cases e : j = i
    · exact Or.inl (e ▸ hj)
    · exact Or.inr ⟨j, e, hj⟩
  · rintro (k | ⟨j, -, k⟩)
    · exact ⟨i, k⟩
    · exact ⟨j, k⟩

/-- Elements of different buckets are different. -/
theorem Rep.bucket_disj {h : Heap} {a : Arr} {hd : Id} {T : Tab} (r : Rep h a hd T) {i j : Nat} (ne : i ≠ j) {z : Id}
    (h1 : z ∈ gnodes (T.B i)) : z ∉ gnodes (T.B j) := by
  intro h2
  have hi : i ∈ T.ord := (r.ordB i).2 (by intro q; rw [q] at h1; simp at h1)
  obtain ⟨o1, o2, e⟩ := List.append_of_mem hi
  have nd := (List.nodup_cons.1 r.nd).2
  rw [nodes_split e] at nd
  have hj : j ∈ T.ord := (r.ordB j).2 (by intro q; rw [q] at h2; simp at h2)
  rw [e] at hj
  simp only [List.mem_append, List.mem_cons] at hj
  rcases hj with k | k | k
  · have : z ∈ nodesO T.B o1 := List.mem_flatMap.2 ⟨j, k, h2⟩
    exact (List.nodup_append.1 (List.nodup_append.1 nd).1).2.2 z this z h1 rfl
  · exact ne k.symm
  · have : z ∈ nodesO T.B o2 := List.mem_flatMap.2 ⟨j, k, h2⟩
    exact (List.nodup_append.1 nd).2.2 z (by simp [h1]) z this rfl

/-- The state during rehashing. -/
structure Two (h : Heap) (oa : Arr) (hd : Id) (T1 : Tab) (na : Arr) (cpy : Id) (T2 : Tab) : Prop where
  r1 : Rep h oa hd T1
  r2 : Rep h na cpy T2
  ap : Apart oa hd T1 na cpy T2

theorem Two.symm {h : Heap} {oa : Arr} {hd : Id} {T1 : Tab} {na : Arr} {cpy : Id} {T2 : Tab} (w : Two h oa hd T1 na cpy T2) :
    Two h na cpy T2 oa hd T1 := ⟨w.r2, w.r1, w.ap.symm⟩

/-- A group in no index: taken from the first, it is to be put in the second. -/
theorem Two.put {h h1 h2 : Heap} {a : Arr} {hd : Id} {T1 : Tab} {b : Arr} {ky : Id} {T2 : Tab} (w : Two h a hd T1 b ky T2)
    {i j : Nat} {G1 G2 gs : List Grp} {g : Grp} (hB : T1.B i = G1 ++ g :: G2)
    (s1 : Rep h1 a hd (T1.put i (G1 ++ G2))) (f1 : Frame h h1 a hd T1 [])
    (hgs : ∀ z, z ∈ gnodes gs ↔ z ∈ g.toList ∨ z ∈ gnodes (T2.B j))
    (s2 : Rep h1 b ky T2 → (∀ x ∈ g.toList, Fresh b ky T2 x) → g.toList.Nodup →
      Rep h2 b ky (T2.put j gs) ∧ Frame h1 h2 b ky T2 [g.first, g.last]) :
    Two h2 a hd (T1.put i (G1 ++ G2)) b ky (T2.put j gs) := by
  have gsub : ∀ y ∈ g.toList, y ∈ T1.nodes := fun y hy => w.r1.mem_nodes.2 ⟨i, by rw [hB]; simp [hy]⟩
  have bnd := w.r1.bucket_nodup i
  rw [hB, gnodes_append, gnodes_cons] at bnd
  have gnd : g.toList.Nodup := (List.nodup_append.1 (List.nodup_append.1 bnd).2.1).1
  have gfr : ∀ x ∈ g.toList, Fresh b ky T2 x := by
    intro x hx
    have m := gsub x hx
    have q := w.ap.n1 x (by simp [m])
    exact ⟨fun k => w.r1.nz (by simp [← k, m]), q.1, q.2⟩
  have r2' := w.r2.frame w.ap f1 (by simp)
  obtain ⟨s3, s4⟩ := s2 r2' gfr gnd
  have gout : ∀ z ∈ g.toList, z ∉ (T1.put i (G1 ++ G2)).nodes := by
    intro z hz k
    rw [nodes_put_perm w.r1] at k
    rcases k with k | ⟨j', ne, k⟩
    · rw [gnodes_append, List.mem_append] at k
      rcases k with k | k
      · exact (List.nodup_append.1 bnd).2.2 z k z (by simp [hz]) rfl
      · exact (List.nodup_append.1 (List.nodup_append.1 bnd).2.1).2.2 z hz z k rfl
    · exact w.r1.bucket_disj ne k (by rw [hB]; simp [hz])
  have sub1 : ∀ z ∈ (T1.put i (G1 ++ G2)).nodes, z ∈ T1.nodes := by
    intro z hz
    rw [nodes_put_perm w.r1] at hz
    rw [w.r1.mem_split i]
    rcases hz with k | k
    · left
      rw [hB]
      simp only [gnodes_append, gnodes_cons, List.mem_append] at k ⊢
      tauto
    · exact Or.inr k
  have sub2 : ∀ z ∈ (T2.put j gs).nodes, z ∈ T2.nodes ∨ z ∈ g.toList := by
    intro z hz
    rw [nodes_put_perm w.r2] at hz
    rw [w.r2.mem_split j]
    rcases hz with k | k
    · rw [hgs] at k
      tauto
    · exact Or.inl (Or.inr k)
  have apn : ∀ z ∈ T1.nodes, z ∉ T2.nodes := fun z hz k => (w.ap.n1 z (by simp [hz])).1 (by simp [k])
  refine ⟨s1.frame (a := b) (hd := ky) (T := T2) ?_ s4 ?_, s3, ?_⟩
  · refine (w.ap.mono (T1 := T1.put i (G1 ++ G2)) (T1' := T2) (fun z hz => Or.inl (sub1 z hz)) (fun z hz => Or.inl hz)
      (fun z hz => w.r1.dis z (by simp [hz])) (fun z hz => w.r2.dis z (by simp [hz])) (fun z hz => apn z (sub1 z hz))).symm
  · intro z hz
    have hz : z ∈ g.toList := by
      simp only [List.mem_cons, List.not_mem_nil, or_false] at hz
      rcases hz with rfl | rfl
      · exact g.first_mem
      · exact g.last_mem
    refine ⟨?_, w.r1.dis z (by simp [gsub z hz])⟩
    intro k
    rcases List.mem_cons.1 k with k | k
    · exact (List.nodup_cons.1 w.r1.nd).1 (k ▸ gsub z hz)
    · exact gout z hz k
  · refine w.ap.mono (fun z hz => Or.inl (sub1 z hz)) ?_ (fun z hz => w.r1.dis z (by simp [hz])) (fun z hz => w.r2.dis z (by simp [hz])) ?_
    · intro z hz
      rcases sub2 z hz with k | k
      · exact Or.inl k
      · refine Or.inr ⟨?_, gsub z k, gout z k⟩
        rintro rfl
        exact (List.nodup_cons.1 w.r1.nd).1 (gsub z k)
    · intro z hz k
      rcases sub2 z k with k | k
      · exact apn z (sub1 z hz) k
      · exact gout z k hz

/-- A step of the rehashing loop. -/
theorem Two.step {h : Heap} {oa : Arr} {hd : Id} {T1 : Tab} {na : Arr} {cpy : Id} {T2 : Tab} (w : Two h oa hd T1 na cpy T2)
    {o : List Nat} {i j : Nat} {G : List Grp} {g : Grp} (e : T1.ord = o ++ [i]) (hB : T1.B i = G ++ [g]) (so : g.Solid) (hj : j < na.size) :
    Two (N.linkRange (N.unlinkLastGroup h hd).1 g.first g.last (na.base + j) cpy) oa hd (T1.put i G) na cpy (T2.put j (g :: T2.B j)) := by
  obtain ⟨-, -, h3, h4, h5⟩ := w.r1.popLast e hB so
  have := w.put (h1 := (N.unlinkLastGroup h hd).1) (h2 := N.linkRange (N.unlinkLastGroup h hd).1 g.first g.last (na.base + j) cpy)
    (G1 := G) (G2 := []) (g := g) (j := j) (gs := g :: T2.B j) hB (by simpa using h3) h5 (by simp)
    (fun r fr nd => r.linkRange hj h4 nd fr)
  simpa using this

/-- A restoring step of non-unique indices: the group goes back to the old index. -/
theorem Two.back {h : Heap} {oa : Arr} {hd : Id} {T1 : Tab} {na : Arr} {cpy : Id} {T2 : Tab} (w : Two h oa hd T1 na cpy T2)
    {i j : Nat} {G : List Grp} {g : Grp} (hB : T2.B j = g :: G) (so : g.Solid) :
    (T1.B i = [] → i < oa.size →
      Two (N.linkRange (N.unlinkRange h g.first g.last) g.first g.last (oa.base + i) hd) oa hd (T1.put i [g]) na cpy (T2.put j G)) ∧
    (∀ o, T1.ord = o ++ [i] →
      Two (N.appendRange (N.unlinkRange h g.first g.last) g.first g.last hd) oa hd (T1.put i (T1.B i ++ [g])) na cpy (T2.put j G)) := by
  obtain ⟨h1, h2, h3⟩ := w.r2.cutGroup (G1 := []) (G2 := G) hB so
  constructor
  · intro hi hl
    have := w.symm.put (h1 := N.unlinkRange h g.first g.last)
      (h2 := N.linkRange (N.unlinkRange h g.first g.last) g.first g.last (oa.base + i) hd) (G1 := []) (G2 := G) (g := g) (i := j) (j := i)
      (gs := [g]) hB h1 h3 (by simp [hi]) (fun r fr nd => by have := r.linkRange hl h2 nd fr; rwa [hi] at this)
    exact this.symm
  · intro o e
    have := w.symm.put (h1 := N.unlinkRange h g.first g.last)
      (h2 := N.appendRange (N.unlinkRange h g.first g.last) g.first g.last hd) (G1 := []) (G2 := G) (g := g) (i := j) (j := i)
      (gs := T1.B i ++ [g]) hB h1 h3 (by simp [or_comm]) (fun r fr nd => r.appendLast e h2 nd fr)
    exact this.symm

end MI.Hash
