import Verif.Hash.Rep
/-! Local facts around one segment of a hashed index. -/
namespace MI.Hash
open MI

theorem Line.next_mem {h : Heap} : ∀ {r : List Id}, Line h r → ∀ a ∈ r.dropLast, h.next a ∈ r
  | [], _, a, ha => by simp at ha
  | [b], _, a, ha => by simp at ha
  | b :: c :: r, l, a, ha => by
    simp only [List.dropLast_cons_cons, List.mem_cons] at ha
    rcases ha with rfl | ha
    · rw [(l.1 c rfl).1]; simp
    · exact List.mem_cons_of_mem _ (Line.next_mem l.2 a ha)

theorem Line.prior_mem {h : Heap} : ∀ {r : List Id}, Line h r → ∀ a ∈ r.tail, h.prior a ∈ r
  | [], _, a, ha => by simp at ha
  | [b], _, a, ha => by simp at ha
  | b :: c :: r, l, a, ha => by
    rcases List.mem_cons.1 ha with rfl | ha
    · rw [(l.1 a rfl).2]; simp
    · exact List.mem_cons_of_mem _ (Line.prior_mem l.2 a ha)

theorem Inner.next_mem {h : Heap} {g : Grp} (i : Inner h g) : ∀ a ∈ g.toList.dropLast, h.next a ∈ g.toList := by
  cases g with
  | one x => simp
  | many f mid l =>
    intro a ha
    rw [Grp.toList_many, ← List.cons_append, List.dropLast_concat] at ha
    obtain ⟨i1, i2, i3, i4⟩ := i
    rcases List.mem_cons.1 ha with rfl | ha
    · rw [i1]; cases mid <;> simp
    · rcases List.eq_nil_or_concat' mid with e | ⟨u, z, e⟩
      · simp [e] at ha
      · subst e
        rcases List.mem_append.1 ha with k | k
        · have := i3.next_mem a (by simpa using k)
          simp only [Grp.toList_many, List.mem_cons, List.mem_append] at this ⊢; tauto
        · have k : a = z := by simpa using k
          have := (i4 (by simp)).2
          rw [List.getLastD_concat] at this
          rw [k, this]; simp

theorem Inner.prior_mem {h : Heap} {g : Grp} (i : Inner h g) : ∀ a ∈ g.toList.tail, h.prior a ∈ g.toList := by
  cases g with
  | one x => simp
  | many f mid l =>
    intro a ha
    have ha : a ∈ mid ++ [l] := ha
    obtain ⟨i1, i2, i3, i4⟩ := i
    rcases List.mem_append.1 ha with k | k
    · cases mid with
      | nil => simp at k
      | cons s r =>
        rcases List.mem_cons.1 k with rfl | k
        · have := (i4 (by simp)).1
          simp only [List.headD_cons] at this
          rw [this]; simp
        · have := i3.prior_mem a (by simpa using k)
          simp only [Grp.toList_many, List.mem_cons, List.mem_append] at this ⊢; tauto
    · have k : a = l := by simpa using k
      rw [k, i2]
      cases mid with
      | nil => simp
      | cons s r =>
        have := getLastD_mem f (s :: r) (by simp)
        simp only [Grp.toList_many, List.mem_cons, List.mem_append] at this ⊢; tauto

theorem Chain.next_mem {h : Heap} : ∀ {fs : List Seg} {p : Id}, Chain h p fs →
    ∀ a ∈ (p :: nodesS fs).dropLast, h.next a ∈ nodesS fs ++ bucks fs
  | [], _, _, a, ha => by simp at ha
  | (ob, g) :: r, p, ⟨j, i, c⟩, a, ha => by
    have e := g.toList_eq_last
    have e2 : p :: nodesS ((ob, g) :: r) = (p :: g.toList.dropLast) ++ (g.last :: nodesS r) := by
      rw [nodesS_cons]
      conv => lhs; rw [show ((ob, g) : Seg).2 = g from rfl, e]
      simp
    rw [e2, List.dropLast_append_of_ne_nil (by simp), List.mem_append, List.mem_cons] at ha
    rw [bucks_cons, nodesS_cons]
    simp only [List.mem_append]
    rcases ha with (rfl | ha) | ha
    · rw [j.2.1]
      cases ob with
      | none => exact Or.inl (Or.inl g.first_mem)
      | some b => right; left; simp
    · exact Or.inl (Or.inl (i.next_mem a ha))
    · have := c.next_mem a ha
      rw [List.mem_append] at this
      tauto

theorem Chain.prior_mem {h : Heap} : ∀ {fs : List Seg} {p : Id}, Chain h p fs →
    ∀ a ∈ nodesS fs, h.prior a ∈ p :: nodesS fs
  | [], _, _, a, ha => by simp at ha
  | (ob, g) :: r, p, ⟨j, i, c⟩, a, ha => by
    rw [nodesS_cons] at ha ⊢
    simp only [List.mem_append, List.mem_cons] at ha ⊢
    rcases ha with ha | ha
    · have := g.toList_eq_first
      rw [this] at ha
      rcases List.mem_cons.1 ha with rfl | ha
      · exact Or.inl j.1
      · exact Or.inr (Or.inl (i.prior_mem a ha))
    · have := c.prior_mem a ha
      rcases List.mem_cons.1 this with e | e
      · right; left; rw [e]; exact g.last_mem
      · tauto

theorem Chain.bucket_mem {h : Heap} : ∀ {fs : List Seg} {p : Id}, Chain h p fs →
    ∀ b ∈ bucks fs, h.prior b ∈ nodesS fs
  | [], _, _, a, ha => by simp at ha
  | (ob, g) :: r, p, ⟨j, i, c⟩, a, ha => by
    rw [nodesS_cons, List.mem_append]
    rw [bucks_cons, List.mem_append] at ha
    rcases ha with ha | ha
    · have : ob = some a := by cases ob <;> simp_all
      rw [j.2.2 a this]
      exact Or.inl g.first_mem
    · exact Or.inr (c.bucket_mem a ha)

/-- What is known around a group `g` of an index that comes after the node `p` and before the node `f'`. -/
structure Loc (h : Heap) (p : Id) (ob : Option Id) (g : Grp) (ob' : Option Id) (f' : Id) : Prop where
  join1 : Join h p ob g.first
  inner : Inner h g
  join2 : Join h g.last ob' f'
  nd : g.toList.Nodup
  nz : ∀ x ∈ g.toList, x ≠ 0
  f0 : f' ≠ 0
  pg : p ∉ g.toList
  fg : f' ∉ g.toList
  obg : ∀ b ∈ ob, b ∉ g.toList ∧ b ≠ p ∧ b ≠ f' ∧ b ≠ 0
  obg' : ∀ b ∈ ob', b ∉ g.toList ∧ b ≠ p ∧ b ≠ f' ∧ b ≠ 0
  obob : ∀ b ∈ ob, ∀ b' ∈ ob', b ≠ b'
  pri : ∀ x ∈ g.toList, x ≠ g.last → h.prior p ≠ x
  nxtpri : ∀ x ∈ g.toList.tail, h.next (h.prior p) ≠ x
  nxtf : ∀ x ∈ g.toList.tail, h.next f' ≠ x

theorem close_last {hd eb : Id} {fs pre post : List Seg} {ob : Option Id} {g : Grp}
    (e : close hd eb fs = pre ++ (ob, g) :: post) : ∃ w, g.toList ++ nodesS post = w ++ [hd] := by
  have := congrArg nodesS e
  simp only [close, nodesS_append, nodesS_cons, nodesS_nil, List.append_nil, Grp.toList_one] at this
  have k : (g.toList ++ nodesS post) ≠ [] := by simp [g.toList_ne]
  obtain ⟨w, z, hw⟩ := (List.eq_nil_or_concat' (g.toList ++ nodesS post)).resolve_left k
  refine ⟨w, ?_⟩
  rw [hw, ← List.append_assoc] at this
  have := List.append_inj_right' this rfl
  rw [hw, this]

theorem ring_loc {h : Heap} {hd eb : Id} {fs pre : List Seg} {ob ob' : Option Id} {g g' : Grp} {post : List Seg}
    (sp : Sep hd eb fs) (c : Ring h hd eb fs) (e : close hd eb fs = pre ++ (ob, g) :: (ob', g') :: post) :
    Loc h (lastOf hd pre) ob g ob' g'.first := by
  obtain ⟨w, hw⟩ := close_last (pre := pre ++ [(ob, g)]) (ob := ob') (g := g') (post := post) (by rw [e]; simp)
  have nd := sp.1
  have nz := sp.2
  unfold Ring at c
  rw [e] at c nd nz
  have cc := Chain.append.1 c
  obtain ⟨c1, j1, i1, j2, i2, c2⟩ := cc
  simp only [nodesS_append, bucks_append, nodesS_cons, bucks_cons] at nd nz
  obtain ⟨nd1, nd2, nd3⟩ := List.nodup_append.1 nd
  have hdin : hd ∈ g'.toList ++ nodesS post := by rw [hw]; simp
  obtain ⟨nda, ndb, ndc⟩ := List.nodup_append.1 nd1
  obtain ⟨ndd, nde, ndf⟩ := List.nodup_append.1 ndb
  have gpre : ∀ x ∈ g.toList, x ∉ hd :: nodesS pre := by
    intro x hx k
    rcases List.mem_cons.1 k with k | k
    · exact ndf x hx hd hdin k
    · exact ndc x k x (by rw [List.mem_append]; exact Or.inl hx) rfl
  have gpost : ∀ x ∈ g.toList, x ∉ g'.toList ++ nodesS post := fun x hx k => ndf x hx x k rfl
  have nodes_in : ∀ x ∈ hd :: nodesS pre, x ∈ nodesS pre ++ (g.toList ++ (g'.toList ++ nodesS post)) := by
    intro x hx
    rcases List.mem_cons.1 hx with e | e
    · rw [e]; simp only [List.mem_append] at hdin ⊢; tauto
    · simp [e]
  have bn : ∀ b ∈ bucks pre ++ (ob.toList ++ (ob'.toList ++ bucks post)),
      b ∉ nodesS pre ++ (g.toList ++ (g'.toList ++ nodesS post)) := fun b hb k => nd3 b k b hb rfl
  have lastin := lastOf_mem hd pre
  -- the next of a node outside the group is not an inner node of the group
  have out_next : ∀ a ∈ (hd :: nodesS pre), ∀ x ∈ g.toList.tail, h.next a ≠ x := by
    intro a ha x hx k
    have hx' := List.mem_of_mem_tail hx
    rw [nodes_eq_last, List.mem_append] at ha
    rcases ha with ha | ha
    · have := c1.next_mem a ha
      rw [k, List.mem_append] at this
      rcases this with q | q
      · exact gpre x hx' (List.mem_cons_of_mem _ q)
      · exact bn x (by simp [q]) (by simp [hx'])
    · have ha : a = lastOf hd pre := by simpa using ha
      rw [ha, j1.2.1] at k
      cases ob with
      | none =>
        have : g.first = x := k
        have n := ndd
        rw [g.toList_eq_first, List.nodup_cons] at n
        exact n.1 (this ▸ hx)
      | some b =>
        have : b = x := k
        exact bn x (by simp [this]) (by simp [hx'])
  have out_next2 : ∀ a ∈ g'.toList ++ nodesS post, ∀ x ∈ g.toList.tail, h.next a ≠ x := by
    intro a ha x hx k
    have hx' := List.mem_of_mem_tail hx
    rw [hw, List.mem_append] at ha
    rcases ha with ha | ha
    · have q : a ∈ (g.last :: nodesS ((ob', g') :: post)).dropLast := by
        rw [nodesS_cons, hw, ← List.cons_append, List.dropLast_concat]
        exact List.mem_cons_of_mem _ ha
      have := Chain.next_mem (p := g.last) (fs := (ob', g') :: post) ⟨j2, i2, c2⟩ a q
      rw [k, bucks_cons, List.mem_append] at this
      rcases this with q | q
      · exact gpost x hx' q
      · refine bn x ?_ (by simp [hx'])
        simp only [List.mem_append] at q ⊢; tauto
    · have ha : a = hd := by simpa using ha
      exact out_next a (by simp [ha]) x hx k
  have pri_in : h.prior (lastOf hd pre) ∈ hd :: nodesS pre ∨ h.prior (lastOf hd pre) ∈ g.last :: (g'.toList ++ nodesS post) := by
    by_cases q : lastOf hd pre ∈ nodesS pre
    · exact Or.inl (c1.prior_mem _ q)
    · right
      have q' : lastOf hd pre = hd := by
        rcases List.mem_cons.1 lastin with q' | q'
        · exact q'
        · exact absurd q' q
      exact Chain.prior_mem (p := g.last) (fs := (ob', g') :: post) ⟨j2, i2, c2⟩ _ (by rw [q']; exact hdin)
  refine ⟨j1, i1, j2, ndd, ?_, ?_, ?_, ?_, ?_, ?_, ?_, ?_, ?_, ?_⟩
  · intro x hx k
    exact nz (by rw [← k]; simp [hx])
  · intro k
    exact nz (by rw [← k]; simp [g'.first_mem])
  · intro k; exact gpre _ k lastin
  · intro k; exact gpost _ k (by simp [g'.first_mem])
  · rintro b rfl
    have q := bn b (by simp)
    refine ⟨fun k => q (by simp [k]), fun k => q (k ▸ nodes_in _ lastin), fun k => q (by simp [k, g'.first_mem]), ?_⟩
    rintro rfl
    exact nz (by simp)
  · rintro b rfl
    have q := bn b (by simp)
    refine ⟨fun k => q (by simp [k]), fun k => q (k ▸ nodes_in _ lastin), fun k => q (by simp [k, g'.first_mem]), ?_⟩
    rintro rfl
    exact nz (by simp)
  · rintro b rfl b' rfl k
    have := (List.nodup_append.1 (List.nodup_append.1 nd2).2.1).2.2 b (by simp) b' (by simp)
    exact this k
  · intro x hx xl k
    rcases pri_in with q | q
    · exact gpre x hx (k ▸ q)
    · rcases List.mem_cons.1 q with q | q
      · exact xl (k ▸ q)
      · exact gpost x hx (k ▸ q)
  · intro x hx
    rcases pri_in with q | q
    · exact out_next _ q x hx
    · rcases List.mem_cons.1 q with q | q
      · intro k
        rw [q, j2.2.1] at k
        have hx' := List.mem_of_mem_tail hx
        cases ob' with
        | none =>
          have : g'.first = x := k
          exact gpost x hx' (by rw [← this]; simp [g'.first_mem])
        | some b =>
          have : b = x := k
          exact bn x (by simp [this]) (by simp [hx'])
      · exact out_next2 _ q x hx
  · intro x hx
    exact out_next2 _ (by simp [g'.first_mem]) x hx

end MI.Hash
