import Verif.Hash.Table
set_option linter.unusedSimpArgs false
set_option linter.unnecessarySeqFocus false
set_option linter.unusedTactic false
set_option linter.unreachableTactic false
/-! Traversal of hashed indices. -/
namespace MI.Hash
open MI

theorem split_unique {α : Type _} {x : α} : ∀ {u u' v v' : List α}, (u ++ x :: v).Nodup → u ++ x :: v = u' ++ x :: v' →
    u = u' ∧ v = v'
  | [], [], v, v', _, e => by simpa using e
  | [], y :: u', v, v', n, e => by
    simp only [List.nil_append, List.cons_append, List.cons.injEq] at e n
    obtain ⟨rfl, rfl⟩ := e
    simp at n
  | y :: u, [], v, v', n, e => by
    simp only [List.nil_append, List.cons_append, List.cons.injEq] at e n
    obtain ⟨rfl, rfl⟩ := e
    simp at n
  | y :: u, z :: u', v, v', n, e => by
    simp only [List.cons_append, List.cons.injEq] at e n
    obtain ⟨rfl, e⟩ := e
    have := split_unique (List.nodup_cons.1 n).2 e
    exact ⟨by rw [this.1], this.2⟩

/-! ## Steps within a group -/

theorem U.after_loc {h : Heap} {p x f' : Id} {ob ob' : Option Id} (l : Loc h p ob (.one x) ob' f') :
    U.after h x = f' ∧ U.afterLocal h x = (if ob'.isSome then 0 else f') := by
  obtain ⟨-, -, ⟨k1, k2, k3⟩, -, nz, f0, pg, fg, -, -, -, -, -, -⟩ := l
  simp only [Grp.last_one, Grp.toList_one, List.mem_singleton] at k1 k2 k3 fg
  cases ob' with
  | none =>
    simp only [Option.getD_none] at k2
    simp [U.after, U.afterLocal, U.isLastOfBucket, k2, k1]
  | some b =>
    simp only [Option.getD_some] at k2
    have k3 := k3 b rfl
    simp [U.after, U.afterLocal, U.isLastOfBucket, k2, k3, fg]

theorem U.inspect_loc {h : Heap} {p x f' : Id} {ob ob' : Option Id} (l : Loc h p ob (.one x) ob' f') :
    U.nextToInspect h x = (if ob'.isSome then 0 else f') := (U.after_loc l).2

theorem line_step {h : Heap} {x t : Id} {r : List Id} : ∀ {u : List Id}, Line h (u ++ x :: t :: r) → h.next x = t ∧ h.prior t = x
  | [], l => l.1 t (by simp)
  | _ :: _, l => line_step l.2

theorem N.after_loc {h : Heap} {p x f' : Id} {ob ob' : Option Id} {g : Grp} {u v : List Id} (lc : Loc h p ob g ob' f')
    (e : g.toList = u ++ x :: v) :
    N.after h x = v.headD f' ∧ N.afterLocal h x = v.headD (if ob'.isSome then 0 else f') := by
  obtain ⟨⟨j1, j2, j3⟩, inn, ⟨k1, k2, k3⟩, nd, nz, f0, pg, fg, -, -, -, pri, nxtpri, -⟩ := lc
  by_cases hx : x = g.last
  · have : v = [] := by
      have e2 := g.toList_eq_last
      rw [← hx] at e2
      have e3 : u ++ x :: v = g.toList.dropLast ++ x :: [] := by rw [← e, ← e2]
      exact (split_unique (by rw [← e]; exact nd) e3).2
    subst this
    subst hx
    have fl : f' ≠ g.last := fun k => fg (k ▸ g.last_mem)
    cases ob' with
    | none =>
      simp only [Option.getD_none] at k2
      simp [N.after, N.afterLocal, k2, k1]
    | some b =>
      simp only [Option.getD_some] at k2
      have k3 := k3 b rfl
      simp [N.after, N.afterLocal, k2, k3, k1, fl]
  · cases g with
    | one y =>
      exfalso
      have : x ∈ (Grp.one y).toList := by rw [e]; simp
      simp at this
      exact hx (by simpa using this)
    | many f mid l =>
      simp only [Grp.last_many] at hx
      have xm : x ∈ (Grp.many f mid l).toList := by rw [e]; simp
      obtain ⟨i1, i2, i3, i4⟩ := inn
      by_cases hf : x = f
      · subst hf
        have : u = [] ∧ v = mid ++ [l] := by
          have e3 : u ++ x :: v = [] ++ x :: (mid ++ [l]) := by rw [← e]; simp
          exact split_unique (by rw [← e]; exact nd) e3
        obtain ⟨rfl, rfl⟩ := this
        cases mid with
        | nil =>
          simp only [List.headD_nil, List.getLastD_nil] at i1 i2
          simp [N.after, N.afterLocal, i1, i2]
        | cons s r =>
          obtain ⟨i4, i5⟩ := i4 (by simp)
          simp only [List.headD_cons] at i1 i4
          obtain ⟨w, hw⟩ : ∃ w, (s :: r).getLastD x = w := ⟨_, rfl⟩
          have wm : w ∈ s :: r := hw ▸ getLastD_mem x (s :: r) (by simp)
          rw [hw] at i2 i5
          have wx : w ≠ x := by
            rintro rfl
            simp only [Grp.toList_many] at nd
            exact (List.nodup_cons.1 nd).1 (List.mem_append_left _ wm)
          have lx : l ≠ x := fun k => hx k.symm
          simp [N.after, N.afterLocal, i1, i4, i2, i5, lx, wx]
      · have hm : x ∈ mid := by simp at xm; tauto
        obtain ⟨u', v', rfl⟩ := List.append_of_mem hm
        have hv : v = v' ++ [l] := by
          have e3 : u ++ x :: v = (f :: u') ++ x :: (v' ++ [l]) := by rw [← e]; simp
          exact (split_unique (by rw [← e]; exact nd) e3).2
        subst hv
        cases v' with
        | cons t r =>
          have : h.next x = t ∧ h.prior t = x := by
            exact line_step i3
          simp [N.after, N.afterLocal, this.1, this.2]
        | nil =>
          obtain ⟨i4, i5⟩ := i4 (by simp)
          rw [List.getLastD_concat] at i5
          have ph : p ≠ x := fun k => pg (k ▸ xm)
          have c1 := pri x xm hx
          have c2 := nxtpri x (by
            simp only [Grp.toList_many, List.tail_cons]
            exact List.mem_append_left _ hm)
          simp only [Grp.first_many] at j1
          simp only [i1.symm] at i4
          simp [N.after, N.afterLocal, i5, j1, ph, c1, c2, i4]

/-- The next node to inspect after a group. -/
theorem N.inspect_loc {h : Heap} {p f' : Id} {ob ob' : Option Id} {g : Grp} (lc : Loc h p ob g ob' f') (so : g.Solid) :
    N.nextToInspect h g.first = if ob'.isSome then 0 else f' := by
  obtain ⟨-, inn, ⟨k1, k2, k3⟩, nd, nz, f0, pg, fg, -, -, -, -, -, -⟩ := lc
  cases g with
  | one x =>
    simp only [Grp.first_one, Grp.last_one, Grp.toList_one, List.mem_singleton] at *
    cases ob' with
    | none =>
      simp only [Option.getD_none] at k2
      simp [N.nextToInspect, k2, k1]
    | some b =>
      simp only [Option.getD_some] at k2
      have k3 := k3 b rfl
      simp [N.nextToInspect, k2, k3, k1, fg]
  | many f mid l =>
    cases mid with
    | nil => exact absurd so id
    | cons s r =>
      obtain ⟨i1, i2, i3, i4⟩ := inn
      obtain ⟨i4, i5⟩ := i4 (by simp)
      simp only [List.headD_cons] at i1 i4
      obtain ⟨w, hw⟩ : ∃ w, (s :: r).getLastD f = w := ⟨_, rfl⟩
      have wm : w ∈ s :: r := hw ▸ getLastD_mem f (s :: r) (by simp)
      rw [hw] at i2 i5
      simp only [Grp.toList_many, Grp.first_many, Grp.last_many] at *
      have wx : w ≠ f := by
        rintro rfl
        exact (List.nodup_cons.1 nd).1 (List.mem_append_left _ wm)
      have lx : l ≠ f := by rintro rfl; simp at nd
      have fl : f' ≠ l := by rintro rfl; simp at fg
      cases ob' with
      | none =>
        simp only [Option.getD_none] at k2
        simp [N.nextToInspect, i1, i4, i2, lx, wx, k2, k1]
      | some b =>
        simp only [Option.getD_some] at k2
        have k3 := k3 b rfl
        simp [N.nextToInspect, i1, i4, i2, lx, wx, k2, k3, fl]

/-- The end of the range of equal elements that starts with the group `g`. -/
theorem range_loc {h : Heap} {p f' : Id} {ob ob' : Option Id} {g : Grp} {eq : Id → Id → Bool} (lc : Loc h p ob g ob' f')
    (he : ∀ x ∈ g.toList, ∀ y ∈ g.toList, eq x y = true) (hf : ob' = none → eq g.first f' = false) :
    lastOfRange .multi eq h g.first = g.last ∧ endOfRange .multi eq h g.first = f' := by
  obtain ⟨-, inn, ⟨k1, k2, k3⟩, nd, nz, f0, pg, fg, -, -, -, -, -, -⟩ := lc
  have hend : (if h.prior (h.next g.last) = g.last then h.next g.last else h.prior (h.next g.last)) = f' := by
    cases ob' with
    | none =>
      simp only [Option.getD_none] at k2
      simp [k2, k1]
    | some b =>
      simp only [Option.getD_some] at k2
      have k3 := k3 b rfl
      have : f' ≠ g.last := fun k => fg (k ▸ g.last_mem)
      simp [k2, k3, this]
  cases g with
  | one x =>
    simp only [Grp.first_one, Grp.last_one, Grp.toList_one, List.mem_singleton] at *
    cases ob' with
    | none =>
      simp only [Option.getD_none] at k2
      have := hf rfl
      simp [lastOfRange, endOfRange, k2, k1, this]
    | some b =>
      simp only [Option.getD_some] at k2
      have k3 := k3 b rfl
      simp [lastOfRange, endOfRange, k2, k3, k1, fg]
  | many f mid l =>
    obtain ⟨i1, i2, i3, i4⟩ := inn
    cases mid with
    | nil =>
      simp only [List.headD_nil, List.getLastD_nil, Grp.first_many, Grp.last_many] at *
      have := he f (by simp) l (by simp)
      simp only [lastOfRange, endOfRange, i1, i2, this, if_true]
      exact ⟨trivial, hend⟩
    | cons s r =>
      obtain ⟨i4, i5⟩ := i4 (by simp)
      simp only [List.headD_cons] at i1 i4
      obtain ⟨w, hw⟩ : ∃ w, (s :: r).getLastD f = w := ⟨_, rfl⟩
      have wm : w ∈ s :: r := hw ▸ getLastD_mem f (s :: r) (by simp)
      rw [hw] at i2 i5
      simp only [Grp.toList_many, Grp.first_many, Grp.last_many] at *
      have wx : w ≠ f := by
        rintro rfl
        exact (List.nodup_cons.1 nd).1 (List.mem_append_left _ wm)
      have lx : l ≠ f := by rintro rfl; simp at nd
      simp only [lastOfRange, endOfRange, i1, i4, i2, if_neg lx, if_neg wx]
      exact ⟨trivial, hend⟩

/-! ## Steps in an index -/

/-- The index is one of the given category: unique indices have no groups of two or more. -/
def OfCat (c : Cat) (T : Tab) : Prop := c = .uniq → ∀ i, ∀ g ∈ T.B i, ∃ x, g = .one x

section
variable {h : Heap} {a : Arr} {hd : Id} {T : Tab}

/-- What is known around a group. -/
theorem Rep.loc (r : Rep h a hd T) {i : Nat} {G1 G2 : List Grp} {g : Grp} (hB : T.B i = G1 ++ g :: G2) :
    ∃ p ob ob' f', Loc h p ob g ob' f' ∧ (if ob'.isSome then 0 else f') = (gnodes G2).headD 0 ∧
      (ob' = none ↔ G2 ≠ []) ∧ (∀ g2 G, G2 = g2 :: G → f' = g2.first) ∧
      ∃ o1 o2, T.ord = o1 ++ i :: o2 ∧ f' = (gnodes G2 ++ nodesO T.B o2).headD hd := by
  obtain ⟨o1, o2, ob', g', post, e, e2, h1, h2, gm, ec⟩ := r.around hB
  refine ⟨_, _, ob', g'.first, ring_loc r.sep r.ring ec, ?_, ?_, ?_, o1, o2, e, ?_⟩
  · cases G2 with
    | nil => simp [h1 rfl]
    | cons g2 G =>
      rw [h2 (by simp)]
      simp only [List.map_cons, List.cons_append, List.cons.injEq, Prod.mk.injEq] at e2
      rw [← e2.1.2, gnodes_cons, g2.toList_eq_first]
      simp
  · constructor
    · rintro rfl k
      have := h1 k
      simp at this
    · exact h2
  · rintro g2 G rfl
    simp only [List.map_cons, List.cons_append, List.cons.injEq, Prod.mk.injEq] at e2
    rw [e2.1.2]
  · have := congrArg Hash.nodesS e2
    simp only [nodesS_append, nodesS_map_none, close, nodesS_flatO, nodesS_cons, nodesS_nil, Grp.toList_one, List.append_nil] at this
    have k := congrArg (fun l => l.headD 0) this
    rw [g'.toList_eq_first] at k
    simp only [List.cons_append, List.headD_cons] at k
    rw [← k, ← List.append_assoc]
    cases gnodes G2 ++ nodesO T.B o2 <;> simp

theorem Rep.bucket_nodup (r : Rep h a hd T) (i : Nat) : (gnodes (T.B i)).Nodup := by
  by_cases hB : T.B i = []
  · rw [hB]; simp
  · obtain ⟨o1, o2, e⟩ := List.append_of_mem ((r.ordB i).2 hB)
    have := (List.nodup_cons.1 r.nd).2
    rw [nodes_split e] at this
    exact (List.nodup_append.1 (List.nodup_append.1 this).1).2.1

/-- `after_local` on the node with `v` behind it in its bucket. -/
theorem Rep.afterLocal (r : Rep h a hd T) {c : Cat} (oc : OfCat c T) {i : Nat} {x : Id} {u v : List Id} (e : gnodes (T.B i) = u ++ x :: v) :
    Hash.afterLocal c h x = v.headD 0 := by
  have xm : x ∈ gnodes (T.B i) := by rw [e]; simp
  obtain ⟨g, gm, xg⟩ := mem_gnodes.1 xm
  obtain ⟨G1, G2, hB⟩ := List.append_of_mem gm
  obtain ⟨u', v', e'⟩ := List.append_of_mem xg
  obtain ⟨p, ob, ob', f', lc, e1, -⟩ := r.loc hB
  have hv : v = v' ++ gnodes G2 := by
    have e3 : u ++ x :: v = (gnodes G1 ++ u') ++ x :: (v' ++ gnodes G2) := by
      rw [← e, hB]; simp [e']
    exact (split_unique (by rw [← e]; exact r.bucket_nodup i) e3).2
  have key : Hash.afterLocal c h x = v'.headD (if ob'.isSome then 0 else f') := by
    cases c with
    | multi => exact (N.after_loc lc e').2
    | uniq =>
      obtain ⟨y, rfl⟩ := oc rfl i g gm
      simp only [Grp.toList_one, List.mem_singleton] at xg
      subst xg
      have : v' = [] := by
        have := congrArg List.length e'
        simp at this
        exact List.eq_nil_of_length_eq_zero (by omega)
      subst this
      exact (U.after_loc lc).2
  rw [key, hv, e1]
  cases v' <;> simp

/-- `after` on the node with `v` behind it in the index. -/
theorem Rep.after (r : Rep h a hd T) {c : Cat} (oc : OfCat c T) {x : Id} {u v : List Id} (e : T.nodes = u ++ x :: v) :
    Hash.after c h x = v.headD hd := by
  have xm : x ∈ T.nodes := by rw [e]; simp
  obtain ⟨i, xi⟩ := r.mem_nodes.1 xm
  obtain ⟨g, gm, xg⟩ := mem_gnodes.1 xi
  obtain ⟨G1, G2, hB⟩ := List.append_of_mem gm
  obtain ⟨u', v', e'⟩ := List.append_of_mem xg
  obtain ⟨p, ob, ob', f', lc, -, -, -, o1, o2, eo, e1⟩ := r.loc hB
  have hv : v = v' ++ (gnodes G2 ++ nodesO T.B o2) := by
    have e3 : u ++ x :: v = (nodesO T.B o1 ++ gnodes G1 ++ u') ++ x :: (v' ++ (gnodes G2 ++ nodesO T.B o2)) := by
      rw [← e, nodes_split eo, hB]; simp [e']
    exact (split_unique (by rw [← e]; exact (List.nodup_cons.1 r.nd).2) e3).2
  have key : Hash.after c h x = v'.headD f' := by
    cases c with
    | multi => exact (N.after_loc lc e').1
    | uniq =>
      obtain ⟨y, rfl⟩ := oc rfl i g gm
      simp only [Grp.toList_one, List.mem_singleton] at xg
      subst xg
      have : v' = [] := by
        have := congrArg List.length e'
        simp at this
        exact List.eq_nil_of_length_eq_zero (by omega)
      subst this
      exact (U.after_loc lc).1
  rw [key, hv, e1]
  cases v' <;> simp

/-- The first element. -/
theorem Rep.begin (r : Rep h a hd T) : Hash.begin h hd = T.nodes.headD hd := by
  have c := r.ring
  unfold Ring at c
  obtain ⟨b, g, post, e⟩ := close_head hd a.endB T.B a.base T.ord (fun i hi => (r.ordB i).1 hi)
  have e' : close hd a.endB (T.flat a.base) = (some b, g) :: post := e
  rw [e'] at c
  obtain ⟨⟨j1, j2, j3⟩, -, -⟩ := c
  have n := congrArg Hash.nodesS e'
  rw [r.closeNodes, nodesS_cons, g.toList_eq_first] at n
  simp only [Option.getD_some] at j2
  rw [Hash.begin, j2, j3 b rfl]
  cases hT : T.nodes with
  | nil => rw [hT] at n; simp at n; simp [n.1]
  | cons y l => rw [hT] at n; simp at n; simp [n.1]

/-- The first element of a bucket. -/
theorem Rep.bucketFirst (r : Rep h a hd T) {i : Nat} (hi : i < a.size) : h.prior (a.base + i) = (gnodes (T.B i)).headD 0 := by
  cases hB : T.B i with
  | nil => simpa using r.emp i hi hB
  | cons g G =>
    obtain ⟨o1, o2, ob', g', post, e, e2, -, -, -, ec⟩ := r.around (G1 := []) hB
    have lc := ring_loc r.sep r.ring ec
    have := lc.join1.2.2 (a.base + i) (by simp)
    rw [this, gnodes_cons, g.toList_eq_first]
    simp

/-- `next_to_inspect` from one group to the next. -/
theorem Rep.inspect (r : Rep h a hd T) {c : Cat} (oc : OfCat c T) {i : Nat} {G1 G2 : List Grp} {g : Grp}
    (hB : T.B i = G1 ++ g :: G2) (so : g.Solid) : Hash.nextToInspect c h g.first = (gnodes G2).headD 0 := by
  obtain ⟨p, ob, ob', f', lc, e1, -⟩ := r.loc hB
  rw [← e1]
  cases c with
  | multi => exact N.inspect_loc lc so
  | uniq =>
    obtain ⟨y, rfl⟩ := oc rfl i g (by rw [hB]; simp)
    exact U.inspect_loc lc

/-- The table with groups of two taken apart. -/
def Tab.parts (T : Tab) : Tab where
  ord := T.ord
  B := fun i => (T.B i).flatMap Grp.parts

theorem gnodes_parts (gs : List Grp) : gnodes (gs.flatMap Grp.parts) = gnodes gs := by
  induction gs with
  | nil => rfl
  | cons g r ih =>
    simp only [List.flatMap_cons, gnodes_append, gnodes_cons, ih]
    congr 1
    exact g.parts_toList

theorem flatC_parts (b : Id) (gs : List Grp) : flatC b (gs.flatMap Grp.parts) = partsS (flatC b gs) := by
  have key : ∀ r : List Grp, (r.flatMap Grp.parts).map (Prod.mk (none : Option Id)) = partsS (r.map (Prod.mk none)) := by
    intro r
    induction r with
    | nil => rfl
    | cons g r ih =>
      simp only [List.flatMap_cons, List.map_append, List.map_cons, partsS] at ih ⊢
      rw [ih]
      congr 1
      cases g with
      | one _ => rfl
      | many f mid l => cases mid <;> rfl
  cases gs with
  | nil => rfl
  | cons g r =>
    have := key r
    cases g with
    | one _ => simp [flatC, Grp.parts, partsS, segParts] at this ⊢; exact this
    | many f mid l => cases mid <;> (simp [flatC, Grp.parts, partsS, segParts] at this ⊢; exact this)

theorem parts_ne (gs : List Grp) : gs.flatMap Grp.parts = [] ↔ gs = [] := by
  cases gs with
  | nil => simp
  | cons g r =>
    cases g with
    | one _ => simp [Grp.parts]
    | many f mid l => cases mid <;> simp [Grp.parts]

theorem Tab.parts_flat (T : Tab) (base : Id) : T.parts.flat base = partsS (T.flat base) := by
  unfold Tab.flat
  show flatO T.parts.B base T.ord = _
  induction T.ord with
  | nil => rfl
  | cons i r ih => rw [flatO_cons, flatO_cons, partsS_append, ih]; congr 1; exact flatC_parts _ _

theorem Tab.parts_nodes (T : Tab) : T.parts.nodes = T.nodes := by
  unfold Tab.nodes nodesO
  apply List.flatMap_congr
  intro i _
  exact gnodes_parts _

/-- Groups of two do not show in the links. -/
theorem rep_parts : Rep h a hd T.parts ↔ Rep h a hd T := by
  constructor
  · rintro ⟨r1, r2, r3, r4, r5, r6, r7, r8, r9⟩
    rw [T.parts_nodes] at r2 r3 r5
    rw [T.parts_flat, ring_parts] at r1
    refine ⟨r1, r2, r3, r4, r5, r6, fun i => ?_, r8, fun i hi e => r9 i hi ((parts_ne _).2 e)⟩
    have := r7 i
    simp only [Tab.parts, ne_eq, parts_ne] at this
    exact this
  · rintro ⟨r1, r2, r3, r4, r5, r6, r7, r8, r9⟩
    refine ⟨?_, ?_, ?_, r4, ?_, r6, fun i => ?_, r8, fun i hi e => r9 i hi ((parts_ne _).1 e)⟩
    · rw [T.parts_flat, ring_parts]; exact r1
    · rw [T.parts_nodes]; exact r2
    · rw [T.parts_nodes]; exact r3
    · rw [T.parts_nodes]; exact r5
    · have := r7 i
      simp only [Tab.parts, ne_eq, parts_ne]
      exact this

theorem parts_solid (T : Tab) (i : Nat) : ∀ g ∈ T.parts.B i, g.Solid := by
  intro g hg
  simp only [Tab.parts, List.mem_flatMap] at hg
  obtain ⟨q, -, hq⟩ := hg
  exact q.parts_solid g hq

theorem OfCat.parts {c : Cat} (oc : OfCat c T) : OfCat c T.parts := by
  intro hc i g hg
  simp only [Tab.parts, List.mem_flatMap] at hg
  obtain ⟨q, hq, hg⟩ := hg
  obtain ⟨x, rfl⟩ := oc hc i q hq
  simp [Grp.parts] at hg
  exact ⟨x, hg⟩

/-- The range that starts with a group. -/
theorem Rep.range (r : Rep h a hd T) {c : Cat} (oc : OfCat c T) {i : Nat} {G1 G2 : List Grp} {g : Grp} {eq : Id → Id → Bool}
    (hB : T.B i = G1 ++ g :: G2) (he : ∀ x ∈ g.toList, ∀ y ∈ g.toList, eq x y = true)
    (hf : ∀ g2 ∈ G2, eq g.first g2.first = false) :
    lastOfRange c eq h g.first = g.last ∧
      ∀ u v, T.nodes = u ++ g.toList ++ v → endOfRange c eq h g.first = v.headD hd := by
  obtain ⟨p, ob, ob', f', lc, -, e1, e3, o1, o2, eo, e2⟩ := r.loc hB
  have hv : ∀ u v, T.nodes = u ++ g.toList ++ v → f' = v.headD hd := by
    intro u v hn
    have : v = gnodes G2 ++ nodesO T.B o2 := by
      have k : u ++ g.first :: (g.toList.tail ++ v) =
          (nodesO T.B o1 ++ gnodes G1) ++ g.first :: (g.toList.tail ++ (gnodes G2 ++ nodesO T.B o2)) := by
        have k1 : u ++ g.first :: (g.toList.tail ++ v) = T.nodes := by
          rw [hn, ← List.cons_append, ← g.toList_eq_first]; simp
        rw [k1, nodes_split eo, hB, ← List.cons_append, ← g.toList_eq_first]
        simp
      have nd := (List.nodup_cons.1 r.nd).2
      have k2 : u ++ g.first :: (g.toList.tail ++ v) = T.nodes := by
        rw [hn, ← List.cons_append, ← g.toList_eq_first]; simp
      rw [← k2] at nd
      exact List.append_cancel_left (split_unique nd k).2
    rw [e2, this]
  cases c with
  | multi =>
    have := range_loc (eq := eq) lc he (by
      intro k
      have := e1.1 k
      cases G2 with
      | nil => exact absurd rfl this
      | cons g2 G => rw [e3 g2 G rfl]; exact hf g2 (by simp))
    refine ⟨this.1, fun u v hn => ?_⟩
    rw [this.2]
    exact hv u v hn
  | uniq =>
    obtain ⟨y, rfl⟩ := oc rfl i g (by rw [hB]; simp)
    refine ⟨rfl, fun u v hn => ?_⟩
    show U.after h y = _
    rw [(U.after_loc lc).1]
    exact hv u v hn

/-- Taking a node out. -/
theorem Rep.unlink (r : Rep h a hd T) {c : Cat} (oc : OfCat c T) {i : Nat} {G1 G2 : List Grp} {g : Grp} {x : Id}
    (hB : T.B i = G1 ++ g :: G2) (hx : x ∈ g.toList) :
    Rep (Hash.unlink c h x) a hd (T.put i (G1 ++ (g.remove x).toList ++ G2)) ∧ Frame h (Hash.unlink c h x) a hd T [] := by
  have nd : g.toList.Nodup := by
    have := r.bucket_nodup i
    rw [hB, gnodes_append, gnodes_cons] at this
    exact (List.nodup_append.1 (List.nodup_append.1 this).2.1).1
  refine r.cut hB ?_ ?_
  · rw [Grp.remove_spec g x nd hx]
    exact List.erase_sublist
  · intro p ob' f' lc
    cases c with
    | multi => exact N.unlink_cut lc hx
    | uniq =>
      obtain ⟨y, rfl⟩ := oc rfl i g (by rw [hB]; simp)
      simp only [Grp.toList_one, List.mem_singleton] at hx
      subst hx
      exact U.cut_one lc

theorem U.link_eq (h : Heap) (x b hd : Id) : U.link h x b hd = N.linkRange h x x b hd := rfl
theorem N.link_eq (h : Heap) (x b hd : Id) : N.link h x b hd = N.linkRange h x x b hd := rfl
theorem U.append_eq (h : Heap) (x hd : Id) : U.append h x hd = N.appendRange h x x hd := rfl

/-- Linking a node at the beginning of its bucket. -/
theorem Rep.linkBucket (r : Rep h a hd T) (c : Cat) {i : Nat} {x : Id} (hi : i < a.size) (fr : Fresh a hd T x) :
    Rep (Hash.link c h x (.bucket (a.base + i)) hd) a hd (T.put i (.one x :: T.B i)) ∧
      Frame h (Hash.link c h x (.bucket (a.base + i)) hd) a hd T [x] := by
  have := r.linkRange (g := .one x) hi trivial (by simp) (by simpa using fr)
  cases c with
  | uniq =>
    simp only [Hash.link, U.link_eq]
    exact ⟨this.1, fun z hz => this.2.1 z (by simpa using hz), fun z hz => this.2.2 z (by simpa using hz)⟩
  | multi =>
    simp only [Hash.link, N.link_eq]
    exact ⟨this.1, fun z hz => this.2.1 z (by simpa using hz), fun z hz => this.2.2 z (by simpa using hz)⟩

end

/-! ## The empty index -/

theorem clearLoop_prior (b : Id) : ∀ (n : Nat) (h : Heap) (z : Id),
    (clearLoop b n h).prior z = if b ≤ z ∧ z < b + n then 0 else h.prior z
  | 0, h, z => by
    have : ¬ (b ≤ z ∧ z < b + 0) := by simp only [Id] at *; omega
    rw [clearLoop, if_neg this]
  | n + 1, h, z => by
    rw [clearLoop, clearLoop_prior b n]
    simp only [Heap.setPrior, upd]
    by_cases e : z = b + n
    · subst e
      simp
    · simp only [e, if_false]
      have : (b ≤ z ∧ z < b + n) ↔ (b ≤ z ∧ z < b + (n + 1)) := by simp only [Id] at *; omega
      simp [this]

theorem clearLoop_next (b : Id) : ∀ (n : Nat) (h : Heap), (clearLoop b n h).next = h.next
  | 0, h => rfl
  | n + 1, h => by rw [clearLoop, clearLoop_next b n]; rfl

/-- The empty table. -/
def Tab.empty : Tab := ⟨[], fun _ => []⟩

/-- `bucket_array::clear` gives the empty index. -/
theorem clear_rep (h : Heap) {a : Arr} {hd : Id} (b0 : 0 < a.base) (h0 : hd ≠ 0) (dis : hd < a.base ∨ a.endB < hd) :
    Rep (clear h a hd) a hd Tab.empty ∧
      (∀ z, z ≠ hd → (z < a.base ∨ a.endB < z) → (clear h a hd).prior z = h.prior z) ∧
      (∀ z, z ≠ hd → (clear h a hd).next z = h.next z) := by
  have he : a.endB ≠ hd := by
    rintro k
    rw [← k] at dis
    unfold Arr.endB at dis
    simp only [Id] at *
    omega
  refine ⟨⟨?_, by simp [Tab.empty, Tab.nodes, nodesO], by simp [Tab.empty, Tab.nodes, nodesO, Ne.symm h0], b0,
    by simpa [Tab.empty, Tab.nodes, nodesO] using dis, by simp [Tab.empty], by simp [Tab.empty], by simp [Tab.empty], ?_⟩, ?_, ?_⟩
  · refine ⟨⟨?_, ?_, ?_⟩, trivial, trivial⟩
    · simp [clear, Heap.setPrior, Heap.setNext, upd, Ne.symm he]
    · simp [clear, Heap.setPrior, Heap.setNext, upd]
    · rintro b ⟨⟩
      simp [clear, Heap.setPrior, Heap.setNext, upd]
  · intro i hi _
    have n1 : a.base + i ≠ hd := by
      rintro k
      rw [← k] at dis
      unfold Arr.endB at dis
      simp only [Id] at *
      omega
    have n2 : i ≠ a.size := by simp only [Id] at *; omega
    simp [clear, Heap.setPrior, Heap.setNext, upd, n1, n2, clearLoop_prior, hi, Arr.endB]
  · intro z hz hr
    have n2 : z ≠ a.endB := by
      rintro rfl
      unfold Arr.endB at hr
      simp only [Id] at *
      omega
    have n3 : ¬ (a.base ≤ z ∧ z < a.base + a.size) := by
      unfold Arr.endB at hr
      simp only [Id] at *
      omega
    simp only [clear, Heap.setPrior, Heap.setNext, upd, hz, n2, clearLoop_prior, n3, if_false]
  · intro z hz
    simp [clear, Heap.setPrior, Heap.setNext, upd, hz, clearLoop_next]

end MI.Hash
