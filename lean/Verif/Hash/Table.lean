import Verif.Hash.Ring2
import Verif.Hash.Index
set_option linter.unusedSimpArgs false
/-! Hashed indices as tables of buckets, each one a list of groups. -/
namespace MI.Hash
open MI

/-- The content of a hashed index: the non-empty buckets in traversal order and the groups of each bucket. -/
structure Tab where
  ord : List Nat
  B : Nat → List Grp

/-- The segments of one bucket. -/
def flatC (b : Id) : List Grp → List Seg
  | [] => []
  | g :: gs => (some b, g) :: gs.map (Prod.mk none)

/-- The segments of some buckets. -/
def flatO (B : Nat → List Grp) (base : Id) (o : List Nat) : List Seg := o.flatMap fun i => flatC (base + i) (B i)

/-- The elements of a bucket. -/
def gnodes (gs : List Grp) : List Id := gs.flatMap Grp.toList

/-- The elements of some buckets. -/
def nodesO (B : Nat → List Grp) (o : List Nat) : List Id := o.flatMap fun i => gnodes (B i)

/-- All segments. -/
def Tab.flat (T : Tab) (base : Id) : List Seg := flatO T.B base T.ord

/-- All elements in traversal order. -/
def Tab.nodes (T : Tab) : List Id := nodesO T.B T.ord

/-- The table with the groups of bucket `i` replaced; a bucket that was empty goes to the end. -/
def Tab.put (T : Tab) (i : Nat) (gs : List Grp) : Tab where
  ord := if gs = [] then T.ord.erase i else if i ∈ T.ord then T.ord else T.ord ++ [i]
  B := upd T.B i gs

/-- The memory holds the index with header `hd`, bucket array `a` and content `T`. -/
structure Rep (h : Heap) (a : Arr) (hd : Id) (T : Tab) : Prop where
  ring : Ring h hd a.endB (T.flat a.base)
  nd : (hd :: T.nodes).Nodup
  nz : 0 ∉ hd :: T.nodes
  b0 : 0 < a.base
  dis : ∀ x ∈ hd :: T.nodes, x < a.base ∨ a.endB < x
  ordnd : T.ord.Nodup
  ordB : ∀ i, i ∈ T.ord ↔ T.B i ≠ []
  ordlt : ∀ i ∈ T.ord, i < a.size
  emp : ∀ i, i < a.size → T.B i = [] → h.prior (a.base + i) = 0

@[simp] theorem gnodes_nil : gnodes [] = [] := rfl
@[simp] theorem gnodes_cons (g : Grp) (gs : List Grp) : gnodes (g :: gs) = g.toList ++ gnodes gs := rfl
@[simp] theorem gnodes_append (a b : List Grp) : gnodes (a ++ b) = gnodes a ++ gnodes b := by simp [gnodes]
theorem mem_gnodes {x : Id} {gs : List Grp} : x ∈ gnodes gs ↔ ∃ g ∈ gs, x ∈ g.toList := by simp [gnodes]

theorem nodesS_map_none (gs : List Grp) : nodesS (gs.map (Prod.mk none)) = gnodes gs := by
  induction gs with
  | nil => rfl
  | cons g r ih => simp [ih]

theorem bucks_map_none (gs : List Grp) : bucks (gs.map (Prod.mk none)) = [] := by
  induction gs with
  | nil => rfl
  | cons g r ih => simp [ih]

theorem nodesS_flatC (b : Id) (gs : List Grp) : nodesS (flatC b gs) = gnodes gs := by
  cases gs with
  | nil => rfl
  | cons g r => simp [flatC, nodesS_map_none]

theorem bucks_flatC (b : Id) {gs : List Grp} (h : gs ≠ []) : bucks (flatC b gs) = [b] := by
  cases gs with
  | nil => exact absurd rfl h
  | cons g r => simp [flatC, bucks_map_none]

theorem flatO_cons (B : Nat → List Grp) (base : Id) (i : Nat) (o : List Nat) :
    flatO B base (i :: o) = flatC (base + i) (B i) ++ flatO B base o := by simp [flatO]

theorem flatO_append (B : Nat → List Grp) (base : Id) (o o' : List Nat) :
    flatO B base (o ++ o') = flatO B base o ++ flatO B base o' := by simp [flatO]

theorem nodesO_cons (B : Nat → List Grp) (i : Nat) (o : List Nat) :
    nodesO B (i :: o) = gnodes (B i) ++ nodesO B o := by simp [nodesO]

theorem nodesO_append (B : Nat → List Grp) (o o' : List Nat) :
    nodesO B (o ++ o') = nodesO B o ++ nodesO B o' := by simp [nodesO]

theorem nodesS_flatO (B : Nat → List Grp) (base : Id) (o : List Nat) : nodesS (flatO B base o) = nodesO B o := by
  induction o with
  | nil => rfl
  | cons i r ih => rw [flatO_cons, nodesO_cons, nodesS_append, ih, nodesS_flatC]

theorem bucks_flatO (B : Nat → List Grp) (base : Id) (o : List Nat) (ne : ∀ i ∈ o, B i ≠ []) :
    bucks (flatO B base o) = o.map (base + ·) := by
  induction o with
  | nil => rfl
  | cons i r ih =>
    rw [flatO_cons, bucks_append, ih (fun j hj => ne j (by simp [hj])), bucks_flatC _ (ne i (by simp))]
    simp

theorem flatO_upd (B : Nat → List Grp) (base : Id) (o : List Nat) {i : Nat} (gs : List Grp) (h : i ∉ o) :
    flatO (upd B i gs) base o = flatO B base o := by
  unfold flatO
  apply List.flatMap_congr
  intro j hj
  have : j ≠ i := fun k => h (k ▸ hj)
  simp [upd, this]

theorem nodesO_upd (B : Nat → List Grp) (o : List Nat) {i : Nat} (gs : List Grp) (h : i ∉ o) :
    nodesO (upd B i gs) o = nodesO B o := by
  unfold nodesO
  apply List.flatMap_congr
  intro j hj
  have : j ≠ i := fun k => h (k ▸ hj)
  simp [upd, this]

theorem Rep.nodesS {h : Heap} {a : Arr} {hd : Id} {T : Tab} (_ : Rep h a hd T) : nodesS (T.flat a.base) = T.nodes :=
  nodesS_flatO _ _ _

theorem Rep.bucks {h : Heap} {a : Arr} {hd : Id} {T : Tab} (r : Rep h a hd T) :
    Hash.bucks (T.flat a.base) = T.ord.map (a.base + ·) :=
  bucks_flatO _ _ _ (fun i hi => (r.ordB i).1 hi)

theorem Rep.mem_nodes {h : Heap} {a : Arr} {hd : Id} {T : Tab} (r : Rep h a hd T) {x : Id} :
    x ∈ T.nodes ↔ ∃ i, x ∈ gnodes (T.B i) := by
  simp only [Tab.nodes, nodesO, List.mem_flatMap]
  constructor
  · rintro ⟨i, -, h⟩; exact ⟨i, h⟩
  · rintro ⟨i, h⟩
    refine ⟨i, (r.ordB i).2 ?_, h⟩
    rintro e
    rw [e] at h
    simp at h

theorem Rep.closeNodes {h : Heap} {a : Arr} {hd : Id} {T : Tab} (r : Rep h a hd T) :
    Hash.nodesS (close hd a.endB (T.flat a.base)) = T.nodes ++ [hd] := by
  simp [close, r.nodesS]

theorem Rep.closeBucks {h : Heap} {a : Arr} {hd : Id} {T : Tab} (r : Rep h a hd T) :
    Hash.bucks (close hd a.endB (T.flat a.base)) = T.ord.map (a.base + ·) ++ [a.endB] := by
  simp [close, r.bucks]

theorem Rep.bucks_range {h : Heap} {a : Arr} {hd : Id} {T : Tab} (r : Rep h a hd T) :
    ∀ b ∈ T.ord.map (a.base + ·) ++ [a.endB], a.base ≤ b ∧ b ≤ a.endB := by
  intro b hb
  simp only [List.mem_append, List.mem_map, List.mem_singleton] at hb
  unfold Arr.endB at *
  rcases hb with ⟨i, hi, rfl⟩ | rfl
  · have := r.ordlt i hi
    simp only [Id] at *
    omega
  · simp only [Id] at *
    omega

theorem Rep.sep {h : Heap} {a : Arr} {hd : Id} {T : Tab} (r : Rep h a hd T) : Sep hd a.endB (T.flat a.base) := by
  unfold Sep
  rw [r.closeNodes, r.closeBucks]
  have br := r.bucks_range
  constructor
  · rw [List.nodup_append]
    refine ⟨?_, ?_, ?_⟩
    · have := r.nd
      rw [List.nodup_cons] at this
      rw [List.nodup_append]
      refine ⟨this.2, by simp, ?_⟩
      intro x hx y hy
      simp only [List.mem_singleton] at hy
      subst hy
      rintro rfl
      exact this.1 hx
    · rw [List.nodup_append]
      refine ⟨?_, by simp, ?_⟩
      · rw [List.nodup_map_iff]
        · exact r.ordnd
        · intro x y hxy; exact Nat.add_left_cancel hxy
      · intro x hx y hy
        simp only [List.mem_singleton] at hy
        subst hy
        simp only [List.mem_map] at hx
        obtain ⟨i, hi, rfl⟩ := hx
        have := r.ordlt i hi
        simp only [Arr.endB]
        simp only [Id] at *
        omega
    · intro x hx y hy
      rintro rfl
      have h1 := br x hy
      have h2 := r.dis x (by simp only [List.mem_append, List.mem_singleton] at hx; simp only [List.mem_cons]; tauto)
      simp only [Id] at *
      omega
  · intro k
    rw [List.mem_append] at k
    rcases k with k | k
    · apply r.nz
      simp only [List.mem_append, List.mem_singleton] at k; simp only [List.mem_cons]; tauto
    · have := br _ k
      have := r.b0
      simp only [Id] at *
      omega

/-- Only the fields of the header, the elements and the bucket array matter. -/
theorem Rep.congr {h h' : Heap} {a : Arr} {hd : Id} {T : Tab} (r : Rep h a hd T)
    (hp : ∀ x ∈ hd :: T.nodes, h'.prior x = h.prior x) (hb : ∀ x, a.base ≤ x → x ≤ a.endB → h'.prior x = h.prior x)
    (hn : ∀ x ∈ hd :: T.nodes, h'.next x = h.next x) : Rep h' a hd T := by
  refine { r with ring := ?_, emp := ?_ }
  · refine Chain.congr r.ring ?_ ?_ ?_
    · rw [r.closeNodes]
      intro x hx
      exact hp x (by simp only [List.mem_append, List.mem_singleton] at hx; simp only [List.mem_cons]; tauto)
    · rw [r.closeBucks]
      intro x hx
      have := r.bucks_range x hx
      exact hb x this.1 this.2
    · intro x hx
      have := List.dropLast_subset _ hx
      rw [r.closeNodes] at this
      exact hn x (by simp only [List.mem_append, List.mem_singleton, List.mem_cons] at this; simp only [List.mem_cons]; tauto)
  · intro i hi e
    rw [hb _ (by simp only [Id] at *; omega) (by unfold Arr.endB; simp only [Id] at *; omega)]
    exact r.emp i hi e

theorem flat_put_mem {T : Tab} {i : Nat} {o1 o2 : List Nat} (e : T.ord = o1 ++ i :: o2) (nd : T.ord.Nodup) (gs : List Grp)
    (base : Id) : (T.put i gs).flat base = flatO T.B base o1 ++ flatC (base + i) gs ++ flatO T.B base o2 := by
  rw [e] at nd
  have n1 : i ∉ o1 := fun k => by
    have := (List.nodup_append.1 nd).2.2 i k i (by simp)
    exact this rfl
  have n2 : i ∉ o2 := (List.nodup_cons.1 (List.nodup_append.1 nd).2.1).1
  unfold Tab.flat Tab.put
  by_cases g0 : gs = []
  · subst g0
    simp only [if_true, e]
    rw [List.erase_append_right _ n1, List.erase_cons_head, flatO_append, flatO_upd _ _ _ _ n1, flatO_upd _ _ _ _ n2]
    simp [flatC]
  · have : i ∈ T.ord := by rw [e]; simp
    simp only [if_neg g0, if_pos this]
    rw [e, flatO_append, flatO_cons, flatO_upd _ _ _ _ n1, flatO_upd _ _ _ _ n2]
    simp

theorem nodes_put_mem {T : Tab} {i : Nat} {o1 o2 : List Nat} (e : T.ord = o1 ++ i :: o2) (nd : T.ord.Nodup) (gs : List Grp) :
    (T.put i gs).nodes = nodesO T.B o1 ++ gnodes gs ++ nodesO T.B o2 := by
  have := congrArg nodesS (flat_put_mem e nd gs 0)
  simpa only [Tab.nodes, Tab.flat, nodesS_append, nodesS_flatO, nodesS_flatC] using this

theorem flat_put_new {T : Tab} {i : Nat} (ni : i ∉ T.ord) {gs : List Grp} (ne : gs ≠ []) (base : Id) :
    (T.put i gs).flat base = T.flat base ++ flatC (base + i) gs := by
  unfold Tab.flat Tab.put
  simp only [if_neg ne, if_neg ni]
  rw [flatO_append, flatO_cons, flatO_upd _ _ _ _ ni]
  simp [flatO]

theorem nodes_put_new {T : Tab} {i : Nat} (ni : i ∉ T.ord) {gs : List Grp} (ne : gs ≠ []) :
    (T.put i gs).nodes = T.nodes ++ gnodes gs := by
  have := congrArg nodesS (flat_put_new ni ne 0)
  simpa only [Tab.nodes, Tab.flat, nodesS_append, nodesS_flatO, nodesS_flatC] using this

theorem nodes_split {T : Tab} {i : Nat} {o1 o2 : List Nat} (e : T.ord = o1 ++ i :: o2) :
    T.nodes = nodesO T.B o1 ++ gnodes (T.B i) ++ nodesO T.B o2 := by
  unfold Tab.nodes
  rw [e, nodesO_append, nodesO_cons, List.append_assoc]

theorem flat_split {T : Tab} {i : Nat} {o1 o2 : List Nat} (e : T.ord = o1 ++ i :: o2) (base : Id) :
    T.flat base = flatO T.B base o1 ++ flatC (base + i) (T.B i) ++ flatO T.B base o2 := by
  unfold Tab.flat
  rw [e, flatO_append, flatO_cons, List.append_assoc]

/-- The segments of a bucket, split at a group. -/
theorem flatC_split (b : Id) (G1 : List Grp) (g : Grp) (G2 : List Grp) :
    flatC b (G1 ++ g :: G2) = flatC b G1 ++ ((if G1 = [] then some b else none), g) :: G2.map (Prod.mk none) := by
  cases G1 with
  | nil => simp [flatC]
  | cons a r => simp [flatC]

/-- The first segment after a bucket carries a bucket mark. -/
theorem close_head (hd eb : Id) (B : Nat → List Grp) (base : Id) (o : List Nat) (ne : ∀ i ∈ o, B i ≠ []) :
    ∃ b g post, close hd eb (flatO B base o) = (some b, g) :: post := by
  cases o with
  | nil => exact ⟨eb, .one hd, [], rfl⟩
  | cons i r =>
    have := ne i (by simp)
    rw [flatO_cons]
    cases hB : B i with
    | nil => exact absurd hB this
    | cons g gs => exact ⟨_, _, _, rfl⟩

/-- What remains to be shown after changing one bucket. -/
theorem Rep.put {h h' : Heap} {a : Arr} {hd : Id} {T : Tab} (r : Rep h a hd T) {i : Nat} {gs : List Grp} (hi : i < a.size)
    (ring' : Ring h' hd a.endB ((T.put i gs).flat a.base)) (nd' : (T.put i gs).nodes.Nodup)
    (sub : ∀ x ∈ gnodes gs, x ∉ gnodes (T.B i) → x ≠ 0 ∧ x ≠ hd ∧ (x < a.base ∨ a.endB < x))
    (emp' : ∀ j, j < a.size → j ≠ i → T.B j = [] → h'.prior (a.base + j) = h.prior (a.base + j))
    (empi : gs = [] → h'.prior (a.base + i) = 0) : Rep h' a hd (T.put i gs) := by
  have key : ∀ x ∈ (T.put i gs).nodes, x ∈ T.nodes ∨ (x ≠ 0 ∧ x ≠ hd ∧ (x < a.base ∨ a.endB < x)) := by
    intro x hx
    have : (∃ j, j ≠ i ∧ x ∈ gnodes (T.B j)) ∨ x ∈ gnodes gs := by
      simp only [Tab.nodes, nodesO, List.mem_flatMap] at hx
      obtain ⟨j, -, hj⟩ := hx
      simp only [Tab.put] at hj
      by_cases e : j = i
      · subst e
        simp only [upd_same] at hj
        exact Or.inr hj
      · rw [upd_other _ _ e] at hj
        exact Or.inl ⟨j, e, hj⟩
    rcases this with ⟨j, -, hj⟩ | hj
    · exact Or.inl (r.mem_nodes.2 ⟨j, hj⟩)
    · by_cases k : x ∈ gnodes (T.B i)
      · exact Or.inl (r.mem_nodes.2 ⟨i, k⟩)
      · exact Or.inr (sub x hj k)
  have rnd := List.nodup_cons.1 r.nd
  refine ⟨ring', ?_, ?_, r.b0, ?_, ?_, ?_, ?_, ?_⟩
  · rw [List.nodup_cons]
    refine ⟨fun k => ?_, nd'⟩
    rcases key hd k with k | k
    · exact rnd.1 k
    · exact k.2.1 rfl
  · intro k
    rcases List.mem_cons.1 k with e | e
    · exact r.nz (by simp [← e])
    · rcases key 0 e with k | k
      · exact r.nz (by simp [k])
      · exact k.1 rfl
  · intro x hx
    rcases List.mem_cons.1 hx with e | e
    · exact r.dis x (by simp [e])
    · rcases key x e with k | k
      · exact r.dis x (by simp [k])
      · exact k.2.2
  · simp only [Tab.put]
    split
    · exact r.ordnd.erase i
    · split
      · exact r.ordnd
      · rename_i k
        rw [List.nodup_append]
        refine ⟨r.ordnd, by simp, ?_⟩
        intro x hx y hy
        simp only [List.mem_singleton] at hy
        subst hy
        rintro rfl
        exact k hx
  · intro j
    simp only [Tab.put]
    by_cases e : j = i
    · subst e
      simp only [upd_same]
      split
      · rename_i k
        simp [k, r.ordnd.not_mem_erase]
      · rename_i k
        split <;> simp_all
    · rw [upd_other _ _ e, ← r.ordB j]
      split
      · exact List.mem_erase_of_ne e
      · split
        · rfl
        · simp [e]
  · intro j hj
    simp only [Tab.put] at hj
    split at hj
    · exact r.ordlt j (List.mem_of_mem_erase hj)
    · split at hj
      · exact r.ordlt j hj
      · simp only [List.mem_append, List.mem_singleton] at hj
        rcases hj with k | k
        · exact r.ordlt j k
        · exact k ▸ hi
  · intro j hj hB
    simp only [Tab.put] at hB
    by_cases e : j = i
    · subst e
      simp only [upd_same] at hB
      exact empi hB
    · rw [upd_other _ _ e] at hB
      rw [emp' j hj e hB]
      exact r.emp j hj hB

/-- An address that the index does not use. -/
def Fresh (a : Arr) (hd : Id) (T : Tab) (x : Id) : Prop := x ≠ 0 ∧ x ∉ hd :: T.nodes ∧ (x < a.base ∨ a.endB < x)

theorem Rep.fresh_close {h : Heap} {a : Arr} {hd : Id} {T : Tab} (r : Rep h a hd T) {x : Id} (f : Fresh a hd T x) :
    x ∉ Hash.nodesS (close hd a.endB (T.flat a.base)) ++ Hash.bucks (close hd a.endB (T.flat a.base)) := by
  rw [r.closeNodes, r.closeBucks]
  intro k
  rw [List.mem_append] at k
  rcases k with k | k
  · apply f.2.1
    simp only [List.mem_append, List.mem_singleton] at k; simp only [List.mem_cons]; tauto
  · have := r.bucks_range _ k
    have := f.2.2
    simp only [Id] at *
    omega

theorem Rep.bucket_notin {h : Heap} {a : Arr} {hd : Id} {T : Tab} (r : Rep h a hd T) {j : Nat} (hj : j < a.size) :
    a.base + j ∉ hd :: T.nodes ∧ a.base + j ≠ 0 := by
  constructor
  · intro k
    have := r.dis _ k
    unfold Arr.endB at this
    simp only [Id] at *
    omega
  · have := r.b0
    simp only [Id] at *
    omega

/-- Everything outside the given addresses and the index is unchanged. -/
def Frame (h h' : Heap) (a : Arr) (hd : Id) (T : Tab) (X : List Id) : Prop :=
  (∀ z, z ∉ X → z ∉ hd :: T.nodes → (z < a.base ∨ a.endB < z) → h'.prior z = h.prior z) ∧
  (∀ z, z ∉ X → z ∉ hd :: T.nodes → h'.next z = h.next z)

/-- Linking a group at the beginning of its bucket. -/
theorem Rep.linkRange {h : Heap} {a : Arr} {hd : Id} {T : Tab} (r : Rep h a hd T) {i : Nat} {g : Grp} (hi : i < a.size)
    (inn : Inner h g) (nd : g.toList.Nodup) (fr : ∀ x ∈ g.toList, Fresh a hd T x) :
    Rep (N.linkRange h g.first g.last (a.base + i) hd) a hd (T.put i (g :: T.B i)) ∧
      Frame h (N.linkRange h g.first g.last (a.base + i) hd) a hd T [g.first, g.last] := by
  have frc : ∀ x ∈ g.toList, x ∉ Hash.nodesS (close hd a.endB (T.flat a.base)) ++ Hash.bucks (close hd a.endB (T.flat a.base)) :=
    fun x hx => r.fresh_close (fr x hx)
  have bi := r.bucket_notin hi
  have bri : a.base ≤ a.base + i ∧ a.base + i < a.endB := by
    unfold Arr.endB; simp only [Id] at *; omega
  have subf : ∀ x ∈ g.toList, x ≠ 0 ∧ x ≠ hd ∧ (x < a.base ∨ a.endB < x) := by
    intro x hx
    have := fr x hx
    refine ⟨this.1, ?_, this.2.2⟩
    rintro rfl
    exact this.2.1 (by simp)
  have rnd := (List.nodup_cons.1 r.nd).2
  by_cases hB : T.B i = []
  · have ni : i ∉ T.ord := fun k => (r.ordB i).1 k hB
    have gbn : a.base + i ∉ g.toList := by
      intro k
      have := (fr _ k).2.2
      simp only [Id] at *
      omega
    have nbc : a.base + i ∉ Hash.nodesS (close hd a.endB (T.flat a.base)) ++ Hash.bucks (close hd a.endB (T.flat a.base)) := by
      rw [r.closeNodes, r.closeBucks]
      intro k
      rw [List.mem_append] at k
      rcases k with k | k
      · apply bi.1
        simp only [List.mem_append, List.mem_singleton] at k; simp only [List.mem_cons]; tauto
      · simp only [List.mem_append, List.mem_map, List.mem_singleton] at k
        rcases k with ⟨j, hj, e⟩ | k
        · have : j = i := Nat.add_left_cancel e
          exact ni (this ▸ hj)
        · simp only [Id] at *
          omega
    obtain ⟨r1, ag⟩ := ring_linkRange_empty r.sep r.ring inn nd
      (fun x hx => (List.mem_cons.1 hx).elim (fun e => e ▸ nbc) (frc x)) gbn (r.emp i hi hB)
    have lm : lastOf hd (T.flat a.base) ∈ hd :: T.nodes := by
      have := lastOf_mem hd (T.flat a.base)
      rwa [r.nodesS] at this
    refine ⟨r.put hi ?_ ?_ ?_ ?_ (by simp), ?_, ?_⟩
    · rw [hB, flat_put_new ni (by simp)]
      exact r1
    · rw [hB, nodes_put_new ni (by simp), List.nodup_append]
      refine ⟨rnd, by simpa using nd, ?_⟩
      rintro x hx y hy rfl
      simp only [gnodes_cons, gnodes_nil, List.append_nil] at hy
      exact (fr x hy).2.1 (by simp [hx])
    · intro x hx _
      rw [hB] at hx
      simp only [gnodes_cons, gnodes_nil, List.append_nil] at hx
      exact subf x hx
    · intro j hj ne _
      refine ag.1 _ ?_
      have := r.bucket_notin hj
      simp only [List.mem_cons, List.not_mem_nil, or_false, not_or]
      refine ⟨?_, ?_, ?_⟩
      · intro k
        have := (fr _ (k ▸ g.first_mem)).2.2
        unfold Arr.endB at this
        simp only [Id] at *
        omega
      · intro k; exact ne (Nat.add_left_cancel k)
      · intro k; apply this.1; simp [k]
    · intro z z1 z2 z3
      refine ag.1 z ?_
      simp only [List.mem_cons, List.not_mem_nil, or_false, not_or] at z1 z2 ⊢
      refine ⟨z1.1, ?_, z2.1⟩
      simp only [Id] at *
      omega
    · intro z z1 z2
      refine ag.2 z ?_
      simp only [List.mem_cons, List.not_mem_nil, or_false, not_or] at z1 ⊢
      exact ⟨z1.2, fun k => z2 (k ▸ lm)⟩
  · have hi' : i ∈ T.ord := (r.ordB i).2 hB
    obtain ⟨o1, o2, e⟩ := List.append_of_mem hi'
    obtain ⟨g', gs, hB'⟩ : ∃ g' gs, T.B i = g' :: gs := by
      cases h : T.B i with
      | nil => exact absurd h hB
      | cons g' gs => exact ⟨g', gs, rfl⟩
    have ec : close hd a.endB (T.flat a.base) =
        flatO T.B a.base o1 ++ (some (a.base + i), g') :: (gs.map (Prod.mk none) ++ close hd a.endB (flatO T.B a.base o2)) := by
      rw [flat_split e, hB']
      simp [close, flatC]
    obtain ⟨r1, ag⟩ := ring_linkRange r.sep r.ring ec inn nd frc
    have gm : g'.first ∈ T.nodes := r.mem_nodes.2 ⟨i, by rw [hB']; simp [g'.first_mem]⟩
    refine ⟨r.put hi ?_ ?_ ?_ ?_ (by simp), ?_, ?_⟩
    · unfold Ring
      rw [flat_put_mem e r.ordnd, hB']
      simpa [close, flatC] using r1
    · rw [nodes_put_mem e r.ordnd]
      rw [nodes_split e] at rnd
      have p : (nodesO T.B o1 ++ gnodes (g :: T.B i) ++ nodesO T.B o2).Perm
          (g.toList ++ (nodesO T.B o1 ++ gnodes (T.B i) ++ nodesO T.B o2)) := by
        simp only [gnodes_cons, ← List.append_assoc]
        exact ((List.perm_append_comm.append_right _).append_right _)
      rw [p.nodup_iff, List.nodup_append]
      refine ⟨nd, rnd, ?_⟩
      rintro x hx y hy rfl
      rw [← nodes_split e] at hy
      exact (fr x hx).2.1 (by simp [hy])
    · intro x hx nx
      simp only [gnodes_cons, List.mem_append] at hx
      exact subf x (hx.resolve_right nx)
    · intro j hj ne _
      refine ag.1 _ ?_
      have := r.bucket_notin hj
      simp only [List.mem_cons, List.not_mem_nil, or_false, not_or]
      refine ⟨?_, ?_, ?_⟩
      · intro k
        have := (fr _ (k ▸ g.first_mem)).2.2
        unfold Arr.endB at this
        simp only [Id] at *
        omega
      · intro k; exact ne (Nat.add_left_cancel k)
      · intro k; apply this.1; simp [k, gm]
    · intro z z1 z2 z3
      refine ag.1 z ?_
      simp only [List.mem_cons, List.not_mem_nil, or_false, not_or] at z1 z2 ⊢
      refine ⟨z1.1, ?_, fun k => z2.2 (k ▸ gm)⟩
      simp only [Id] at *
      omega
    · intro z z1 z2
      refine ag.2 z ?_
      simp only [List.mem_cons, List.not_mem_nil, or_false, not_or] at z1 ⊢
      exact z1.2

/-- The segments around a group. -/
theorem Rep.around {h : Heap} {a : Arr} {hd : Id} {T : Tab} (r : Rep h a hd T) {i : Nat} {G1 G2 : List Grp} {g : Grp}
    (hB : T.B i = G1 ++ g :: G2) :
    ∃ o1 o2 ob' g' post, T.ord = o1 ++ i :: o2 ∧
      G2.map (Prod.mk none) ++ close hd a.endB (flatO T.B a.base o2) = (ob', g') :: post ∧
      (G2 = [] → ob'.isSome) ∧ (G2 ≠ [] → ob' = none) ∧ g'.first ∈ hd :: T.nodes ∧
      close hd a.endB (T.flat a.base) = (flatO T.B a.base o1 ++ flatC (a.base + i) G1) ++
        ((if G1 = [] then some (a.base + i) else none), g) :: (ob', g') :: post := by
  have hi : i ∈ T.ord := (r.ordB i).2 (by rw [hB]; simp)
  obtain ⟨o1, o2, e⟩ := List.append_of_mem hi
  have ne : ∀ j ∈ o2, T.B j ≠ [] := fun j hj => (r.ordB j).1 (by rw [e]; simp [hj])
  obtain ⟨ob', g', post, hh⟩ : ∃ ob' g' post, G2.map (Prod.mk none) ++ close hd a.endB (flatO T.B a.base o2) = (ob', g') :: post ∧
      (G2 = [] → ob'.isSome) ∧ (G2 ≠ [] → ob' = none) := by
    cases G2 with
    | nil =>
      obtain ⟨b, g2, post, hc⟩ := close_head hd a.endB T.B a.base o2 ne
      exact ⟨some b, g2, post, by simpa using hc, by simp⟩
    | cons g2 G => exact ⟨none, g2, G.map (Prod.mk none) ++ close hd a.endB (flatO T.B a.base o2), by simp⟩
  have ec : close hd a.endB (T.flat a.base) = (flatO T.B a.base o1 ++ flatC (a.base + i) G1) ++
        ((if G1 = [] then some (a.base + i) else none), g) :: (ob', g') :: post := by
    rw [flat_split e, hB, flatC_split, ← hh.1]
    simp [close]
  refine ⟨o1, o2, ob', g', post, e, hh.1, hh.2.1, hh.2.2, ?_, ec⟩
  have : g'.first ∈ Hash.nodesS (close hd a.endB (T.flat a.base)) := by
    rw [ec]; simp [g'.first_mem]
  rw [r.closeNodes] at this
  simp only [List.mem_append, List.mem_singleton] at this
  simp only [List.mem_cons]
  tauto

theorem lastOf_flat_mem {h : Heap} {a : Arr} {hd : Id} {T : Tab} (_ : Rep h a hd T) {o1 o2 : List Nat} {i : Nat} {G1 : List Grp} {R : List Grp}
    (e : T.ord = o1 ++ i :: o2) (hB : T.B i = G1 ++ R) :
    lastOf hd (flatO T.B a.base o1 ++ flatC (a.base + i) G1) ∈ hd :: T.nodes := by
  have := lastOf_mem hd (flatO T.B a.base o1 ++ flatC (a.base + i) G1)
  rw [nodesS_append, nodesS_flatO, nodesS_flatC] at this
  rw [nodes_split e, hB]
  simp only [List.mem_cons, List.mem_append, gnodes_append] at this ⊢
  tauto

/-- Linking a node at the beginning of a group. -/
theorem Rep.linkGroup {h : Heap} {a : Arr} {hd x : Id} {T : Tab} (r : Rep h a hd T) {i : Nat} {G1 G2 : List Grp} {g : Grp}
    (hB : T.B i = G1 ++ g :: G2) (fr : Fresh a hd T x) :
    Rep (N.linkGroup h x g.first g.last) a hd (T.put i (G1 ++ g.cons x :: G2)) ∧
      Frame h (N.linkGroup h x g.first g.last) a hd T [x] := by
  obtain ⟨o1, o2, ob', g', post, e, e2, -, -, gm, ec⟩ := r.around hB
  have hi : i < a.size := r.ordlt i (by rw [e]; simp)
  obtain ⟨r1, ag⟩ := ring_linkGroup r.sep r.ring ec (r.fresh_close fr)
  have lm := lastOf_flat_mem r e hB
  have gsub : ∀ y ∈ g.toList, y ∈ T.nodes := fun y hy => r.mem_nodes.2 ⟨i, by rw [hB]; simp [hy]⟩
  have rnd := (List.nodup_cons.1 r.nd).2
  refine ⟨r.put hi ?_ ?_ ?_ ?_ (by simp), ?_, ?_⟩
  · unfold Ring
    rw [flat_put_mem e r.ordnd, flatC_split]
    rw [← e2] at r1
    simpa [close] using r1
  · rw [nodes_put_mem e r.ordnd]
    have p : (nodesO T.B o1 ++ gnodes (G1 ++ g.cons x :: G2) ++ nodesO T.B o2).Perm (x :: T.nodes) := by
      rw [nodes_split e, hB]
      simp only [gnodes_append, gnodes_cons, Grp.toList_cons, List.append_assoc]
      have := List.perm_middle (a := x) (l₁ := nodesO T.B o1 ++ gnodes G1) (l₂ := g.toList ++ (gnodes G2 ++ nodesO T.B o2))
      simpa using this
    rw [p.nodup_iff, List.nodup_cons]
    exact ⟨fun k => fr.2.1 (by simp [k]), rnd⟩
  · intro y hy ny
    have : y = x := by
      rw [hB] at ny
      simp only [gnodes_append, gnodes_cons, Grp.toList_cons, List.mem_append, List.mem_cons] at hy ny
      tauto
    subst this
    exact ⟨fr.1, fun k => fr.2.1 (by simp [k]), fr.2.2⟩
  · intro j hj ne _
    refine ag.1 _ ?_
    have := r.bucket_notin hj
    simp only [List.mem_cons, List.mem_append, not_or]
    refine ⟨?_, ?_, ?_⟩
    · intro k
      have := fr.2.2
      unfold Arr.endB at this
      simp only [Id] at *
      omega
    · intro k; exact this.1 (by simp [gsub _ k])
    · split
      · simp only [Option.toList_some, List.mem_singleton]; intro k; exact ne (Nat.add_left_cancel k)
      · simp
  · intro z z1 z2 z3
    refine ag.1 z ?_
    simp only [List.mem_cons, List.not_mem_nil, or_false, not_or] at z1 z2
    simp only [List.mem_cons, List.mem_append, not_or]
    refine ⟨z1, fun k => z2.2 (gsub _ k), ?_⟩
    split
    · simp only [Option.toList_some, List.mem_singleton]
      unfold Arr.endB at z3
      simp only [Id] at *
      omega
    · simp
  · intro z z1 z2
    refine ag.2 z ?_
    simp only [List.mem_cons, List.not_mem_nil, or_false, not_or] at z1
    simp only [List.mem_cons, not_or]
    exact ⟨z1, fun k => z2 (k ▸ lm), fun k => z2 (by simp [gsub _ k])⟩

/-- The segments that remain after a cut. -/
theorem cutSegs_eq {hd eb b : Id} {F1 F2 : List Seg} {G1 G2 : List Grp} {o : Option Grp} {ob' : Option Id} {g' : Grp} {post : List Seg}
    (e2 : G2.map (Prod.mk none) ++ close hd eb F2 = (ob', g') :: post) (h1 : G2 = [] → ob'.isSome) (h2 : G2 ≠ [] → ob' = none) :
    cutSegs (F1 ++ flatC b G1) (if G1 = [] then some b else none) o ob' g' post =
      close hd eb (F1 ++ flatC b (G1 ++ o.toList ++ G2) ++ F2) := by
  cases o with
  | some g1 =>
    simp only [cutSegs, Option.toList_some, List.append_assoc, List.cons_append, List.nil_append]
    rw [← List.append_assoc F1, flatC_split, ← e2]
    simp [close]
  | none =>
    simp only [cutSegs, Option.toList_none, List.append_nil]
    cases G1 with
    | cons a G =>
      simp only [reduceCtorEq, if_false, mergeB]
      rw [← e2]
      simp [close, flatC]
    | nil =>
      simp only [if_true]
      cases G2 with
      | nil =>
        have := h1 rfl
        obtain ⟨b', rfl⟩ := Option.isSome_iff_exists.1 this
        simp only [mergeB]
        rw [← e2]
        simp [close, flatC]
      | cons g2 G =>
        have := h2 (by simp)
        subst this
        simp only [mergeB]
        simp only [List.map_cons, List.cons_append, List.cons.injEq, Prod.mk.injEq, true_and] at e2
        obtain ⟨e3, e4⟩ := e2
        subst e3
        simp [close, flatC, ← e4]

/-- Taking a node out: what the links say gives the new table. -/
theorem Rep.cut {h h' : Heap} {a : Arr} {hd : Id} {T : Tab} (r : Rep h a hd T) {i : Nat} {G1 G2 : List Grp} {g : Grp} {o : Option Grp}
    (hB : T.B i = G1 ++ g :: G2) (hsub : ((o.map Grp.toList).getD []).Sublist g.toList)
    (ct : ∀ p ob' f', Loc h p (if G1 = [] then some (a.base + i) else none) g ob' f' →
      Cut h h' p (if G1 = [] then some (a.base + i) else none) g ob' f' o) :
    Rep h' a hd (T.put i (G1 ++ o.toList ++ G2)) ∧ Frame h h' a hd T [] := by
  obtain ⟨o1, o2, ob', g', post, e, e2, h1, h2, gm, ec⟩ := r.around hB
  have hi : i < a.size := r.ordlt i (by rw [e]; simp)
  have ct' := ct _ _ _ (ring_loc r.sep r.ring ec)
  have r1 := ring_cut r.sep r.ring ec ct'
  rw [cutSegs_eq e2 h1 h2] at r1
  obtain ⟨ag, ct'⟩ := ct'
  have lm := lastOf_flat_mem r e hB
  have gsub : ∀ y ∈ g.toList, y ∈ T.nodes := fun y hy => r.mem_nodes.2 ⟨i, by rw [hB]; simp [hy]⟩
  have rnd := (List.nodup_cons.1 r.nd).2
  have og : gnodes o.toList = (o.map Grp.toList).getD [] := by cases o <;> simp
  refine ⟨r.put hi ?_ ?_ ?_ ?_ ?_, ?_, ?_⟩
  · rw [flat_put_mem e r.ordnd]
    exact r1
  · rw [nodes_put_mem e r.ordnd]
    rw [nodes_split e, hB] at rnd
    refine List.Sublist.nodup ?_ rnd
    simp only [gnodes_append, gnodes_cons, List.append_assoc]
    refine (List.Sublist.refl _).append ((List.Sublist.refl _).append ?_)
    rw [og]
    exact hsub.append (List.Sublist.refl _)
  · intro y hy ny
    exfalso
    apply ny
    rw [hB]
    simp only [gnodes_append, gnodes_cons, List.mem_append, og] at hy ⊢
    rcases hy with (k | k) | k
    · exact Or.inl k
    · exact Or.inr (Or.inl (hsub.subset k))
    · exact Or.inr (Or.inr k)
  · intro j hj ne _
    refine ag.1 _ ?_
    have := r.bucket_notin hj
    simp only [List.mem_cons, List.mem_append, not_or]
    refine ⟨?_, ?_, ?_⟩
    · intro k; exact this.1 (k ▸ gm)
    · intro k; exact this.1 (by simp [gsub _ k])
    · split
      · simp only [Option.toList_some, List.mem_singleton]; intro k; exact ne (Nat.add_left_cancel k)
      · simp
  · intro hg
    have g1 : G1 = [] := by
      cases G1 with
      | nil => rfl
      | cons _ _ => simp at hg
    have g2 : G2 = [] := by
      cases G2 with
      | nil => rfl
      | cons _ _ => simp at hg
    have o0 : o = none := by
      cases o with
      | none => rfl
      | some _ => simp at hg
    subst o0
    rw [if_pos g1] at ct'
    exact ct'.2 _ rfl (h1 g2)
  · intro z z1 z2 z3
    refine ag.1 z ?_
    simp only [List.mem_cons, not_or] at z2
    simp only [List.mem_cons, List.mem_append, not_or]
    refine ⟨fun k => ?_, fun k => z2.2 (gsub _ k), ?_⟩
    · rw [← k] at gm
      simp only [List.mem_cons] at gm
      exact gm.elim z2.1 z2.2
    · split
      · simp only [Option.toList_some, List.mem_singleton]
        unfold Arr.endB at z3
        simp only [Id] at *
        omega
      · simp
  · intro z z1 z2
    refine ag.2 z ?_
    simp only [List.mem_cons, not_or]
    exact ⟨fun k => z2 (k ▸ lm), fun k => z2 (by simp [gsub _ k])⟩

end MI.Hash
