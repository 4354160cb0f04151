import Verif.Hash.Move
import Verif.Hash.Lookup
set_option linter.unusedSimpArgs false
/-! Rehashing: the loops. -/
namespace MI.Hash
open MI

/-- The groups of a table in traversal order. -/
def Tab.groups (T : Tab) : List Grp := T.ord.flatMap T.B

/-- `T1` is what remains of `T0` after taking the groups `L` from its end; the first of `L` was taken last. -/
inductive Popped (T0 : Tab) : List (Nat × Grp) → Tab → Prop where
  | nil : Popped T0 [] T0
  | cons {L : List (Nat × Grp)} {T1 : Tab} {o : List Nat} {i : Nat} {G : List Grp} {g : Grp} (p : Popped T0 L T1)
      (e : T1.ord = o ++ [i]) (hB : T1.B i = G ++ [g]) : Popped T0 ((i, g) :: L) (T1.put i G)

/-- The new table after moving the groups `L`. -/
def newTab (hash : Id → Nat) (size : Nat) : List (Nat × Grp) → Tab
  | [] => Tab.empty
  | (_, g) :: L => (newTab hash size L).put (hash g.last % size) (g :: (newTab hash size L).B (hash g.last % size))

/-- What the loop has recorded. -/
def logOf (hash : Id → Nat) (L : List (Nat × Grp)) : List (Nat × Id) := L.map fun p => (hash p.2.last, p.2.last)

/-- The flag `within_bucket` after the given steps. -/
def WithinOk (L : List (Nat × Grp)) (T1 : Tab) (w : Bool) : Prop := ∀ i g r, L = (i, g) :: r → (w = true ↔ T1.B i ≠ [])

theorem groups_split {T : Tab} {o : List Nat} {i : Nat} {G : List Grp} {g : Grp} (nd : T.ord.Nodup) (e : T.ord = o ++ [i])
    (hB : T.B i = G ++ [g]) : T.groups = (T.put i G).groups ++ [g] := by
  have ni : i ∉ o := by
    rw [e, List.nodup_append] at nd
    exact fun k => nd.2.2 i k i (by simp) rfl
  have ho : o.flatMap (upd T.B i G) = o.flatMap T.B := by
    apply List.flatMap_congr
    intro j hj
    rw [upd_other]
    rintro rfl
    exact ni hj
  unfold Tab.groups Tab.put
  simp only
  by_cases g0 : G = []
  · rw [if_pos g0, e, List.erase_append_right _ ni]
    simp [hB, g0]
    rw [g0] at ho
    rw [ho]
  · have : i ∈ T.ord := by rw [e]; simp
    rw [if_neg g0, if_pos this, e]
    simp [hB, ho]

theorem Popped.ord_nd {T0 T1 : Tab} {L : List (Nat × Grp)} (p : Popped T0 L T1) (nd : T0.ord.Nodup) : T1.ord.Nodup := by
  induction p with
  | nil => exact nd
  | cons p e hB ih =>
    simp only [Tab.put]
    split
    · exact ih.erase _
    · split
      · exact ih
      · rename_i k
        rw [e] at k
        simp at k

theorem Popped.groups {T0 T1 : Tab} {L : List (Nat × Grp)} (p : Popped T0 L T1) (nd : T0.ord.Nodup) :
    T0.groups = T1.groups ++ L.map (·.2) := by
  induction p with
  | nil => simp
  | cons p e hB ih =>
    rw [ih, groups_split (p.ord_nd nd) e hB]
    simp

/-- The moved groups are groups of the old table. -/
theorem Popped.mem {T0 T1 : Tab} {L : List (Nat × Grp)} (p : Popped T0 L T1) :
    (∀ q ∈ L, q.2 ∈ T0.B q.1) ∧ (∀ i, ∀ g ∈ T1.B i, g ∈ T0.B i) := by
  induction p with
  | nil => exact ⟨by simp, fun i g h => h⟩
  | @cons L T1 o i G g p e hB ih =>
    constructor
    · intro q hq
      rcases List.mem_cons.1 hq with rfl | hq
      · exact ih.2 i g (by rw [hB]; simp)
      · exact ih.1 q hq
    · intro j q hq
      simp only [Tab.put] at hq
      by_cases k : j = i
      · subst k
        simp only [upd_same] at hq
        exact ih.2 j q (by rw [hB]; simp [hq])
      · rw [upd_other _ _ k] at hq
        exact ih.2 j q hq

/-- Putting a group back at the end. -/
theorem put_back {T1 : Tab} {o : List Nat} {i : Nat} {G : List Grp} {g : Grp} (nd : T1.ord.Nodup) (e : T1.ord = o ++ [i]) (hB : T1.B i = G ++ [g]) :
    (T1.put i G).put i ((T1.put i G).B i ++ [g]) = T1 := by
  have ni : i ∉ o := by
    rw [e, List.nodup_append] at nd
    exact fun k => nd.2.2 i k i (by simp) rfl
  obtain ⟨ord, B⟩ := T1
  simp only at e hB
  simp only [Tab.put, upd_same, Tab.mk.injEq]
  constructor
  · rw [if_neg (by simp)]
    by_cases g0 : G = []
    · rw [if_pos g0, e, List.erase_append_right _ ni]
      simp [ni]
    · rw [if_neg g0, e]
      simp
  · funext j
    by_cases k : j = i
    · subst k
      simp [hB]
    · rw [upd_other _ _ k, upd_other _ _ k]

section
variable {h : Heap} {oa na : Arr} {hd cpy : Id} {hash : Id → Nat} {T0 T1 : Tab} {L : List (Nat × Grp)}

theorem Rep.last_group {a : Arr} {T : Tab} (r : Rep h a hd T) (ne : T.nodes ≠ []) :
    ∃ o i G g, T.ord = o ++ [i] ∧ T.B i = G ++ [g] := by
  rcases List.eq_nil_or_concat' T.ord with e | ⟨o, i, e⟩
  · exact absurd (by simp [Tab.nodes, nodesO, e]) ne
  · have := (r.ordB i).1 (by rw [e]; simp)
    rcases List.eq_nil_or_concat' (T.B i) with k | ⟨G, g, k⟩
    · exact absurd k this
    · exact ⟨o, i, G, g, e, k⟩

theorem Rep.nodes_nil {a : Arr} {T : Tab} (r : Rep h a hd T) : T.nodes = [] ↔ T.ord = [] := by
  constructor
  · intro k
    cases e : T.ord with
    | nil => rfl
    | cons i o =>
      exfalso
      have := (r.ordB i).1 (by rw [e]; simp)
      cases hB : T.B i with
      | nil => exact this hB
      | cons g G =>
        have m : g.first ∈ T.nodes := r.mem_nodes.2 ⟨i, by rw [hB]; simp [g.first_mem]⟩
        rw [k] at m
        simp at m
  · intro k
    simp [Tab.nodes, nodesO, k]

theorem Rep.prior_hd {a : Arr} {T : Tab} (r : Rep h a hd T) (so : ∀ i, ∀ g ∈ T.B i, g.Solid) : h.prior hd = hd ↔ T.nodes = [] := by
  constructor
  · intro k
    by_contra ne
    obtain ⟨o, i, G, g, e, hB⟩ := r.last_group ne
    have := (r.popLast e hB (so i g (by rw [hB]; simp))).1
    rw [k] at this
    apply (List.nodup_cons.1 r.nd).1
    rw [this]
    exact r.mem_nodes.2 ⟨i, by rw [hB]; simp [g.last_mem]⟩
  · intro k
    have := ring_end r.sep r.ring
    have e := r.nodes_nil.1 k
    rw [this.1]
    simp [Tab.flat, flatO, e]

theorem put_nodes_length {a : Arr} {T : Tab} (r : Rep h a hd T) {o : List Nat} {i : Nat} {G : List Grp} {g : Grp} (e : T.ord = o ++ [i])
    (hB : T.B i = G ++ [g]) : (T.put i G).nodes.length + g.toList.length = T.nodes.length := by
  rw [nodes_put_mem (o1 := o) (o2 := []) e r.ordnd, nodes_split (i := i) (o1 := o) (o2 := []) e, hB]
  simp [nodesO]
  omega

theorem Rep.groups_nil {a : Arr} {T : Tab} (r : Rep h a hd T) (e : T.nodes = []) : T.groups = [] := by
  simp [Tab.groups, r.nodes_nil.1 e]

theorem Rep.groups_pos {a : Arr} {T : Tab} (r : Rep h a hd T) (e : T.nodes ≠ []) : 0 < T.groups.length := by
  obtain ⟨o, i, G, g, eo, hB⟩ := r.last_group e
  rw [groups_split r.ordnd eo hB]
  simp

/-- One call less, one group less. -/
theorem count_step {t : Option Nat} {m m' : Nat} (ht : t ≠ some 0) (hm : m' = m + 1) :
    (∃ k, t.map (· - 1) = some k ∧ k < m) ↔ ∃ k, t = some k ∧ k < m' := by
  subst hm
  cases t with
  | none => simp
  | some k =>
    have : k ≠ 0 := fun e => ht (by rw [e])
    simp
    omega

/-- The loop of non-unique indices. -/
theorem rehashLoopN_spec (s0 : 0 < na.size) (so : ∀ i, ∀ g ∈ T0.B i, g.Solid) :
    ∀ (n : Nat) (t : Option Nat) (s : RS) (L : List (Nat × Grp)) (T1 : Tab), Popped T0 L T1 →
      Two s.h oa hd T1 na cpy (newTab hash na.size L) → s.log = logOf hash L → WithinOk L T1 s.within → T1.nodes.length ≤ n →
      ∃ s' b L' T1', rehashLoopN hash na hd cpy n t s = .ok (s', b) ∧ Popped T0 L' T1' ∧
        Two s'.h oa hd T1' na cpy (newTab hash na.size L') ∧ s'.log = logOf hash L' ∧ WithinOk L' T1' s'.within ∧
        (b = false ↔ T1'.nodes = []) ∧ (b = true ↔ ∃ k, t = some k ∧ k < T1.groups.length) := by
  intro n
  induction n with
  | zero =>
    intro t s L T1 p w lg wi hn
    have e : T1.nodes = [] := List.length_eq_zero_iff.1 (by omega)
    have so1 : ∀ i, ∀ g ∈ T1.B i, g.Solid := fun i g hg => so i g (p.mem.2 i g hg)
    refine ⟨s, false, L, T1, ?_, p, w, lg, wi, ⟨fun _ => e, fun _ => rfl⟩, by simp [w.r1.groups_nil e]⟩
    simp [rehashLoopN, (w.r1.prior_hd so1).2 e]
  | succ n ih =>
    intro t s L T1 p w lg wi hn
    have so1 : ∀ i, ∀ g ∈ T1.B i, g.Solid := fun i g hg => so i g (p.mem.2 i g hg)
    by_cases e : T1.nodes = []
    · refine ⟨s, false, L, T1, ?_, p, w, lg, wi, ⟨fun _ => e, fun _ => rfl⟩, by simp [w.r1.groups_nil e]⟩
      simp [rehashLoopN, (w.r1.prior_hd so1).2 e]
    · have ne : s.h.prior hd ≠ hd := fun k => e ((w.r1.prior_hd so1).1 k)
      by_cases ht : t = some 0
      · refine ⟨s, true, L, T1, ?_, p, w, lg, wi, ⟨(fun k => nomatch k), fun k => absurd k e⟩, by simp only [true_iff]; exact ⟨0, ht, w.r1.groups_pos e⟩⟩
        simp [rehashLoopN, ne, ht]
      · obtain ⟨o, i, G, g, eo, hB⟩ := w.r1.last_group e
        have sg := so1 i g (by rw [hB]; simp)
        obtain ⟨h1, h2, -, -, -⟩ := w.r1.popLast eo hB sg
        have w2 := w.step (j := hash g.last % na.size) eo hB sg (Nat.mod_lt _ s0)
        have len := put_nodes_length w.r1 eo hB
        have gp := List.length_pos_iff.2 g.toList_ne
        obtain ⟨s', b, L', T1', e1, e2, e3, e4, e5, e6, e7⟩ := ih (t.map (· - 1))
          { h := N.linkRange (N.unlinkLastGroup s.h hd).1 g.first g.last (na.base + hash g.last % na.size) cpy,
            log := (hash g.last, g.last) :: s.log, within := !(decide (G = [])) }
          ((i, g) :: L) (T1.put i G) (Popped.cons p eo hB) w2 (by simp [logOf, lg])
          (by rintro i' g' r ⟨⟩; simp [Tab.put]) (by omega)
        refine ⟨s', b, L', T1', ?_, e2, e3, e4, e5, e6, e7.trans (count_step ht (by rw [groups_split w.r1.ordnd eo hB]; simp))⟩
        rw [rehashLoopN]
        rw [h1] at ne
        simp only [h1, h2, Arr.at, Arr.position, if_neg ne, if_neg ht]
        exact e1

/-- The loop of unique indices. -/
theorem rehashLoopU_spec (s0 : 0 < na.size) (so : ∀ i, ∀ g ∈ T0.B i, ∃ x, g = .one x) :
    ∀ (n : Nat) (t : Option Nat) (s : RS) (L : List (Nat × Grp)) (T1 : Tab), Popped T0 L T1 →
      Two s.h oa hd T1 na cpy (newTab hash na.size L) → s.log = logOf hash L → WithinOk L T1 s.within → T1.nodes.length = n →
      ∃ s' b L' T1', rehashLoopU hash na hd cpy n t s = (s', b) ∧ Popped T0 L' T1' ∧
        Two s'.h oa hd T1' na cpy (newTab hash na.size L') ∧ s'.log = logOf hash L' ∧ WithinOk L' T1' s'.within ∧
        (b = false ↔ T1'.nodes = []) ∧ (b = true ↔ ∃ k, t = some k ∧ k < T1.groups.length) := by
  intro n
  induction n with
  | zero =>
    intro t s L T1 p w lg wi hn
    have e : T1.nodes = [] := List.length_eq_zero_iff.1 hn
    exact ⟨s, false, L, T1, by cases t <;> rfl, p, w, lg, wi, ⟨fun _ => e, fun _ => rfl⟩, by simp [w.r1.groups_nil e]⟩
  | succ n ih =>
    intro t s L T1 p w lg wi hn
    have so1 : ∀ i, ∀ g ∈ T1.B i, ∃ x, g = .one x := fun i g hg => so i g (p.mem.2 i g hg)
    have e : T1.nodes ≠ [] := by rintro k; rw [k] at hn; simp at hn
    by_cases ht : t = some 0
    · refine ⟨s, true, L, T1, ?_, p, w, lg, wi, ⟨(fun k => nomatch k), fun k => absurd k e⟩, by simp only [true_iff]; exact ⟨0, ht, w.r1.groups_pos e⟩⟩
      subst ht
      rfl
    · obtain ⟨o, i, G, g, eo, hB⟩ := w.r1.last_group e
      obtain ⟨x, rfl⟩ := so1 i g (by rw [hB]; simp)
      obtain ⟨h1, h2, -, -, -⟩ := w.r1.popLast eo hB trivial
      have w2 := w.step (j := hash x % na.size) eo hB trivial (Nat.mod_lt _ s0)
      have len := put_nodes_length w.r1 eo hB
      have ef := put_dropLast_flat w.r1.ordnd eo hB oa.base
      have sp := w.r1.sep
      have c := w.r1.ring
      rw [ef] at sp c
      have ul := unlinkLast_eq sp c
      obtain ⟨s', b, L', T1', e1, e2, e3, e4, e5, e6, e7⟩ := ih (t.map (· - 1))
        { h := N.linkRange (N.unlinkLastGroup s.h hd).1 x x (na.base + hash x % na.size) cpy,
          log := (hash x, x) :: s.log, within := !(decide (G = [])) }
        ((i, .one x) :: L) (T1.put i G) (Popped.cons p eo hB) w2 (by simp [logOf, lg])
        (by rintro i' g' r ⟨⟩; simp [Tab.put]) (by simp only [Grp.toList_one, List.length_singleton] at len; omega)
      refine ⟨s', b, L', T1', ?_, e2, e3, e4, e5, e6, e7.trans (count_step ht (by rw [groups_split w.r1.ordnd eo hB]; simp))⟩
      rw [← e1]
      simp only [Grp.last_one, Grp.first_one] at h1 h2
      cases t with
      | none => simp only [rehashLoopU, h1, ul, h2, Arr.at, Arr.position, U.link_eq]
      | some k =>
        cases k with
        | zero => exact absurd rfl ht
        | succ k => simp only [rehashLoopU, h1, ul, h2, Arr.at, Arr.position, U.link_eq]

/-- The restoring loop: what `prev_buc` must be. -/
def PrevOk (L : List (Nat × Grp)) (T1 : Tab) (pb : Option Nat) : Prop :=
  ∀ i g r, L = (i, g) :: r → if pb = some i then ∃ o, T1.ord = o ++ [i] else T1.B i = []

theorem Popped.prevOk {T0 T1 : Tab} {L : List (Nat × Grp)} {o : List Nat} {i : Nat} (p : Popped T0 L T1) (e : T1.ord = o ++ [i]) (nd : T0.ord.Nodup) :
    PrevOk L T1 (some i) := by
  intro i' g r hL
  subst hL
  cases p with
  | @cons _ T o' i' G g p e' hB =>
    by_cases k : i = i'
    · subst k
      simp only [if_true]
      exact ⟨o, e⟩
    · rw [if_neg (by simpa using k)]
      have nd1 := p.ord_nd nd
      have ni : i' ∉ o' := by
        rw [e', List.nodup_append] at nd1
        exact fun k => nd1.2.2 i' k i' (by simp) rfl
      simp only [Tab.put] at e ⊢
      by_cases g0 : G = []
      · simp [g0]
      · exfalso
        have m : i' ∈ T.ord := by rw [e']; simp
        rw [if_neg g0, if_pos m, e'] at e
        have := List.append_inj_right' e rfl
        simp at this
        exact k this.symm

/-- One restoring step gives the table before the corresponding step. -/
theorem Popped.inv {T0 T2 : Tab} {L : List (Nat × Grp)} {i : Nat} {g : Grp} (p : Popped T0 ((i, g) :: L) T2) (nd : T0.ord.Nodup) :
    ∃ T1 o, Popped T0 L T1 ∧ T1.ord = o ++ [i] ∧ T2.put i (T2.B i ++ [g]) = T1 := by
  cases p with
  | @cons _ T o' i' G g p e' hB =>
    exact ⟨T, o', p, e', put_back (p.ord_nd nd) e' hB⟩

theorem newTab_ord (hash : Id → Nat) (size : Nat) : ∀ (L : List (Nat × Grp)) (j : Nat), j ∈ (newTab hash size L).ord ↔ (newTab hash size L).B j ≠ []
  | [], j => by simp [newTab, Tab.empty]
  | (_, g) :: L, j => by
    have ih := newTab_ord hash size L j
    simp only [newTab, Tab.put]
    rw [if_neg (by simp)]
    by_cases k : j = hash g.last % size
    · subst k
      simp only [upd_same, ne_eq, reduceCtorEq, not_false_eq_true, iff_true]
      split <;> simp_all
    · rw [upd_other _ _ k, ← ih]
      split
      · rfl
      · simp [k]

theorem put_undo {T : Tab} {j : Nat} {g : Grp} (hj : j ∈ T.ord ↔ T.B j ≠ []) : (T.put j (g :: T.B j)).put j (T.B j) = T := by
  obtain ⟨ord, B⟩ := T
  simp only at hj
  simp only [Tab.put, Tab.mk.injEq]
  constructor
  · rw [if_neg (by simp : ¬ (g :: B j = []))]
    by_cases k : B j = []
    · have nj : j ∉ ord := fun m => hj.1 m k
      rw [if_pos k, if_neg nj, List.erase_append_right _ nj]
      simp
    · have mj := hj.2 k
      simp [k, mj]
  · funext i
    by_cases k : i = j
    · subst k; simp
    · rw [upd_other _ _ k, upd_other _ _ k]

/-- The restoring loop of non-unique indices. -/
theorem restoreN_spec (s0 : 0 < oa.size) (nd : T0.ord.Nodup) (so : ∀ i, ∀ g ∈ T0.B i, g.Solid)
    (pl : ∀ i, ∀ g ∈ T0.B i, hash g.last % oa.size = i) :
    ∀ (L : List (Nat × Grp)) (h : Heap) (T1 : Tab) (pb : Option Nat), Popped T0 L T1 →
      Two h oa hd T1 na cpy (newTab hash na.size L) → PrevOk L T1 pb →
      Rep (restoreN oa hd pb (logOf hash L) h) oa hd T0
  | [], h, T1, pb, p, w, _ => by
    cases p
    exact w.r1
  | (i, g) :: L, h, T2, pb, p, w, po => by
    obtain ⟨T1, o, p1, e1, e2⟩ := p.inv nd
    have gm : g ∈ T0.B i := p.mem.1 (i, g) (by simp)
    have sg := so i g gm
    have hB2 : (newTab hash na.size ((i, g) :: L)).B (hash g.last % na.size) = g :: (newTab hash na.size L).B (hash g.last % na.size) := by
      simp [newTab, Tab.put]
    have wb := w.back (i := i) hB2 sg
    have rs := w.r2.rangeStart (G1 := []) hB2 sg
    have hp := pl i g gm
    have un : (newTab hash na.size ((i, g) :: L)).put (hash g.last % na.size) ((newTab hash na.size L).B (hash g.last % na.size)) =
        newTab hash na.size L := put_undo (newTab_ord hash na.size L _)
    rw [un] at wb
    have po' := po i g L rfl
    have il : i < oa.size := by rw [← hp]; exact Nat.mod_lt _ s0
    simp only [logOf, List.map_cons, restoreN, rs, Arr.position, hp, Arr.at]
    by_cases k : pb = some i
    · rw [if_pos k] at po' ⊢
      obtain ⟨o', eo⟩ := po'
      have w' := wb.2 o' eo
      rw [e2] at w'
      exact restoreN_spec s0 nd so pl L _ T1 _ p1 w' (p1.prevOk e1 nd)
    · rw [if_neg k] at po' ⊢
      have w' := wb.1 po' il
      rw [po', List.nil_append] at e2
      rw [e2] at w'
      exact restoreN_spec s0 nd so pl L _ T1 _ p1 w' (p1.prevOk e1 nd)

theorem nodes_groups (T : Tab) : T.nodes = gnodes T.groups := by
  simp [Tab.nodes, nodesO, Tab.groups, gnodes, List.flatMap_assoc]

/-- The restoring loop of unique indices. -/
theorem restoreU_spec {h0 : Heap} (r0 : Rep h0 oa hd T0) (s0 : 0 < oa.size) (so : ∀ i, ∀ g ∈ T0.B i, ∃ x, g = .one x)
    (pl : ∀ i, ∀ g ∈ T0.B i, hash g.last % oa.size = i) :
    ∀ (L : List (Nat × Grp)) (h : Heap) (T1 : Tab) (pb : Option Nat), Popped T0 L T1 →
      Rep h oa hd T1 → PrevOk L T1 pb →
      Rep (restoreU oa hd pb (logOf hash L) h) oa hd T0
  | [], h, T1, pb, p, r, _ => by
    cases p
    exact r
  | (i, g) :: L, h, T2, pb, p, r, po => by
    obtain ⟨T1, o, p1, e1, e2⟩ := p.inv r0.ordnd
    have gm : g ∈ T0.B i := p.mem.1 (i, g) (by simp)
    obtain ⟨x, rfl⟩ := so i g gm
    have hp := pl i _ gm
    have po' := po i _ L rfl
    have il : i < oa.size := by rw [← hp]; exact Nat.mod_lt _ s0
    have xm : x ∈ T0.nodes := r0.mem_nodes.2 ⟨i, mem_gnodes.2 ⟨_, gm, by simp⟩⟩
    have gr := p.groups r0.ordnd
    have fr : ∀ y ∈ (Grp.one x).toList, Fresh oa hd T2 y := by
      intro y hy
      simp only [Grp.toList_one, List.mem_singleton] at hy
      subst hy
      refine ⟨fun k => r0.nz (by simp [← k, xm]), ?_, r0.dis y (by simp [xm])⟩
      have nd := r0.nd
      rw [nodes_groups, gr, gnodes_append, List.nodup_cons, List.nodup_append] at nd
      intro k
      rcases List.mem_cons.1 k with k | k
      · exact (List.nodup_cons.1 r0.nd).1 (k ▸ xm)
      · rw [nodes_groups] at k
        exact nd.2.2.2 y k y (by simp) rfl
    simp only [Grp.last_one] at hp
    simp only [logOf, List.map_cons, restoreU, Arr.position, Grp.last_one, hp, Arr.at, U.append_eq, U.link_eq]
    by_cases k : pb = some i
    · rw [if_pos k] at po' ⊢
      obtain ⟨o', eo⟩ := po'
      have w' := (r.appendLast (g := .one x) eo trivial (by simp) fr).1
      rw [e2] at w'
      exact restoreU_spec r0 s0 so pl L _ T1 _ p1 w' (p1.prevOk e1 r0.ordnd)
    · rw [if_neg k] at po' ⊢
      have w' := (r.linkRange (g := .one x) il trivial (by simp) fr).1
      rw [po', List.nil_append] at e2
      rw [po', e2] at w'
      exact restoreU_spec r0 s0 so pl L _ T1 _ p1 w' (p1.prevOk e1 r0.ordnd)

theorem prevBuc_ok {T1 : Tab} {s : RS} (p : Popped T0 L T1) (pl : ∀ i, ∀ g ∈ T0.B i, hash g.last % oa.size = i)
    (lg : s.log = logOf hash L) (wi : WithinOk L T1 s.within) : PrevOk L T1 (prevBuc oa s) := by
  intro i g r hL
  subst hL
  have gm : g ∈ T0.B i := p.mem.1 (i, g) (by simp)
  have hp := pl i g gm
  have w := wi i g r rfl
  simp only [prevBuc, lg, logOf, List.map_cons, Arr.position, hp]
  by_cases k : s.within = true
  · rw [if_pos k]
    simp only [if_true]
    have ne := w.1 k
    cases p with
    | @cons _ T o' i' G g p e' hB =>
      simp only [Tab.put, upd_same] at ne ⊢
      have m : i ∈ T.ord := by rw [e']; simp
      rw [if_neg ne, if_pos m]
      exact ⟨o', e'⟩
  · rw [if_neg k]
    simp only [reduceCtorEq, if_false]
    by_contra q
    exact k (w.2 q)

/-! ## The end of rehashing -/

/-- The links of the local node are taken over by the header. -/
theorem rehashFinish_rep {T : Tab} (r : Rep h na cpy T) (fr : Fresh na cpy T hd) :
    Rep (rehashFinish h hd cpy) na hd T := by
  obtain ⟨e1, e2, e3, e4, e5, e6, e7, e8⟩ := ring_end r.sep r.ring
  have hdn : hd ∉ T.nodes := fun k => fr.2.1 (by simp [k])
  have hc : hd ≠ cpy := fun k => fr.2.1 (by simp [k])
  have bm := r.begin
  have n0 : 0 ∉ T.nodes := fun k => r.nz (by simp [k])
  have ebn : na.endB ∉ T.nodes := by
    intro k
    have := r.dis _ (List.mem_cons_of_mem _ k)
    unfold Arr.endB at this
    simp only [Id] at *
    omega
  have ehd : na.endB ≠ hd := by
    intro k
    have := fr.2.2
    rw [← k] at this
    unfold Arr.endB at this
    simp only [Id] at *
    omega
  have hr : Ring (rehashFinish h hd cpy) hd na.endB (T.flat na.base) ∧
      (∀ i, i < na.size → T.B i = [] → (rehashFinish h hd cpy).prior (na.base + i) = h.prior (na.base + i)) := by
    cases hf : T.flat na.base with
    | nil =>
      have tn : T.nodes = [] := by rw [← r.nodesS, hf]; rfl
      rw [hf] at e1 e2
      simp only [lastOf_nil] at e1 e2
      constructor
      · refine ⟨⟨?_, ?_, ?_⟩, trivial, trivial⟩
        · simp [rehashFinish, Heap.setPrior, Heap.setNext, upd, e1, e2, e3, hc, Ne.symm hc, ehd, Ne.symm ehd, e4, Ne.symm e4]
        · simp [rehashFinish, Heap.setPrior, Heap.setNext, upd, e1, e2, e3, hc, Ne.symm hc, ehd, Ne.symm ehd, e4, Ne.symm e4]
        · rintro b ⟨⟩
          simp [rehashFinish, Heap.setPrior, Heap.setNext, upd, e1, e2, e3, hc, Ne.symm hc, ehd, Ne.symm ehd, e4, Ne.symm e4]
      · intro i hi _
        have b1 := (r.bucket_notin hi).1
        simp only [List.mem_cons, not_or] at b1
        have b2 : na.base + i ≠ hd := by
          intro k
          have := fr.2.2
          rw [← k] at this
          unfold Arr.endB at this
          simp only [Id] at *
          omega
        have b3 : na.base + i ≠ na.endB := by unfold Arr.endB; simp only [Id] at *; omega
        simp [rehashFinish, Heap.setPrior, Heap.setNext, upd, e1, e2, e3, hc, Ne.symm hc, ehd, Ne.symm ehd, e4, Ne.symm e4, b1.1, b2, b3]
    | cons s fs =>
      obtain ⟨ob, g⟩ := s
      have c := r.ring
      have sp := r.sep
      rw [hf] at c sp e1 e2 e7 e8
      obtain ⟨b, rfl⟩ : ∃ b, ob = some b := by
        have hu : T.flat na.base = flatO T.B na.base T.ord := rfl
        obtain ⟨b, g', post, hh⟩ := close_head cpy na.endB T.B na.base T.ord (fun i hi => (r.ordB i).1 hi)
        rw [← hu, hf] at hh
        simp only [close, List.cons_append, List.cons.injEq, Prod.mk.injEq] at hh
        exact ⟨b, hh.1.1⟩
      have gT : ∀ z ∈ nodesS ((some b, g) :: fs), z ∈ T.nodes := by
        intro z hz
        rw [← r.nodesS, hf]
        exact hz
      obtain ⟨z, hz⟩ : ∃ z, lastOf cpy ((some b, g) :: fs) = z := ⟨_, rfl⟩
      rw [hz] at e1 e2 e7 e8
      have zn : z ∈ nodesS ((some b, g) :: fs) := by
        have := lastOf_mem g.last fs
        simp only [lastOf] at hz
        rw [hz] at this
        rw [nodesS_cons, List.mem_append]
        rcases List.mem_cons.1 this with k | k
        · exact Or.inl (k ▸ g.last_mem)
        · exact Or.inr k
      have zc : z ≠ cpy := fun k => (List.nodup_cons.1 r.nd).1 (k ▸ gT z zn)
      have zh : z ≠ hd := fun k => hdn (k ▸ gT z zn)
      obtain ⟨⟨j1, j2, j3⟩, c2, c3⟩ := c
      simp only [Option.getD_some] at j2
      have j3 := j3 b rfl
      have gfT : g.first ∈ T.nodes := gT _ (by simp [g.first_mem])
      have bb : b ∈ Hash.bucks (T.flat na.base) := by rw [hf]; simp
      have bk : ∀ y ∈ Hash.bucks (T.flat na.base), y ∉ T.nodes ∧ y ≠ hd ∧ y ≠ na.endB := by
        intro y hy
        have := r.bucks
        rw [this, List.mem_map] at hy
        obtain ⟨i, hi, rfl⟩ := hy
        have lt := r.ordlt i hi
        refine ⟨fun k => (r.bucket_notin lt).1 (by simp [k]), ?_, ?_⟩
        · intro k
          have := fr.2.2
          rw [← k] at this
          unfold Arr.endB at this
          simp only [Id] at *
          omega
        · unfold Arr.endB; simp only [Id] at *; omega
      have fe : g.first ≠ na.endB := fun k => ebn (k ▸ gfT)
      have fh : g.first ≠ hd := fun k => hdn (k ▸ gfT)
      have bh := (bk b bb).2.1
      have bc : b ≠ g.first := fun k => (bk b bb).1 (k ▸ gfT)
      have be := (bk b bb).2.2
      have hp : (rehashFinish h hd cpy).prior = upd (upd (upd h.prior hd z) g.first hd) na.endB hd := by
        simp [rehashFinish, Heap.setPrior, Heap.setNext, upd, e1, zc, hc, Ne.symm hc, j2, j3, bh, bc, fh, Ne.symm fh, zh, e2]
      have hn : (rehashFinish h hd cpy).next = upd h.next hd b := by
        simp [rehashFinish, Heap.setPrior, Heap.setNext, upd, e1, zc, hc, Ne.symm hc, j2]
      constructor
      · have agp : ∀ y, y ≠ hd → y ≠ g.first → y ≠ na.endB → (rehashFinish h hd cpy).prior y = h.prior y := by
          intro y h1 h2 h3
          rw [hp, upd_other _ _ h3, upd_other _ _ h2, upd_other _ _ h1]
        have agn : ∀ y, y ≠ hd → (rehashFinish h hd cpy).next y = h.next y := by
          intro y h1
          rw [hn, upd_other _ _ h1]
        have spnd := sp.1
        simp only [close, List.cons_append, nodesS_cons, nodesS_append, nodesS_nil, bucks_some, bucks_append, bucks_nil, Grp.toList_one,
          List.append_nil] at spnd
        have gnd : (g.toList ++ nodesS fs).Nodup := by
          have := (List.nodup_append.1 spnd).1
          rw [← List.append_assoc] at this
          exact (List.nodup_append.1 this).1
        have gf : g.toList = g.first :: g.toList.tail := g.toList_eq_first
        have tl : ∀ y ∈ g.toList.tail ++ nodesS fs, y ≠ hd ∧ y ≠ g.first ∧ y ≠ na.endB := by
          intro y hy
          have hm : y ∈ nodesS ((some b, g) :: fs) := by
            rw [nodesS_cons, gf]
            exact List.mem_cons_of_mem _ hy
          refine ⟨fun k => hdn (k ▸ gT y hm), ?_, fun k => ebn (k ▸ gT y hm)⟩
          rw [gf] at gnd
          rintro rfl
          exact (List.nodup_cons.1 gnd).1 hy
        refine ⟨⟨?_, ?_, ?_⟩, ?_, ?_⟩
        · rw [hp, upd_other _ _ fe]; simp
        · rw [hn]; simp
        · rintro b' ⟨⟩
          rw [agp b bh bc be]
          exact j3
        · refine c2.congr (fun y hy => ?_) (fun y hy => ?_)
          · have := tl y (by simp [hy])
            exact agp y this.1 this.2.1 this.2.2
          · refine agn y (fun k => hdn (k ▸ gT y ?_))
            rw [nodesS_cons]
            exact List.mem_append_left _ (List.dropLast_subset _ hy)
        · have c3' := Chain.append.1 c3
          change Chain _ g.last (fs ++ [(some na.endB, .one hd)])
          rw [Chain.append]
          refine ⟨c3'.1.congr (fun y hy => ?_) (fun y hy => ?_) (fun y hy => ?_), ?_⟩
          · have := tl y (by simp [hy])
            exact agp y this.1 this.2.1 this.2.2
          · have hy' : y ∈ Hash.bucks (T.flat na.base) := by rw [hf]; simp [hy]
            have := bk y hy'
            exact agp y this.2.1 (fun k => this.1 (k ▸ gfT)) this.2.2
          · refine agn y (fun k => hdn (k ▸ gT y ?_))
            rw [nodesS_cons, List.mem_append]
            rcases List.mem_cons.1 (List.dropLast_subset _ hy) with k | k
            · exact Or.inl (k ▸ g.last_mem)
            · exact Or.inr k
          · simp only [lastOf] at hz
            rw [hz]
            refine ⟨⟨?_, ?_, ?_⟩, trivial, trivial⟩
            · simp only [Grp.first_one]
              rw [hp, upd_other _ _ (Ne.symm ehd), upd_other _ _ (Ne.symm fh)]
              simp
            · simp only [Option.getD_some]
              rw [agn z zh, e2]
            · rintro b' ⟨⟩
              rw [hp]; simp
      · intro i hi hB
        have b1 := (r.bucket_notin hi).1
        have b2 : na.base + i ≠ hd := by
          intro k
          have := fr.2.2
          rw [← k] at this
          unfold Arr.endB at this
          simp only [Id] at *
          omega
        have b3 : na.base + i ≠ na.endB := by unfold Arr.endB; simp only [Id] at *; omega
        rw [hp, upd_other _ _ b3, upd_other _ _ (fun k => b1 (by rw [k]; simp [gfT])), upd_other _ _ b2]
  refine ⟨hr.1, ?_, ?_, r.b0, ?_, r.ordnd, r.ordB, r.ordlt, ?_⟩
  · exact List.nodup_cons.2 ⟨hdn, (List.nodup_cons.1 r.nd).2⟩
  · simp only [List.mem_cons, not_or]
    exact ⟨Ne.symm fr.1, n0⟩
  · intro y hy
    rcases List.mem_cons.1 hy with rfl | hy
    · exact fr.2.2
    · exact r.dis y (by simp [hy])
  · intro i hi hB
    rw [hr.2 i hi hB]
    exact r.emp i hi hB

end
end MI.Hash
