import Verif.Hash.Trav
import Verif.Spec.Hash
set_option linter.unusedSimpArgs false
/-! Lookup in hashed indices. -/
namespace MI.Hash
open MI

/-- The table is well formed: every element is in the bucket its hash value selects, groups consist of equal elements and
different groups of different ones; unique indices have no groups of two or more. -/
structure Good (c : Cat) (size : Nat) (eq : Id → Id → Bool) (hash : Id → Nat) (T : Tab) : Prop where
  place : ∀ i, ∀ x ∈ gnodes (T.B i), hash x % size = i
  same : ∀ i, ∀ g ∈ T.B i, ∀ x ∈ g.toList, ∀ y ∈ g.toList, eq x y = true
  diff : ∀ i, (T.B i).Pairwise (fun g g' => ∀ x ∈ g.toList, ∀ y ∈ g'.toList, eq x y = false)
  cat : OfCat c T

/-- The index with header `hd` and bucket array `a` holds the elements `xs`, in traversal order, and is well formed. -/
def Holds (c : Cat) (eq : Id → Id → Bool) (hash : Id → Nat) (h : Heap) (a : Arr) (hd : Id) (xs : List Id) : Prop :=
  0 < a.size ∧ ∃ T, Rep h a hd T ∧ Good c a.size eq hash T ∧ T.nodes = xs

section
variable {c : Cat} {eq : Id → Id → Bool} {hash : Id → Nat} {h : Heap} {a : Arr} {hd : Id} {T : Tab}

/-- Elements of different groups of a bucket are different. -/
theorem Good.apart (g : Good c a.size eq hash T) (eh : EqHash eq hash) {i : Nat} {G1 G2 : List Grp} {q : Grp} (hB : T.B i = G1 ++ q :: G2) :
    (∀ g1 ∈ G1, ∀ x ∈ q.toList, ∀ y ∈ g1.toList, eq x y = false) ∧ (∀ g2 ∈ G2, ∀ x ∈ q.toList, ∀ y ∈ g2.toList, eq x y = false) := by
  have := g.diff i
  rw [hB, List.pairwise_append] at this
  obtain ⟨-, h2, h3⟩ := this
  rw [List.pairwise_cons] at h2
  refine ⟨fun g1 m x hx y hy => ?_, fun g2 m x hx y hy => h2.1 g2 m x hx y hy⟩
  rw [eh.comm]
  exact h3 g1 m q (by simp) y hy x hx

/-- Where the elements satisfying `p` are. -/
theorem Rep.group_of (r : Rep h a hd T) (gd : Good c a.size eq hash T) (eh : EqHash eq hash) {p : Id → Bool} {hk : Nat}
    (ext : ∀ x y, p x = true → eq x y = true → p y = true) (one : ∀ x y, p x = true → p y = true → eq x y = true)
    (cons : ∀ x, p x = true → hk = hash x) {x : Id} (xm : x ∈ T.nodes) (px : p x = true) :
    ∃ G1 g G2 pre post, T.B (hk % a.size) = G1 ++ g :: G2 ∧ x ∈ g.toList ∧ T.nodes = pre ++ g.toList ++ post ∧
      (∀ y ∈ g.toList, p y = true) ∧ (∀ y ∈ pre ++ post, p y = false) ∧ (∀ y ∈ gnodes G1 ++ gnodes G2, p y = false) := by
  obtain ⟨i, xi⟩ := r.mem_nodes.1 xm
  have hi : i = hk % a.size := by rw [cons x px]; exact (gd.place i x xi).symm
  obtain ⟨g, gm, xg⟩ := mem_gnodes.1 xi
  obtain ⟨G1, G2, hB⟩ := List.append_of_mem gm
  obtain ⟨o1, o2, e⟩ := List.append_of_mem ((r.ordB i).2 (by rw [hB]; simp))
  have hn : T.nodes = (nodesO T.B o1 ++ gnodes G1) ++ g.toList ++ (gnodes G2 ++ nodesO T.B o2) := by
    rw [nodes_split e, hB]; simp
  have pg : ∀ y ∈ g.toList, p y = true := fun y hy => ext x y px (gd.same i g gm x xg y hy)
  have ap := gd.apart eh hB
  have pG : ∀ y ∈ gnodes G1 ++ gnodes G2, p y = false := by
    intro y hy
    by_contra k
    have k : p y = true := by simpa using k
    have exy := one x y px k
    rw [List.mem_append, mem_gnodes, mem_gnodes] at hy
    rcases hy with ⟨g1, m, hy⟩ | ⟨g1, m, hy⟩
    · rw [ap.1 g1 m x xg y hy] at exy; cases exy
    · rw [ap.2 g1 m x xg y hy] at exy; cases exy
  have po : ∀ o, (∀ j ∈ o, j ≠ i) → ∀ y ∈ nodesO T.B o, p y = false := by
    intro o ho y hy
    simp only [nodesO, List.mem_flatMap] at hy
    obtain ⟨j, hj, hy⟩ := hy
    by_contra k
    have k : p y = true := by simpa using k
    have := gd.place j y hy
    rw [← cons y k, ← hi] at this
    exact ho j hj this.symm
  have ordnd := r.ordnd
  rw [e] at ordnd
  have n1 : ∀ j ∈ o1, j ≠ i := fun j hj => (List.nodup_append.1 ordnd).2.2 j hj i (by simp)
  have n2 : ∀ j ∈ o2, j ≠ i := by
    rintro j hj rfl
    exact (List.nodup_cons.1 (List.nodup_append.1 ordnd).2.1).1 hj
  subst hi
  refine ⟨G1, g, G2, _, _, hB, xg, hn, pg, ?_, pG⟩
  intro y hy
  simp only [List.mem_append] at hy pG
  rcases hy with (hy | hy) | hy | hy
  · exact po o1 n1 y hy
  · exact pG y (Or.inl hy)
  · exact pG y (Or.inr hy)
  · exact po o2 n2 y hy

/-- The inspection loop over groups that are not of two elements. -/
theorem findLoop_solid (r : Rep h a hd T) (oc : OfCat c T) (so : ∀ i, ∀ g ∈ T.B i, g.Solid) (p : Id → Bool) {i : Nat} :
    ∀ (R G : List Grp) (n : Nat), T.B i = G ++ R → R.length ≤ n →
      findLoop c p h n ((gnodes R).headD 0) = .ok ((R.find? (fun g => p g.first)).map Grp.first)
  | [], G, n, _, _ => by cases n <;> simp [findLoop]
  | g :: R, G, 0, _, hn => by simp at hn
  | g :: R, G, n + 1, hB, hn => by
    have hg : (gnodes (g :: R)).headD 0 = g.first := by rw [gnodes_cons, g.toList_eq_first]; simp
    have g0 : g.first ≠ 0 := by
      intro k
      apply r.nz
      rw [← k]
      right
      exact r.mem_nodes.2 ⟨i, by rw [hB]; simp [g.first_mem]⟩
    rw [hg, findLoop, if_neg g0]
    by_cases hp : p g.first = true
    · simp [hp]
    · have hp : p g.first = false := by simpa using hp
      rw [if_neg (by simp [hp]), r.inspect oc hB (so i g (by rw [hB]; simp)),
        findLoop_solid r oc so p R (G ++ [g]) n (by rw [hB]; simp) (by simpa using hn)]
      simp [List.find?_cons, hp]

/-- The inspection loop. -/
theorem findLoop_spec (r : Rep h a hd T) (oc : OfCat c T) (p : Id → Bool) {i n : Nat} (hi : i < a.size)
    (hn : T.nodes.length ≤ n) :
    findLoop c p h n (h.prior (a.base + i)) =
      .ok ((((T.B i).flatMap Grp.parts).find? (fun g => p g.first)).map Grp.first) := by
  have r' := rep_parts.2 r
  rw [r'.bucketFirst hi]
  refine findLoop_solid r' oc.parts (fun i g hg => parts_solid T i g hg) p _ [] n rfl ?_
  have len : ∀ gs : List Grp, gs.length ≤ (gnodes gs).length := by
    intro gs
    induction gs with
    | nil => simp
    | cons g r ih =>
      have := List.length_pos_iff.2 g.toList_ne
      simp only [gnodes_cons, List.length_cons, List.length_append]
      omega
  have h1 := len (T.parts.B i)
  have h2 : (gnodes (T.parts.B i)).length ≤ T.nodes.length := by
    have : gnodes (T.parts.B i) = gnodes (T.B i) := gnodes_parts _
    rw [this]
    by_cases hB : T.B i = []
    · rw [hB]; simp
    · obtain ⟨o1, o2, e⟩ := List.append_of_mem ((r.ordB i).2 hB)
      rw [nodes_split e]
      simp only [List.length_append]
      omega
  exact Nat.le_trans (Nat.le_trans h1 h2) hn

theorem find_parts_skip {p : Id → Bool} {R : List Grp} (hp : ∀ y ∈ gnodes R, p y = false) :
    (R.flatMap Grp.parts).find? (fun g => p g.first) = none := by
  rw [List.find?_eq_none]
  intro g hg k
  have : g.first ∈ gnodes (R.flatMap Grp.parts) := mem_gnodes.2 ⟨g, hg, g.first_mem⟩
  rw [gnodes_parts] at this
  rw [hp _ this] at k
  cases k

theorem find_parts_hit {p : Id → Bool} {G1 G2 : List Grp} {g : Grp} (hp : ∀ y ∈ gnodes G1, p y = false) (pg : p g.first = true) :
    (((G1 ++ g :: G2).flatMap Grp.parts).find? (fun g => p g.first)).map Grp.first = some g.first := by
  rw [List.flatMap_append, List.flatMap_cons, List.find?_append, find_parts_skip hp]
  cases g with
  | one x => simp [Grp.parts] at pg ⊢; simp [pg]
  | many f mid l =>
    cases mid with
    | nil => simp [Grp.parts] at pg ⊢; simp [pg]
    | cons s r => simp [Grp.parts] at pg ⊢; simp [pg]

/-- The result of the inspection: nothing if no element satisfies `p`, else the first element of the group. -/
theorem findLoop_good (r : Rep h a hd T) (gd : Good c a.size eq hash T) (eh : EqHash eq hash) {p : Id → Bool} {hk n : Nat}
    (s0 : 0 < a.size) (hn : T.nodes.length ≤ n) (ext : ∀ x y, p x = true → eq x y = true → p y = true)
    (one : ∀ x y, p x = true → p y = true → eq x y = true) (cons : ∀ x, p x = true → hk = hash x) :
    (findLoop c p h n (h.prior (a.at (a.position hk))) = .ok none ∧ ∀ y ∈ T.nodes, p y = false) ∨
      ∃ G1 g G2 pre post, findLoop c p h n (h.prior (a.at (a.position hk))) = .ok (some g.first) ∧
        T.B (hk % a.size) = G1 ++ g :: G2 ∧ T.nodes = pre ++ g.toList ++ post ∧ (∀ y ∈ g.toList, p y = true) ∧
        (∀ y ∈ pre ++ post, p y = false) := by
  have hl := Nat.mod_lt hk s0
  have fs := findLoop_spec r gd.cat p hl hn
  unfold Arr.at Arr.position
  by_cases hx : ∃ x ∈ T.nodes, p x = true
  · obtain ⟨x, xm, px⟩ := hx
    obtain ⟨G1, g, G2, pre, post, hB, xg, hno, h1, h2, h3⟩ := r.group_of gd eh ext one cons xm px
    right
    refine ⟨G1, g, G2, pre, post, ?_, hB, hno, h1, h2⟩
    rw [fs, hB, find_parts_hit (fun y hy => h3 y (by simp [hy])) (h1 _ g.first_mem)]
  · left
    have hx : ∀ y ∈ T.nodes, p y = false := by
      intro y hy
      by_contra k
      exact hx ⟨y, hy, by simpa using k⟩
    refine ⟨?_, hx⟩
    rw [fs, find_parts_skip]
    · rfl
    · intro y hy
      exact hx y (r.mem_nodes.2 ⟨_, hy⟩)

/-- The counting loop. -/
theorem countLoop_spec (r : Rep h a hd T) (oc : OfCat c T) {post : List Id} :
    ∀ (v u : List Id) (x : Id) (n res : Nat), T.nodes = u ++ x :: v ++ post → v.length < n →
      countLoop c h (post.headD hd) n x res = .ok (res + (v.length + 1))
  | [], u, x, 0, res, _, hn => by simp at hn
  | [], u, x, n + 1, res, e, _ => by
    have := r.after oc (x := x) (u := u) (v := post) (by rw [e]; simp)
    simp [countLoop, this]
  | y :: v, u, x, 0, res, _, hn => by simp at hn
  | y :: v, u, x, n + 1, res, e, hn => by
    have := r.after oc (x := x) (u := u) (v := y :: v ++ post) (by rw [e]; simp)
    simp only [List.cons_append, List.headD_cons] at this
    have ne : y ≠ post.headD hd := by
      have nd := r.nd
      rw [e] at nd
      simp only [List.append_assoc, List.cons_append] at nd
      cases post with
      | nil =>
        rintro rfl
        simp at nd
      | cons z post =>
        rintro rfl
        simp only [List.headD_cons, List.nodup_cons, List.nodup_append] at nd
        have := nd.2.2.1.2.1
        simp at this
    rw [countLoop]
    simp only [this, if_neg ne]
    rw [countLoop_spec r oc v (u ++ [x]) y n (res + 1) (by rw [e]; simp) (by simpa using hn)]
    simp only [List.length_cons]
    congr 1
    omega

/-- `link_point` in terms of the inspection loop. -/
theorem linkPointU_eq (p : Id → Bool) (h : Heap) : ∀ n x, linkPointU p h n x = findLoop .uniq p h n x
  | 0, x => rfl
  | n + 1, x => by
    simp only [linkPointU, findLoop]
    rw [linkPointU_eq p h n]
    rfl

theorem linkPointN_eq (eq : Id → Id → Bool) (p : Id → Bool) (h : Heap) : ∀ n x, linkPointN eq p h n x =
    match findLoop .multi p h n x with
    | .ok o => .ok (o.map fun x => (x, lastOfRange .multi eq h x))
    | .threw _ => .hang
    | .ub => .ub
    | .hang => .hang
  | 0, x => by by_cases e : x = 0 <;> simp [linkPointN, findLoop, e]
  | n + 1, x => by
    simp only [linkPointN, findLoop]
    split
    · rfl
    · split
      · rfl
      · rw [linkPointN_eq eq p h n]; rfl

/-- What `link_point` finds for a value: rejection in unique indices by an equal element; else the bucket or the group. -/
theorem linkPoint_spec (r : Rep h a hd T) (gd : Good c a.size eq hash T) (eh : EqHash eq hash) {n : Nat} (x : Id)
    (s0 : 0 < a.size) (hn : T.nodes.length ≤ n) :
    ((∀ y ∈ T.nodes, eq x y = false) ∧
      linkPoint n c eq (eq x) (hash x) h a = .ok (.accept (.bucket (a.base + hash x % a.size)))) ∨
    ∃ G1 g G2, T.B (hash x % a.size) = G1 ++ g :: G2 ∧ (∀ y ∈ g.toList, eq x y = true) ∧
      ((c = .uniq ∧ linkPoint n c eq (eq x) (hash x) h a = .ok (.reject g.first)) ∨
       (c = .multi ∧ linkPoint n c eq (eq x) (hash x) h a = .ok (.accept (.group g.first g.last)))) := by
  have := findLoop_good (c := c) (p := eq x) (hk := hash x) (n := n) r gd eh s0 hn (fun y z h1 h2 => eh.trans h1 h2)
    (fun y z h1 h2 => eh.trans (eh.symm h1) h2) (fun y h1 => eh.cons h1)
  rcases this with ⟨h1, h2⟩ | ⟨G1, g, G2, pre, post, h1, hB, hno, h2, h3⟩
  · left
    refine ⟨h2, ?_⟩
    unfold Arr.at Arr.position at h1
    cases c with
    | uniq => simp only [linkPoint, linkPointU_eq, Arr.at, Arr.position, h1]
    | multi => simp only [linkPoint, linkPointN_eq, Arr.at, Arr.position, h1, Option.map_none]
  · right
    refine ⟨G1, g, G2, hB, h2, ?_⟩
    unfold Arr.at Arr.position at h1
    cases c with
    | uniq =>
      left
      refine ⟨rfl, ?_⟩
      simp only [linkPoint, linkPointU_eq, Arr.at, Arr.position, h1]
    | multi =>
      right
      refine ⟨rfl, ?_⟩
      have ap := gd.apart eh hB
      have := (r.range gd.cat hB (gd.same _ g (by rw [hB]; simp)) (fun g2 m => ap.2 g2 m _ g.first_mem _ g2.first_mem)).1
      simp only [linkPoint, linkPointN_eq, Arr.at, Arr.position, h1, Option.map_some, this]

/-! ## Insertion and removal keep the table well formed -/

/-- The bucket has one more element, in a group of its own. -/
theorem Good.addOne (gd : Good c a.size eq hash T) (eh : EqHash eq hash) {x : Id} {i : Nat} {G1 G2 : List Grp} (hi : hash x % a.size = i)
    (hB : T.B i = G1 ++ G2) (hne : ∀ y ∈ gnodes (T.B i), eq x y = false) :
    Good c a.size eq hash (T.put i (G1 ++ .one x :: G2)) := by
  constructor
  · intro j y hy
    simp only [Tab.put] at hy
    by_cases e : j = i
    · subst e
      simp only [upd_same, gnodes_append, gnodes_cons, Grp.toList_one, List.mem_append, List.mem_singleton] at hy
      by_cases k : y = x
      · rw [k, hi]
      · refine gd.place _ y ?_
        rw [hB]
        simp only [gnodes_append, List.mem_append]
        tauto
    · rw [upd_other _ _ e] at hy
      exact gd.place j y hy
  · intro j g hg
    simp only [Tab.put] at hg
    by_cases e : j = i
    · subst e
      simp only [upd_same, List.mem_append, List.mem_cons] at hg
      rcases hg with hg | rfl | hg
      · exact gd.same _ g (by rw [hB]; simp [hg])
      · simp only [Grp.toList_one, List.mem_singleton, forall_eq]
        exact eh.refl x
      · exact gd.same _ g (by rw [hB]; simp [hg])
    · rw [upd_other _ _ e] at hg
      exact gd.same j g hg
  · intro j
    simp only [Tab.put]
    by_cases e : j = i
    · subst e
      simp only [upd_same]
      have d := gd.diff j
      rw [hB, List.pairwise_append] at d
      rw [List.pairwise_append, List.pairwise_cons]
      refine ⟨d.1, ⟨?_, d.2.1⟩, ?_⟩
      · intro g hg z hz y hy
        simp only [Grp.toList_one, List.mem_singleton] at hz
        subst hz
        exact hne y (by rw [hB]; simp only [gnodes_append, List.mem_append]; exact Or.inr (mem_gnodes.2 ⟨g, hg, hy⟩))
      · intro g hg g' hg' y hy z hz
        rcases List.mem_cons.1 hg' with rfl | hg'
        · simp only [Grp.toList_one, List.mem_singleton] at hz
          subst hz
          rw [eh.comm]
          exact hne y (by rw [hB]; simp only [gnodes_append, List.mem_append]; exact Or.inl (mem_gnodes.2 ⟨g, hg, hy⟩))
        · exact d.2.2 g hg g' hg' y hy z hz
    · rw [upd_other _ _ e]
      exact gd.diff j
  · intro hc j g hg
    simp only [Tab.put] at hg
    by_cases e : j = i
    · subst e
      simp only [upd_same, List.mem_append, List.mem_cons] at hg
      rcases hg with hg | rfl | hg
      · exact gd.cat hc _ g (by rw [hB]; simp [hg])
      · exact ⟨x, rfl⟩
      · exact gd.cat hc _ g (by rw [hB]; simp [hg])
    · rw [upd_other _ _ e] at hg
      exact gd.cat hc j g hg

theorem Good.linkBucket (gd : Good c a.size eq hash T) (eh : EqHash eq hash) {x : Id} (hne : ∀ y ∈ gnodes (T.B (hash x % a.size)), eq x y = false) :
    Good c a.size eq hash (T.put (hash x % a.size) (.one x :: T.B (hash x % a.size))) :=
  gd.addOne eh (G1 := []) rfl rfl hne

/-- A group of the bucket has one more element. -/
theorem Good.join (gd : Good .multi a.size eq hash T) (eh : EqHash eq hash) {x : Id} {i : Nat} {G1 G2 : List Grp} {g g' : Grp}
    (hi : hash x % a.size = i) (hB : T.B i = G1 ++ g :: G2) (he : ∀ y ∈ g.toList, eq x y = true)
    (hg : ∀ y, y ∈ g'.toList ↔ y = x ∨ y ∈ g.toList) : Good .multi a.size eq hash (T.put i (G1 ++ g' :: G2)) := by
  have gm : g ∈ T.B i := by rw [hB]; simp
  have ap := gd.apart eh hB
  constructor
  · intro j y hy
    simp only [Tab.put] at hy
    by_cases e : j = i
    · subst e
      simp only [upd_same, gnodes_append, gnodes_cons, hg, List.mem_append] at hy
      by_cases k : y = x
      · rw [k, hi]
      · refine gd.place _ y ?_
        rw [hB]
        simp only [gnodes_append, gnodes_cons, List.mem_append]
        tauto
    · rw [upd_other _ _ e] at hy
      exact gd.place j y hy
  · intro j q hq
    simp only [Tab.put] at hq
    by_cases e : j = i
    · subst e
      simp only [upd_same, List.mem_append, List.mem_cons] at hq
      rcases hq with hq | rfl | hq
      · exact gd.same _ q (by rw [hB]; simp [hq])
      · intro y hy z hz
        rw [hg] at hy hz
        rcases hy with rfl | hy <;> rcases hz with rfl | hz
        · exact eh.refl _
        · exact he z hz
        · exact eh.symm (he y hy)
        · exact gd.same _ g gm y hy z hz
      · exact gd.same _ q (by rw [hB]; simp [hq])
    · rw [upd_other _ _ e] at hq
      exact gd.same j q hq
  · intro j
    simp only [Tab.put]
    by_cases e : j = i
    · subst e
      simp only [upd_same]
      have := gd.diff j
      rw [hB, List.pairwise_append, List.pairwise_cons] at this
      rw [List.pairwise_append, List.pairwise_cons]
      obtain ⟨d1, ⟨d2, d3⟩, d4⟩ := this
      refine ⟨d1, ⟨?_, d3⟩, ?_⟩
      · intro q hq y hy z hz
        rw [hg] at hy
        rcases hy with rfl | hy
        · rw [eh.congr (he _ g.first_mem)]
          exact d2 q hq _ g.first_mem z hz
        · exact d2 q hq y hy z hz
      · intro q hq q' hq' y hy z hz
        rcases List.mem_cons.1 hq' with rfl | hq'
        · rw [hg] at hz
          rcases hz with rfl | hz
          · rw [eh.comm, eh.congr (he _ g.first_mem), eh.comm]
            exact d4 q hq g (by simp) y hy _ g.first_mem
          · exact d4 q hq g (by simp) y hy z hz
        · exact d4 q hq q' (by simp [hq']) y hy z hz
    · rw [upd_other _ _ e]
      exact gd.diff j
  · intro hc
    cases hc

theorem Good.linkGroup (gd : Good .multi a.size eq hash T) (eh : EqHash eq hash) {x : Id} {G1 G2 : List Grp} {g : Grp}
    (hB : T.B (hash x % a.size) = G1 ++ g :: G2) (he : ∀ y ∈ g.toList, eq x y = true) :
    Good .multi a.size eq hash (T.put (hash x % a.size) (G1 ++ g.cons x :: G2)) :=
  gd.join eh rfl hB he (by simp)

/-- Only the buckets matter. -/
theorem Good.of_B {T' : Tab} (gd : Good c a.size eq hash T) (e : T'.B = T.B) : Good c a.size eq hash T' := by
  obtain ⟨h1, h2, h3, h4⟩ := gd
  unfold OfCat at h4
  rw [← e] at h1 h2 h3 h4
  exact ⟨h1, h2, h3, h4⟩

/-- Only the values of the elements matter. -/
theorem Good.congr {eq' : Id → Id → Bool} {hash' : Id → Nat} (gd : Good c a.size eq hash T)
    (hh : ∀ i, ∀ x ∈ gnodes (T.B i), hash' x = hash x) (he : ∀ i, ∀ x ∈ gnodes (T.B i), ∀ y ∈ gnodes (T.B i), eq' x y = eq x y) :
    Good c a.size eq' hash' T := by
  refine ⟨fun i x hx => ?_, fun i g hg x hx y hy => ?_, fun i => ?_, gd.cat⟩
  · rw [hh i x hx]; exact gd.place i x hx
  · rw [he i x (mem_gnodes.2 ⟨g, hg, hx⟩) y (mem_gnodes.2 ⟨g, hg, hy⟩)]
    exact gd.same i g hg x hx y hy
  · refine List.Pairwise.imp_of_mem ?_ (gd.diff i)
    intro g g' hg hg' k x hx y hy
    rw [he i x (mem_gnodes.2 ⟨g, hg, hx⟩) y (mem_gnodes.2 ⟨g', hg', hy⟩)]
    exact k x hx y hy

/-- Removing elements of one bucket keeps the table well formed. -/
theorem Good.shrink (gd : Good c a.size eq hash T) {i : Nat} {G1 G2 : List Grp} {g : Grp} {o : Option Grp} (hB : T.B i = G1 ++ g :: G2)
    (hs : ∀ q, o = some q → q.toList.Sublist g.toList) (ho : c = .uniq → o = none) :
    Good c a.size eq hash (T.put i (G1 ++ o.toList ++ G2)) := by
  have key : ∀ q ∈ G1 ++ o.toList ++ G2, ∃ q0 ∈ T.B i, q.toList.Sublist q0.toList := by
    intro q hq
    simp only [List.mem_append, Option.mem_toList, Option.mem_def] at hq
    rw [hB]
    rcases hq with (hq | hq) | hq
    · exact ⟨q, by simp [hq], List.Sublist.refl _⟩
    · exact ⟨g, by simp, hs q hq⟩
    · exact ⟨q, by simp [hq], List.Sublist.refl _⟩
  constructor
  · intro j y hy
    simp only [Tab.put] at hy
    by_cases e : j = i
    · subst e
      simp only [upd_same] at hy
      obtain ⟨q, hq, hy⟩ := mem_gnodes.1 hy
      obtain ⟨q0, h0, hs⟩ := key q hq
      exact gd.place _ y (mem_gnodes.2 ⟨q0, h0, hs.subset hy⟩)
    · rw [upd_other _ _ e] at hy
      exact gd.place j y hy
  · intro j q hq
    simp only [Tab.put] at hq
    by_cases e : j = i
    · subst e
      simp only [upd_same] at hq
      obtain ⟨q0, h0, hs⟩ := key q hq
      exact fun y hy z hz => gd.same _ q0 h0 y (hs.subset hy) z (hs.subset hz)
    · rw [upd_other _ _ e] at hq
      exact gd.same j q hq
  · intro j
    simp only [Tab.put]
    by_cases e : j = i
    · subst e
      simp only [upd_same]
      have := gd.diff j
      rw [hB, List.pairwise_append, List.pairwise_cons] at this
      obtain ⟨d1, ⟨d2, d3⟩, d4⟩ := this
      rw [List.append_assoc, List.pairwise_append]
      refine ⟨d1, ?_, ?_⟩
      · cases o with
        | none => exact d3
        | some q =>
          simp only [Option.toList_some, List.singleton_append, List.pairwise_cons]
          refine ⟨?_, d3⟩
          intro q' hq' y hy z hz
          exact d2 q' hq' y ((hs q rfl).subset hy) z hz
      · intro q hq q' hq' y hy z hz
        rcases List.mem_append.1 hq' with k | k
        · simp only [Option.mem_toList, Option.mem_def] at k
          exact d4 q hq g (by simp) y hy z ((hs q' k).subset hz)
        · exact d4 q hq q' (by simp [k]) y hy z hz
    · rw [upd_other _ _ e]
      exact gd.diff j
  · intro hc j q hq
    simp only [Tab.put] at hq
    by_cases e : j = i
    · subst e
      rw [ho hc] at hq
      simp only [upd_same, Option.toList_none, List.append_nil] at hq
      refine gd.cat hc j q ?_
      rw [hB]
      simp only [List.mem_append, List.mem_cons] at hq ⊢
      tauto
    · rw [upd_other _ _ e] at hq
      exact gd.cat hc j q hq

end
end MI.Hash
