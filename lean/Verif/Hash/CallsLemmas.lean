import Verif.Hash.Calls
import Verif.Hash.Ops
import Verif.Spec.Distinct
import Verif.Ord.CallsLemmas
/-! Numbers of calls of the equality predicate and of the hash function (helper lemmas). -/
namespace MI.Hash
open MI Asks

section Run
variable {Q : Type} (ans : Q → Bool)

theorem lastOfRangeA_run (c : Cat) (e : Id → Id → Asks Q Bool) (h : Heap) (x : Id) :
    (lastOfRangeA c e h x).run ans = lastOfRange c (fun x y => (e x y).run ans) h x := by
  cases c with
  | uniq => rfl
  | multi =>
    simp only [lastOfRangeA, lastOfRange, pure_def, bind_def]
    split
    · rw [run_bind, run_ite]; rfl
    · split <;> rfl

theorem endOfRangeA_run (c : Cat) (e : Id → Id → Asks Q Bool) (h : Heap) (x : Id) :
    (endOfRangeA c e h x).run ans = endOfRange c (fun x y => (e x y).run ans) h x := by
  cases c with
  | uniq => rfl
  | multi =>
    simp only [endOfRangeA, endOfRange, pure_def, bind_def]
    split
    · rw [run_bind]; rfl
    · split <;> rfl

theorem findLoopA_run (c : Cat) (q : Id → Asks Q Bool) (h : Heap) : ∀ (n : Nat) (x : Id),
    (findLoopA c q h n x).run ans = findLoop c (fun y => (q y).run ans) h n x
  | 0, x => by simp only [findLoopA, findLoop]; split <;> rfl
  | n + 1, x => by
    simp only [findLoopA, findLoop, pure_def, bind_def]
    split
    · rfl
    · rw [run_bind, run_ite, findLoopA_run c q h n]; rfl

theorem findA_run (n : Nat) (c : Cat) (q : Id → Asks Q Bool) (hk : Nat) (h : Heap) (a : Arr) (hd : Id) :
    (findA n c q hk h a hd).run ans = find n c (fun y => (q y).run ans) hk h a hd := by
  simp only [findA, find, bind_def, run_bind, findLoopA_run]
  rcases findLoop c (fun y => (q y).run ans) h n (h.prior (a.at (a.position hk))) with (_ | _) | _ | _ | _ <;> rfl

theorem countA_run (n : Nat) (c : Cat) (e : Id → Id → Asks Q Bool) (q : Id → Asks Q Bool) (hk : Nat) (h : Heap) (a : Arr) :
    (countA n c e q hk h a).run ans = count n c (fun x y => (e x y).run ans) (fun y => (q y).run ans) hk h a := by
  simp only [countA, count, bind_def, run_bind, findLoopA_run]
  rcases findLoop c (fun y => (q y).run ans) h n (h.prior (a.at (a.position hk))) with (_ | x) | _ | _ | _ <;> try rfl
  dsimp only
  rw [run_bind, endOfRangeA_run]
  rfl

theorem equalRangeA_run (n : Nat) (c : Cat) (e : Id → Id → Asks Q Bool) (q : Id → Asks Q Bool) (hk : Nat) (h : Heap) (a : Arr) (hd : Id) :
    (equalRangeA n c e q hk h a hd).run ans = equalRange n c (fun x y => (e x y).run ans) (fun y => (q y).run ans) hk h a hd := by
  simp only [equalRangeA, equalRange, bind_def, run_bind, findLoopA_run]
  rcases findLoop c (fun y => (q y).run ans) h n (h.prior (a.at (a.position hk))) with (_ | x) | _ | _ | _ <;> try rfl
  dsimp only
  rw [run_bind, endOfRangeA_run]
  rfl

theorem linkPointUA_run (q : Id → Asks Q Bool) (h : Heap) : ∀ (n : Nat) (x : Id),
    (linkPointUA q h n x).run ans = linkPointU (fun y => (q y).run ans) h n x
  | 0, x => by simp only [linkPointUA, linkPointU]; split <;> rfl
  | n + 1, x => by
    simp only [linkPointUA, linkPointU, pure_def, bind_def]
    split
    · rfl
    · rw [run_bind, run_ite, linkPointUA_run q h n]; rfl

theorem linkPointNA_run (e : Id → Id → Asks Q Bool) (q : Id → Asks Q Bool) (h : Heap) : ∀ (n : Nat) (x : Id),
    (linkPointNA e q h n x).run ans = linkPointN (fun x y => (e x y).run ans) (fun y => (q y).run ans) h n x
  | 0, x => by simp only [linkPointNA, linkPointN]; split <;> rfl
  | n + 1, x => by
    simp only [linkPointNA, linkPointN, pure_def, bind_def]
    split
    · rfl
    · rw [run_bind, run_ite, linkPointNA_run e q h n, run_bind, lastOfRangeA_run]; rfl

theorem linkPointA_run (n : Nat) (c : Cat) (e : Id → Id → Asks Q Bool) (q : Id → Asks Q Bool) (hv : Nat) (h : Heap) (a : Arr) :
    (linkPointA n c e q hv h a).run ans = linkPoint n c (fun x y => (e x y).run ans) (fun y => (q y).run ans) hv h a := by
  cases c with
  | uniq =>
    simp only [linkPointA, linkPoint, bind_def, run_bind, linkPointUA_run]
    rcases linkPointU (fun y => (q y).run ans) h n (h.prior (a.at (a.position hv))) with (_ | _) | _ | _ | _ <;> rfl
  | multi =>
    simp only [linkPointA, linkPoint, bind_def, run_bind, linkPointNA_run]
    rcases linkPointN (fun x y => (e x y).run ans) (fun y => (q y).run ans) h n (h.prior (a.at (a.position hv))) with (_ | _) | _ | _ | _ <;> rfl

theorem inPlaceUA_run (q : Id → Asks Q Bool) (h : Heap) (x : Id) : ∀ (n : Nat) (y : Id) (f : Bool),
    (inPlaceUA q h x n y f).run ans = inPlaceU (fun y => (q y).run ans) h x n y f
  | 0, y, f => by simp only [inPlaceUA, inPlaceU]; split <;> rfl
  | n + 1, y, f => by
    simp only [inPlaceUA, inPlaceU, pure_def, bind_def]
    split
    · rfl
    · split
      · exact inPlaceUA_run q h x n _ _
      · rw [run_bind, run_ite, inPlaceUA_run q h x n]; rfl

theorem inPlaceNA_run (q : Id → Asks Q Bool) (h : Heap) (x : Id) : ∀ (n : Nat) (y : Id) (f : Bool) (rs : Nat),
    (inPlaceNA q h x n y f rs).run ans = inPlaceN (fun y => (q y).run ans) h x n y f rs
  | 0, y, f, rs => by simp only [inPlaceNA, inPlaceN]; split <;> rfl
  | n + 1, y, f, rs => by
    have ih := inPlaceNA_run q h x n
    simp only [inPlaceNA, inPlaceN, pure_def, bind_def]
    split
    · rfl
    · split
      · split
        · rw [run_bind]; rfl
        · simp only [run_bind, run_ite, ih, run_done]
      · split
        · simp only [run_ite, ih, run_done]
        · simp only [run_bind, run_ite, ih, run_done]

theorem inPlaceA_run (n : Nat) (c : Cat) (q : Id → Asks Q Bool) (hk : Nat) (h : Heap) (a : Arr) (x : Id) :
    (inPlaceA n c q hk h a x).run ans = inPlace n c (fun y => (q y).run ans) hk h a x := by
  cases c with
  | uniq => exact inPlaceUA_run ..
  | multi => exact inPlaceNA_run ..

end Run

section AtMost
variable {Q : Type} {h : Heap} {a : Arr} {hd : Id} {T : Tab} {c : Cat} {q : Id → Asks Q Bool} {e : Id → Id → Asks Q Bool}

theorem lastOfRangeA_atMost (he : ∀ x y, (e x y).AtMost 1) (x : Id) : (lastOfRangeA c e h x).AtMost 1 := by
  cases c with
  | uniq => exact AtMost.done _
  | multi =>
    simp only [lastOfRangeA, pure_def, bind_def]
    split
    · refine AtMost.bind' (he _ _) (b := 0) (fun _ => ?_) (by omega)
      split <;> exact AtMost.done _
    · split <;> exact AtMost.done _

theorem endOfRangeA_atMost (he : ∀ x y, (e x y).AtMost 1) (x : Id) : (endOfRangeA c e h x).AtMost 1 := by
  cases c with
  | uniq => exact AtMost.done _
  | multi =>
    simp only [endOfRangeA, pure_def, bind_def]
    split
    · exact AtMost.bind' (he _ _) (b := 0) (fun _ => AtMost.done _) (by omega)
    · split <;> exact AtMost.done _

theorem Rep.headG (r : Rep h a hd T) {i : Nat} {G R : List Grp} {g : Grp} (hB : T.B i = G ++ g :: R) :
    (gnodes (g :: R)).headD 0 = g.first ∧ g.first ≠ 0 := by
  refine ⟨by rw [gnodes_cons, g.toList_eq_first]; simp, fun k => r.nz ?_⟩
  rw [← k]
  right
  exact r.mem_nodes.2 ⟨i, by rw [hB]; simp [g.first_mem]⟩

theorem findLoopA_atMost (r : Rep h a hd T) (oc : OfCat c T) (so : ∀ i, ∀ g ∈ T.B i, g.Solid) (hq : ∀ x, (q x).AtMost 1) {i : Nat} :
    ∀ (R G : List Grp) (n : Nat), T.B i = G ++ R → (findLoopA c q h n ((gnodes R).headD 0)).AtMost R.length
  | [], G, n, _ => by cases n <;> exact AtMost.done _
  | g :: R, G, 0, hB => by
    simp only [findLoopA]
    split <;> exact AtMost.done _
  | g :: R, G, n + 1, hB => by
    obtain ⟨hg, g0⟩ := r.headG hB
    rw [hg, findLoopA, if_neg g0]
    refine AtMost.bind' (hq _) (b := R.length) (fun b => ?_) (by simp; omega)
    split
    · exact AtMost.done _
    · rw [r.inspect oc hB (so i g (by rw [hB]; simp))]
      exact findLoopA_atMost r oc so hq R (G ++ [g]) n (by rw [hB]; simp)

theorem linkPointUA_eq (q : Id → Asks Q Bool) (h : Heap) : ∀ (n : Nat) (x : Id), linkPointUA q h n x = findLoopA .uniq q h n x
  | 0, _ => rfl
  | n + 1, x => by
    simp only [linkPointUA, findLoopA]
    rw [linkPointUA_eq q h n]
    rfl

theorem linkPointNA_atMost (r : Rep h a hd T) (oc : OfCat .multi T) (so : ∀ i, ∀ g ∈ T.B i, g.Solid) (hq : ∀ x, (q x).AtMost 1)
    (he : ∀ x y, (e x y).AtMost 1) {i : Nat} :
    ∀ (R G : List Grp) (n : Nat), T.B i = G ++ R → (linkPointNA e q h n ((gnodes R).headD 0)).AtMost (R.length + 1)
  | [], G, n, _ => by cases n <;> exact AtMost.done _
  | g :: R, G, 0, hB => by
    simp only [linkPointNA]
    split <;> exact AtMost.done _
  | g :: R, G, n + 1, hB => by
    obtain ⟨hg, g0⟩ := r.headG hB
    rw [hg, linkPointNA, if_neg g0]
    refine AtMost.bind' (hq _) (b := R.length + 1) (fun b => ?_) (by simp; omega)
    split
    · exact AtMost.bind' (lastOfRangeA_atMost he _) (b := 0) (fun _ => AtMost.done _) (by omega)
    · have := r.inspect oc hB (so i g (by rw [hB]; simp))
      simp only [nextToInspect] at this
      rw [this]
      exact linkPointNA_atMost r oc so hq he R (G ++ [g]) n (by rw [hB]; simp)

theorem inPlaceUA_atMost (r : Rep h a hd T) (oc : OfCat .uniq T) (hq : ∀ x, (q x).AtMost 1) (x : Id) {i : Nat} :
    ∀ (v u : List Id) (n : Nat) (f : Bool), gnodes (T.B i) = u ++ v → (inPlaceUA q h x n (v.headD 0) f).AtMost v.length
  | [], u, n, f, _ => by cases n <;> exact AtMost.done _
  | y :: v, u, 0, f, _ => by
    simp only [inPlaceUA]
    split <;> exact AtMost.done _
  | y :: v, u, n + 1, f, e => by
    have al : U.afterLocal h y = v.headD 0 := r.afterLocal oc e
    have y0 : y ≠ 0 := by
      rintro rfl
      exact r.nz (List.mem_cons_of_mem _ (r.mem_nodes.2 ⟨i, by rw [e]; simp⟩))
    have ih := fun f => inPlaceUA_atMost r oc hq x v (u ++ [y]) n f (by rw [e]; simp)
    simp only [List.headD_cons, inPlaceUA, if_neg y0, al]
    split
    · exact (ih true).mono (by simp)
    · refine AtMost.bind' (hq _) (b := v.length) (fun b => ?_) (by simp; omega)
      split
      · exact AtMost.done _
      · exact ih f

theorem inPlaceNA_atMost (r : Rep h a hd T) (oc : OfCat .multi T) (so : ∀ i, ∀ g ∈ T.B i, g.Solid) (hq : ∀ x, (q x).AtMost 1) (x : Id) {i : Nat} :
    ∀ (R G : List Grp) (n : Nat) (f : Bool) (rs : Nat), T.B i = G ++ R → (inPlaceNA q h x n ((gnodes R).headD 0) f rs).AtMost R.length
  | [], G, n, f, rs, _ => by cases n <;> exact AtMost.done _
  | g :: R, G, 0, f, rs, hB => by
    simp only [inPlaceNA]
    split <;> exact AtMost.done _
  | g :: R, G, n + 1, f, rs, hB => by
    obtain ⟨p', ob, ob', f', lc, -⟩ := r.loc hB
    obtain ⟨l1, l2⟩ := N.firstOfGroup_loc lc (so i g (by rw [hB]; simp))
    obtain ⟨hg, g0⟩ := r.headG hB
    have ih := fun f rs => inPlaceNA_atMost r oc so hq x R (G ++ [g]) n f rs (by rw [hB]; simp)
    rw [hg, inPlaceNA, if_neg g0]
    simp only [pure_def, bind_def]
    cases g with
    | one y =>
      have al : N.afterLocal h y = (gnodes R).headD 0 :=
        r.afterLocal oc (c := .multi) (u := gnodes G) (v := gnodes R) (by rw [hB]; simp)
      simp only [Grp.first_one, l1 y rfl, al, Bool.false_eq_true, if_false]
      split
      · split
        · exact AtMost.done _
        · exact (ih _ _).mono (by simp)
      · refine AtMost.bind' (hq _) (b := R.length) (fun b => ?_) (by simp; omega)
        repeat (first | exact AtMost.done _ | exact ih _ _ | split)
    | many y mid l =>
      obtain ⟨a1, a2, a3⟩ := l2 y mid l rfl
      have al : N.afterLocal h l = (gnodes R).headD 0 :=
        r.afterLocal oc (c := .multi) (u := gnodes G ++ y :: mid) (v := gnodes R) (by rw [hB]; simp)
      rw [a2] at a3
      simp only [Grp.first_many, a1, a2, a3, al, if_true]
      split
      · exact AtMost.bind' (hq _) (b := 0) (fun _ => AtMost.done _) (by simp)
      · refine AtMost.bind' (hq _) (b := R.length) (fun b => ?_) (by simp; omega)
        repeat (first | exact AtMost.done _ | exact ih _ _ | split)

end AtMost

/-! ## Numbers of groups -/

section Distinct
variable {eq : Id → Id → Bool}

theorem distinct_group : ∀ {l m : List Id}, l ≠ [] → (∀ x ∈ l, ∀ y ∈ l, eq x y = true) → (∀ x ∈ l, ∀ y ∈ m, eq x y = false) →
    distinct eq (l ++ m) = 1 + distinct eq m
  | [x], m, _, _, d => by
    have : m.any (eq x) = false := by simpa using d x (by simp)
    simp [distinct, this]
  | x :: y :: l, m, _, s, d => by
    have ih := distinct_group (l := y :: l) (m := m) (by simp) (fun z hz w hw => s z (by simp [hz]) w (by simp [hw]))
      (fun z hz w hw => d z (by simp [hz]) w hw)
    rw [List.cons_append, distinct, ih, if_pos]
    · omega
    · simp [s x (by simp) y (by simp)]

theorem distinct_groups : ∀ {gs : List Grp}, (∀ g ∈ gs, ∀ x ∈ g.toList, ∀ y ∈ g.toList, eq x y = true) →
    gs.Pairwise (fun g g' => ∀ x ∈ g.toList, ∀ y ∈ g'.toList, eq x y = false) → distinct eq (gnodes gs) = gs.length
  | [], _, _ => rfl
  | g :: gs, s, d => by
    rw [List.pairwise_cons] at d
    rw [gnodes_cons, distinct_group g.toList_ne (s g (by simp))]
    · rw [distinct_groups (fun g hg => s g (by simp [hg])) d.2]
      simp [Nat.add_comm]
    · intro x hx y hy
      obtain ⟨g', hg, hy⟩ := mem_gnodes.1 hy
      exact d.1 g' hg x hx y hy

theorem distinct_filter {P : Id → Bool} : ∀ {l : List Id}, (∀ x y, eq x y = true → P x = true → P y = true) →
    distinct eq (l.filter P) ≤ distinct eq l
  | [], _ => Nat.le_refl _
  | x :: l, h => by
    have ih := distinct_filter (l := l) h
    rw [List.filter_cons]
    split
    · rename_i k
      have : (l.filter P).any (eq x) = l.any (eq x) := by
        rw [Bool.eq_iff_iff]
        simp only [List.any_eq_true, List.mem_filter]
        constructor
        · rintro ⟨y, ⟨hy, -⟩, e⟩; exact ⟨y, hy, e⟩
        · rintro ⟨y, hy, e⟩; exact ⟨y, ⟨hy, h x y e k⟩, e⟩
      simp only [distinct, this]
      omega
    · simp only [distinct]
      omega

theorem parts_length (gs : List Grp) : gs.length ≤ (gs.flatMap Grp.parts).length ∧ (gs.flatMap Grp.parts).length ≤ (gnodes gs).length ∧
    (gs.flatMap Grp.parts).length ≤ 2 * gs.length := by
  induction gs with
  | nil => simp
  | cons g r ih =>
    simp only [List.flatMap_cons, List.length_append, gnodes_cons, List.length_cons]
    have : 1 ≤ g.parts.length ∧ g.parts.length ≤ g.toList.length ∧ g.parts.length ≤ 2 := by
      cases g with
      | one x => simp [Grp.parts]
      | many f mid l => cases mid <;> simp [Grp.parts]
    omega

theorem ones_length {gs : List Grp} (o : ∀ g ∈ gs, ∃ x, g = .one x) :
    gs.length = (gnodes gs).length ∧ (gs.flatMap Grp.parts).length = (gnodes gs).length := by
  induction gs with
  | nil => exact ⟨rfl, rfl⟩
  | cons g gs ih =>
    obtain ⟨y, e⟩ := o g List.mem_cons_self
    have := ih (fun g hg => o g (List.mem_cons_of_mem _ hg))
    rw [e]
    simp only [List.flatMap_cons, Grp.parts, gnodes_cons, Grp.toList_one, List.length_append, List.length_cons, List.length_nil]
    omega

variable {h : Heap} {a : Arr} {hd : Id} {T : Tab} {c : Cat} {hash : Id → Nat}

/-- The elements of a bucket. -/
theorem bucket_filter (r : Rep h a hd T) (gd : Good c a.size eq hash T) (m : Nat) :
    T.nodes.filter (fun x => hash x % a.size == m) = gnodes (T.B m) := by
  have zero : ∀ o : List Nat, m ∉ o → (nodesO T.B o).filter (fun x => hash x % a.size == m) = [] := by
    intro o ho
    rw [List.filter_eq_nil_iff]
    intro y hy
    simp only [nodesO, List.mem_flatMap] at hy
    obtain ⟨j, hj, hy⟩ := hy
    have := gd.place j y hy
    simp only [beq_iff_eq, this]
    rintro rfl
    exact ho hj
  by_cases hB : T.B m = []
  · rw [hB]
    exact zero T.ord (fun k => (r.ordB m).1 k hB)
  · obtain ⟨o1, o2, e⟩ := List.append_of_mem ((r.ordB _).2 hB)
    have ond := r.ordnd
    rw [e] at ond
    have n1 : m ∉ o1 := fun k => (List.nodup_append.1 ond).2.2 m k m (by simp) rfl
    have n2 : m ∉ o2 := (List.nodup_cons.1 (List.nodup_append.1 ond).2.1).1
    rw [nodes_split e, List.filter_append, List.filter_append, zero o1 n1, zero o2 n2, List.filter_eq_self.2]
    · simp
    · intro y hy
      simp [gd.place m y hy]

/-- The number of comparisons allowed in a bucket. -/
theorem parts_bound (r : Rep h a hd T) (gd : Good c a.size eq hash T) (m : Nat) :
    ((T.parts.B m)).length ≤ min (T.nodes.filter (fun x => hash x % a.size == m)).length
      (2 * distinct eq (T.nodes.filter (fun x => hash x % a.size == m))) := by
  rw [bucket_filter r gd, distinct_groups (gd.same m) (gd.diff m)]
  have := parts_length (T.B m)
  simp only [Tab.parts]
  omega

end Distinct
end MI.Hash
