import Verif.Hash.Rehash2
import Verif.Hash.Ops
import Verif.Hash.Calls
import Verif.Spec.Always
set_option linter.unusedSimpArgs false
set_option linter.unusedVariables false
/-! Hashed unique indices whose equality predicates answer anything, and whose hash functions put elements anywhere (helper lemmas). -/
namespace MI.Hash
open MI

/-! ## Searches -/

section
variable {Q : Type} {h : Heap} {a : Arr} {hd : Id} {T : Tab}

theorem bucket_len (r : Rep h a hd T) (i : Nat) : (gnodes (T.B i)).length ≤ T.nodes.length := by
  by_cases hB : T.B i = []
  · rw [hB]; simp
  · obtain ⟨o1, o2, e⟩ := List.append_of_mem ((r.ordB i).2 hB)
    rw [nodes_split e]
    simp only [List.length_append]
    omega

theorem bucket_sub (r : Rep h a hd T) {i : Nat} {y : Id} (hy : y ∈ gnodes (T.B i)) : y ∈ T.nodes := r.mem_nodes.2 ⟨i, hy⟩

theorem linkPointUA_any (r : Rep h a hd T) (oc : OfCat .uniq T) (q : Id → Asks Q Bool) {i : Nat} :
    ∀ (v u : List Id) (n : Nat), gnodes (T.B i) = u ++ v → v.length ≤ n →
      (linkPointUA q h n (v.headD 0)).Always fun s => s = .ok none ∨ ∃ y ∈ v, s = .ok (some y)
  | [], u, n, _, _ => by cases n <;> exact Or.inl rfl
  | y :: v, u, 0, _, hn => by simp at hn
  | y :: v, u, n + 1, e, hn => by
    have al : U.afterLocal h y = v.headD 0 := r.afterLocal oc e
    have y0 : y ≠ 0 := by
      rintro rfl
      exact r.nz (List.mem_cons_of_mem _ (bucket_sub r (i := i) (by rw [e]; simp)))
    simp only [List.headD_cons, linkPointUA, if_neg y0, al]
    refine Asks.Always.any _ fun b => ?_
    cases b with
    | true => exact Or.inr ⟨y, by simp, rfl⟩
    | false =>
      refine (linkPointUA_any r oc q v (u ++ [y]) n (by rw [e]; simp) (by simpa using hn)).mono ?_
      rintro s (k | ⟨z, hz, k⟩)
      · exact Or.inl k
      · exact Or.inr ⟨z, by simp [hz], k⟩

theorem findLoopA_any (r : Rep h a hd T) (oc : OfCat .uniq T) (q : Id → Asks Q Bool) {i : Nat} :
    ∀ (v u : List Id) (n : Nat), gnodes (T.B i) = u ++ v → v.length ≤ n →
      (findLoopA .uniq q h n (v.headD 0)).Always fun s => s = .ok none ∨ ∃ y ∈ v, s = .ok (some y)
  | [], u, n, _, _ => by cases n <;> exact Or.inl rfl
  | y :: v, u, 0, _, hn => by simp at hn
  | y :: v, u, n + 1, e, hn => by
    have al : nextToInspect .uniq h y = v.headD 0 := r.afterLocal oc e
    have y0 : y ≠ 0 := by
      rintro rfl
      exact r.nz (List.mem_cons_of_mem _ (bucket_sub r (i := i) (by rw [e]; simp)))
    simp only [List.headD_cons, findLoopA, if_neg y0, al]
    refine Asks.Always.any _ fun b => ?_
    cases b with
    | true => exact Or.inr ⟨y, by simp, rfl⟩
    | false =>
      refine (findLoopA_any r oc q v (u ++ [y]) n (by rw [e]; simp) (by simpa using hn)).mono ?_
      rintro s (k | ⟨z, hz, k⟩)
      · exact Or.inl k
      · exact Or.inr ⟨z, by simp [hz], k⟩

theorem inPlaceUA_any (r : Rep h a hd T) (oc : OfCat .uniq T) (q : Id → Asks Q Bool) (x : Id) {i : Nat} :
    ∀ (v u : List Id) (n : Nat) (f : Bool), gnodes (T.B i) = u ++ v → v.length ≤ n →
      (inPlaceUA q h x n (v.headD 0) f).Always fun s => ∃ b, s = .ok b
  | [], u, n, f, _, _ => by cases n <;> exact ⟨f, rfl⟩
  | y :: v, u, 0, f, _, hn => by simp at hn
  | y :: v, u, n + 1, f, e, hn => by
    have al : U.afterLocal h y = v.headD 0 := r.afterLocal oc e
    have y0 : y ≠ 0 := by
      rintro rfl
      exact r.nz (List.mem_cons_of_mem _ (bucket_sub r (i := i) (by rw [e]; simp)))
    have ih := fun f => inPlaceUA_any r oc q x v (u ++ [y]) n f (by rw [e]; simp) (by simpa using hn)
    simp only [List.headD_cons, inPlaceUA, if_neg y0, al]
    by_cases k : y = x
    · rw [if_pos k]
      exact ih true
    · rw [if_neg k]
      refine Asks.Always.any _ fun b => ?_
      cases b with
      | true => exact ⟨false, rfl⟩
      | false => exact ih f

theorem first_at (r : Rep h a hd T) (s0 : 0 < a.size) (hk : Nat) : h.prior (a.at (a.position hk)) = (gnodes (T.B (hk % a.size))).headD 0 :=
  r.bucketFirst (Nat.mod_lt _ s0)

/-- The search for a link point of a unique index. -/
theorem linkPointA_any (r : Rep h a hd T) (oc : OfCat .uniq T) (s0 : 0 < a.size) (e : Id → Id → Asks Q Bool) (q : Id → Asks Q Bool) (hv : Nat) {n : Nat}
    (hn : T.nodes.length ≤ n) :
    (linkPointA n .uniq e q hv h a).Always fun s => (∃ y ∈ T.nodes, s = .ok (.reject y)) ∨ s = .ok (.accept (.bucket (a.base + hv % a.size))) := by
  unfold linkPointA
  simp only [first_at r s0]
  refine (linkPointUA_any r oc q _ [] n rfl (Nat.le_trans (bucket_len r _) hn)).then ?_
  rintro s (rfl | ⟨y, hy, rfl⟩)
  · exact Or.inr rfl
  · exact Or.inl ⟨y, bucket_sub r hy, rfl⟩

theorem inPlaceA_any (r : Rep h a hd T) (oc : OfCat .uniq T) (s0 : 0 < a.size) (q : Id → Asks Q Bool) (hk : Nat) (x : Id) {n : Nat} (hn : T.nodes.length ≤ n) :
    (inPlaceA n .uniq q hk h a x).Always fun s => ∃ b, s = .ok b := by
  unfold inPlaceA
  simp only [first_at r s0]
  exact inPlaceUA_any r oc q x _ [] n false rfl (Nat.le_trans (bucket_len r _) hn)

theorem findA_any (r : Rep h a hd T) (oc : OfCat .uniq T) (s0 : 0 < a.size) (q : Id → Asks Q Bool) (hk : Nat) {n : Nat} (hn : T.nodes.length ≤ n) :
    (findA n .uniq q hk h a hd).Always fun s => ∃ y ∈ hd :: T.nodes, s = .ok y := by
  unfold findA
  rw [first_at r s0]
  refine (findLoopA_any r oc q _ [] n rfl (Nat.le_trans (bucket_len r _) hn)).then ?_
  rintro s (rfl | ⟨y, hy, rfl⟩)
  · exact ⟨hd, by simp, rfl⟩
  · exact ⟨y, by simp [bucket_sub r hy], rfl⟩

theorem countA_any (r : Rep h a hd T) (oc : OfCat .uniq T) (s0 : 0 < a.size) (e : Id → Id → Asks Q Bool) (q : Id → Asks Q Bool) (hk : Nat) {n : Nat}
    (hn : T.nodes.length ≤ n) : (countA n .uniq e q hk h a).Always fun s => ∃ m ≤ T.nodes.length, s = .ok m := by
  unfold countA
  rw [first_at r s0]
  refine (findLoopA_any r oc q _ [] n rfl (Nat.le_trans (bucket_len r _) hn)).then ?_
  rintro s (rfl | ⟨y, hy, rfl⟩)
  · exact ⟨0, by omega, rfl⟩
  · obtain ⟨u, v, ev⟩ := List.append_of_mem (bucket_sub r hy)
    have e1 : U.after h y = v.headD hd := r.after oc ev
    have len := congrArg List.length ev
    simp only [List.length_append, List.length_cons] at len
    have := countLoop_spec (c := .uniq) r oc (post := v) [] u y n 0 (by rw [ev]; simp) (by simp only [List.length_nil]; omega)
    refine ⟨1, by omega, ?_⟩
    show countLoop .uniq h (U.after h y) n y 0 = _
    rw [e1, this]
    rfl

theorem equalRangeA_any (r : Rep h a hd T) (oc : OfCat .uniq T) (s0 : 0 < a.size) (e : Id → Id → Asks Q Bool) (q : Id → Asks Q Bool) (hk : Nat) {n : Nat}
    (hn : T.nodes.length ≤ n) :
    (equalRangeA n .uniq e q hk h a hd).Always fun s => ∃ u m v, T.nodes = u ++ m ++ v ∧ s = .ok ((m ++ v).headD hd, v.headD hd) := by
  unfold equalRangeA
  rw [first_at r s0]
  refine (findLoopA_any r oc q _ [] n rfl (Nat.le_trans (bucket_len r _) hn)).then ?_
  rintro s (rfl | ⟨y, hy, rfl⟩)
  · exact ⟨T.nodes, [], [], by simp, rfl⟩
  · obtain ⟨u, v, ev⟩ := List.append_of_mem (bucket_sub r hy)
    have e1 : U.after h y = v.headD hd := r.after oc ev
    refine ⟨u, [y], v, by rw [ev]; simp, ?_⟩
    show Out.ok (y, U.after h y) = _
    rw [e1]
    rfl

end

/-! ## Placing -/

/-- Every table without groups is well formed for some hash function and the identity of elements as equality. -/
theorem good_exists {h : Heap} {a : Arr} {hd : Id} {T : Tab} (r : Rep h a hd T) (oc : OfCat .uniq T) : ∃ g : Id → Nat, Good .uniq a.size (fun x y => x == y) g T := by
  classical
  let g : Id → Nat := fun x => if k : ∃ i, x ∈ gnodes (T.B i) then k.choose else 0
  have hg : ∀ i, ∀ x ∈ gnodes (T.B i), g x = i := by
    intro i x hx
    have k : ∃ i, x ∈ gnodes (T.B i) := ⟨i, hx⟩
    have e : g x = k.choose := dif_pos k
    rw [e]
    by_contra ne
    have h1 := k.choose_spec
    have hi : i ∈ T.ord := (r.ordB i).2 (by rintro q; rw [q] at hx; simp at hx)
    have hj : k.choose ∈ T.ord := (r.ordB _).2 (by rintro q; rw [q] at h1; simp at h1)
    have nd : T.nodes.Nodup := (List.nodup_cons.1 r.nd).2
    simp only [Tab.nodes, nodesO] at nd
    rw [List.nodup_flatMap] at nd
    have pw := nd.2
    have : ∀ {l : List Nat}, l.Pairwise (fun a b => List.Disjoint (gnodes (T.B a)) (gnodes (T.B b))) → ∀ p ∈ l, ∀ q ∈ l, p ≠ q →
        List.Disjoint (gnodes (T.B p)) (gnodes (T.B q)) := by
      intro l pl
      induction pl with
      | nil => intro p hp; exact nomatch hp
      | cons h1 _ ih =>
        intro p hp q hq n
        rcases List.mem_cons.1 hp with e1 | e1 <;> rcases List.mem_cons.1 hq with e2 | e2
        · exact absurd (e1.trans e2.symm) n
        · rw [e1]; exact h1 q e2
        · rw [e2]; exact fun z k1 k2 => h1 p e1 k2 k1
        · exact ih p e1 q e2 n
    exact this pw _ hj _ hi ne h1 hx
  refine ⟨g, ?_, ?_, ?_, oc⟩
  · intro i x hx
    rw [hg i x hx]
    exact Nat.mod_eq_of_lt (r.ordlt i ((r.ordB i).2 (by rintro q; rw [q] at hx; simp at hx)))
  · intro i q hq x hx y hy
    obtain ⟨z, rfl⟩ := oc rfl i q hq
    simp only [Grp.toList_one, List.mem_singleton] at hx hy
    subst hx; subst hy
    simp
  · intro i
    have nd := r.bucket_nodup i
    have : ∀ {l : List Grp}, (gnodes l).Nodup → l.Pairwise fun p q => ∀ x ∈ p.toList, ∀ y ∈ q.toList, (x == y) = false := by
      intro l
      induction l with
      | nil => intro _; exact .nil
      | cons p l ih =>
        intro nd
        rw [gnodes_cons, List.nodup_append] at nd
        refine .cons ?_ (ih nd.2.1)
        intro q hq x hx y hy
        have := nd.2.2 x hx y (mem_gnodes.2 ⟨q, hq, hy⟩)
        simpa using this
    exact this nd

/-! ## Rehashing -/

section
variable {h : Heap} {oa na : Arr} {hd cpy : Id} {hash : Id → Nat} {T : Tab}

theorem put_one {T : Tab} {i : Nat} {gs : List Grp} (so : ∀ j, ∀ g ∈ T.B j, ∃ x, g = .one x) (hs : ∀ g ∈ gs, ∃ x, g = .one x) :
    ∀ j, ∀ g ∈ (T.put i gs).B j, ∃ x, g = .one x := by
  intro j g hg
  simp only [Tab.put] at hg
  by_cases k : j = i
  · subst k
    rw [upd_same] at hg
    exact hs g hg
  · rw [upd_other _ _ k] at hg
    exact so j g hg

theorem mem_put_nodes {h h' : Heap} {a : Arr} {T : Tab} {i : Nat} {gs : List Grp} (r : Rep h a hd T) (r' : Rep h' a hd (T.put i gs)) {x : Id}
    (hp : ∀ y, y ∈ gnodes gs ↔ y = x ∨ y ∈ gnodes (T.B i)) : ∀ y, y ∈ (T.put i gs).nodes ↔ y = x ∨ y ∈ T.nodes := by
  intro y
  rw [r'.mem_nodes, r.mem_nodes]
  simp only [Tab.put]
  constructor
  · rintro ⟨j, hj⟩
    by_cases k : j = i
    · subst k
      rw [upd_same] at hj
      exact ((hp y).1 hj).imp id fun q => ⟨j, q⟩
    · rw [upd_other _ _ k] at hj
      exact Or.inr ⟨j, hj⟩
  · rintro (rfl | ⟨j, hj⟩)
    · exact ⟨i, by rw [upd_same]; exact (hp y).2 (Or.inl rfl)⟩
    · by_cases k : j = i
      · subst k
        exact ⟨j, by rw [upd_same]; exact (hp y).2 (Or.inr hj)⟩
      · exact ⟨j, by rw [upd_other _ _ k]; exact hj⟩

/-- Putting elements back, into the buckets their hash values call for, whatever these are. -/
theorem restoreU_any (s0 : 0 < oa.size) : ∀ (l : List (Nat × Id)) (h : Heap) (T : Tab) (pb : Option Nat), Rep h oa hd T →
    (∀ i, ∀ g ∈ T.B i, ∃ x, g = .one x) → (pb ≠ none → T.nodes ≠ []) → (l.map (·.2)).Nodup →
    (∀ x ∈ l.map (·.2), x ≠ 0 ∧ x ∉ hd :: T.nodes ∧ (x < oa.base ∨ oa.endB < x)) →
    ∃ T', Rep (restoreU oa hd pb l h) oa hd T' ∧ (∀ i, ∀ g ∈ T'.B i, ∃ x, g = .one x) ∧ ∀ y, y ∈ T'.nodes ↔ y ∈ l.map (·.2) ∨ y ∈ T.nodes
  | [], h, T, pb, r, so, _, _, _ => ⟨T, r, so, by simp⟩
  | (hx, x) :: l, h, T, pb, r, so, ne, nd, fr => by
    have fx := fr x (by simp)
    have fg : ∀ y ∈ (Grp.one x).toList, Fresh oa hd T y := by
      intro y hy
      simp only [Grp.toList_one, List.mem_singleton] at hy
      subst hy
      exact fx
    have nd' : x ∉ l.map (·.2) ∧ (l.map (·.2)).Nodup := by simpa using nd
    have step : ∀ {h' : Heap} {T1 : Tab} (pb' : Option Nat), Rep h' oa hd T1 → (∀ i, ∀ g ∈ T1.B i, ∃ x, g = .one x) → (∀ y, y ∈ T1.nodes ↔ y = x ∨ y ∈ T.nodes) →
        ∃ T', Rep (restoreU oa hd pb' l h') oa hd T' ∧ (∀ i, ∀ g ∈ T'.B i, ∃ x, g = .one x) ∧
          ∀ y, y ∈ T'.nodes ↔ y ∈ ((hx, x) :: l).map (·.2) ∨ y ∈ T.nodes := by
      intro h' T1 pb' r1 so1 m1
      obtain ⟨T', k1, k2, k3⟩ := restoreU_any s0 l h' T1 pb' r1 so1
        (fun _ k => by have := (m1 x).2 (Or.inl rfl); rw [k] at this; exact nomatch this) nd'.2
        (fun y hy => by
          have := fr y (by simp only [List.map_cons, List.mem_cons]; exact Or.inr hy)
          refine ⟨this.1, ?_, this.2.2⟩
          have h2 := this.2.1
          simp only [List.mem_cons, not_or] at h2 ⊢
          refine ⟨h2.1, fun k => ?_⟩
          rcases (m1 y).1 k with rfl | k
          · exact nd'.1 hy
          · exact h2.2 k)
      refine ⟨T', k1, k2, fun y => ?_⟩
      rw [k3, m1]
      simp only [List.map_cons, List.mem_cons]
      tauto
    simp only [restoreU, U.append_eq, U.link_eq]
    by_cases k : pb = some (oa.position hx)
    · rw [if_pos k]
      have en := ne (by rw [k]; simp)
      obtain ⟨o, i, G, g, eo, hB⟩ := r.last_group en
      have w' := (r.appendLast (g := .one x) eo trivial (by simp) fg).1
      refine step _ w' (put_one so ?_) (mem_put_nodes r w' (x := x) (by intro y; simp; tauto))
      intro g' hg'
      rcases List.mem_append.1 hg' with q | q
      · exact so i g' q
      · exact ⟨x, List.mem_singleton.1 q⟩
    · rw [if_neg k]
      have w' := (r.linkRange (g := .one x) (i := oa.position hx) (Nat.mod_lt _ s0) trivial (by simp) fg).1
      refine step _ w' (put_one so ?_) (mem_put_nodes r w' (x := x) (by intro y; simp))
      intro g' hg'
      rcases List.mem_cons.1 hg' with q | q
      · exact ⟨x, q⟩
      · exact so _ g' q

/-- Rehashing a unique index, wherever its elements are: all of them are still there. -/
theorem rehashU_any {t : Option Nat} (r : Rep h oa hd T) (oc : OfCat .uniq T) (os : 0 < oa.size) (ns : 0 < na.size) (nm : NewMem oa na hd cpy T.nodes) :
    ∃ h' b, rehash .uniq hash T.nodes.length t h oa na hd cpy = .ok (h', b) ∧
      ∃ T', Rep h' (if b then oa else na) hd T' ∧ OfCat .uniq T' ∧ T'.nodes.Perm T.nodes := by
  obtain ⟨c1, c2, c3⟩ := clear_rep h nm.b0 nm.c0 nm.cna
  have hcn : ∀ z ∈ hd :: T.nodes, z ≠ cpy := fun z hz k => nm.cn (k ▸ hz)
  have rc : Rep (clear h na cpy) oa hd T := by
    refine r.congr ?_ ?_ ?_
    · intro z hz
      exact c2 z (hcn z hz) (nm.xn z hz)
    · intro z h1 h2
      refine c2 z ?_ ?_
      · have := nm.co
        simp only [Id] at *
        omega
      · have := nm.ar
        simp only [Id] at *
        omega
    · intro z hz
      exact c3 z (hcn z hz)
  have rp := rep_parts.2 rc
  have en : Tab.empty.nodes = [] := rfl
  have w : Two (clear h na cpy) oa hd T.parts na cpy (newTab hash na.size []) := by
    refine ⟨rp, c1, ⟨?_, ?_, nm.ar⟩⟩
    · intro z hz
      rw [Tab.parts_nodes] at hz
      refine ⟨?_, nm.xn z hz⟩
      simp only [newTab, en, List.mem_cons, List.not_mem_nil, or_false]
      exact hcn z hz
    · intro z hz
      simp only [newTab, en, List.mem_cons, List.not_mem_nil, or_false] at hz
      subst hz
      exact nm.co
  have wi0 : WithinOk [] T.parts false := by intro i g r k; cases k
  have so : ∀ i, ∀ g ∈ T.parts.B i, ∃ x, g = .one x := fun i g hg => oc.parts rfl i g hg
  obtain ⟨s', b, L, T1, e1, p, w', lg, wi, hb, ht⟩ := rehashLoopU_spec (hash := hash) (cpy := cpy) ns so T.nodes.length t
    { h := clear h na cpy } [] T.parts Popped.nil w rfl wi0 (by rw [Tab.parts_nodes])
  have so1 : ∀ i, ∀ g ∈ T1.B i, ∃ x, g = .one x := fun i g hg => so i g (p.mem.2 i g hg)
  have soL : ∀ q ∈ L, ∃ x, q.2 = .one x := fun q hq => so q.1 q.2 (p.mem.1 q hq)
  have gr := p.groups rp.ordnd
  have nodesT : T.nodes = gnodes T.parts.groups := by rw [← nodes_groups, Tab.parts_nodes]
  have snd : s'.log.map (·.2) = gnodes (L.map (·.2)) := by
    rw [lg]
    clear * - soL
    induction L with
    | nil => rfl
    | cons q L ih =>
      obtain ⟨x, hx⟩ := soL q (by simp)
      have := ih fun q hq => soL q (by simp [hq])
      simp only [logOf, List.map_cons, gnodes_cons, hx, Grp.last_one, Grp.toList_one, List.singleton_append] at this ⊢
      rw [this]
  have nd : (gnodes T1.groups ++ gnodes (L.map (·.2))).Nodup := by
    have := (List.nodup_cons.1 r.nd).2
    rw [nodesT, gr, gnodes_append] at this
    exact this
  have memT : ∀ y, y ∈ T.nodes ↔ y ∈ T1.nodes ∨ y ∈ s'.log.map (·.2) := by
    intro y
    rw [nodesT, gr, gnodes_append, List.mem_append, snd, nodes_groups]
  have ndT := (List.nodup_cons.1 r.nd).2
  simp only [rehash, rehashU, e1]
  cases b with
  | true =>
    obtain ⟨T', k1, k2, k3⟩ := restoreU_any (hd := hd) os s'.log s'.h T1 (prevBuc oa s') w'.r1 so1
      (by
        intro hp
        unfold prevBuc at hp
        cases hL : L with
        | nil => rw [lg, hL] at hp; exact absurd rfl hp
        | cons q L' =>
          have hw : s'.within = true := by
            rw [lg, hL] at hp
            simp only [logOf, List.map_cons] at hp
            by_contra k
            rw [if_neg k] at hp
            exact hp rfl
          have := (wi q.1 q.2 L' hL).1 hw
          intro k
          have ho := w'.r1.nodes_nil.1 k
          have := (w'.r1.ordB q.1).2 this
          rw [ho] at this
          exact nomatch this)
      (by rw [snd]; exact (List.nodup_append.1 nd).2.1)
      (by
        intro x hx
        have xm : x ∈ T.nodes := (memT x).2 (Or.inr hx)
        refine ⟨fun k => r.nz (by simp [← k, xm]), ?_, r.dis x (by simp [xm])⟩
        intro k
        rcases List.mem_cons.1 k with k | k
        · exact (List.nodup_cons.1 r.nd).1 (k ▸ xm)
        · rw [nodes_groups] at k
          rw [snd] at hx
          exact (List.nodup_append.1 nd).2.2 x k x hx rfl)
    refine ⟨_, true, rfl, T', k1, fun _ => k2, ?_⟩
    refine (List.perm_ext_iff_of_nodup (List.nodup_cons.1 k1.nd).2 ndT).2 fun y => ?_
    rw [k3, memT]
    exact Or.comm
  | false =>
    have fresh : Fresh na cpy (newTab hash na.size L) hd := by
      have := w'.ap.n1 hd (by simp)
      exact ⟨fun k => r.nz (by simp [k]), this.1, this.2⟩
    have r2 := rehashFinish_rep w'.r2 fresh
    have oc' : OfCat .uniq (newTab hash na.size L) := by
      intro _ i g hg
      rw [newTab_B, List.mem_filter, List.mem_map] at hg
      obtain ⟨⟨q, hq, rfl⟩, -⟩ := hg
      exact soL q hq
    refine ⟨_, false, rfl, newTab hash na.size L, r2, oc', ?_⟩
    refine (List.perm_ext_iff_of_nodup (List.nodup_cons.1 r2.nd).2 ndT).2 fun y => ?_
    rw [memT, r2.mem_nodes, hb.1 rfl, snd]
    simp only [List.not_mem_nil, false_or]
    constructor
    · rintro ⟨j, hj⟩
      obtain ⟨g, hg, hy⟩ := mem_gnodes.1 hj
      rw [newTab_B, List.mem_filter] at hg
      exact mem_gnodes.2 ⟨g, hg.1, hy⟩
    · intro hy
      obtain ⟨g, hg, hy⟩ := mem_gnodes.1 hy
      refine ⟨hash g.last % na.size, mem_gnodes.2 ⟨g, ?_, hy⟩⟩
      rw [newTab_B, List.mem_filter]
      exact ⟨hg, by simp⟩

end
end MI.Hash
