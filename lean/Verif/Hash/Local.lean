import Verif.Hash.Ops
/-!
# Local iteration of hashed indices

Models `begin(n)`, `end(n)` and `++` of local iterators, and the loops over a bucket that are written with them.
-/
namespace MI.Hash
open MI

/-- `begin(m)`: hashed_index.hpp:692-697. The null pointer is `end(m)`, hashed_index.hpp:704-707. -/
def localBegin (h : Heap) (a : Arr) (m : Nat) : Id := h.prior (a.at m)

/-- `for(it=x;it!=end(m);++it)`: the elements met; `none` if this takes more than `n` steps. `++`: hash_index_iterator.hpp:133-136, hash_index_node.hpp:765-768 (`increment_local`). -/
def localFrom (c : Cat) (h : Heap) : Nat → Id → Option (List Id)
  | 0, x => if x = 0 then some [] else none
  | n + 1, x => if x = 0 then some [] else (localFrom c h n (afterLocal c h x)).map (x :: ·)

/-- `for(it=begin(m);it!=end(m);++it)`: the elements met. -/
def localWalk (n : Nat) (c : Cat) (h : Heap) (a : Arr) (m : Nat) : Option (List Id) := localFrom c h n (localBegin h a m)

section
variable {c : Cat} {eq : Id → Id → Bool} {hash : Id → Nat} {h : Heap} {a : Arr} {hd : Id} {T : Tab} {xs : List Id} {n : Nat}

/-- A bucket holds the elements whose hash leads to it, in traversal order. -/
theorem Rep.bucket_filter (r : Rep h a hd T) (gd : Good c a.size eq hash T) (m : Nat) :
    gnodes (T.B m) = T.nodes.filter (fun x => hash x % a.size == m) := by
  have none' : ∀ o : List Nat, m ∉ o → (nodesO T.B o).filter (fun x => hash x % a.size == m) = [] := by
    intro o ho
    rw [List.filter_eq_nil_iff]
    intro y hy
    simp only [nodesO, List.mem_flatMap] at hy
    obtain ⟨j, hj, hy⟩ := hy
    have := gd.place j y hy
    simp only [beq_iff_eq, this]
    rintro rfl
    exact ho hj
  by_cases hB : T.B m = []
  · have : m ∉ T.ord := fun k => (r.ordB m).1 k hB
    rw [hB]
    exact (none' T.ord this).symm
  · obtain ⟨o1, o2, e⟩ := List.append_of_mem ((r.ordB _).2 hB)
    have ond := r.ordnd
    rw [e] at ond
    have n1 : m ∉ o1 := fun k => (List.nodup_append.1 ond).2.2 m k m (by simp) rfl
    have n2 : m ∉ o2 := (List.nodup_cons.1 (List.nodup_append.1 ond).2.1).1
    rw [nodes_split e, List.filter_append, List.filter_append, none' o1 n1, none' o2 n2, List.filter_eq_self.2]
    · simp
    · intro y hy
      simp [gd.place m y hy]

theorem localFrom_spec (r : Rep h a hd T) (oc : OfCat c T) {i : Nat} : ∀ (v u : List Id) (n : Nat), gnodes (T.B i) = u ++ v →
    v.length ≤ n → localFrom c h n (v.headD 0) = some v
  | [], u, n, _, _ => by cases n <;> simp [localFrom]
  | y :: v, u, 0, _, hn => by simp at hn
  | y :: v, u, n + 1, e, hn => by
    have al : afterLocal c h y = v.headD 0 := r.afterLocal oc e
    have y0 : y ≠ 0 := by
      rintro rfl
      exact r.nz (List.mem_cons_of_mem _ (r.mem_nodes.2 ⟨i, by rw [e]; simp⟩))
    have ih := localFrom_spec r oc v (u ++ [y]) n (by rw [e]; simp) (by simpa using hn)
    rw [List.headD_cons, localFrom, if_neg y0, al, ih]
    rfl

/-- The local traversal of bucket `m`. -/
theorem Holds.localWalk (w : Holds c eq hash h a hd xs) (hn : xs.length ≤ n) {m : Nat} (hm : m < a.size) :
    Hash.localWalk n c h a m = some (xs.filter fun x => hash x % a.size == m) := by
  obtain ⟨s0, T, r, gd, rfl⟩ := w
  unfold Hash.localWalk localBegin Arr.at
  rw [← r.bucket_filter gd, r.bucketFirst hm]
  refine localFrom_spec r gd.cat _ [] n rfl (Nat.le_trans ?_ hn)
  rw [r.bucket_filter gd]
  exact List.length_filter_le ..

end

/-! ## Comparisons made by lookups -/

/-- The elements whose keys the loop of `find` (`findLoop`) compares with the given key, in this order: hashed_index.hpp:1703-1708. -/
def compared (c : Cat) (p : Id → Bool) (h : Heap) : Nat → Id → List Id
  | 0, _ => []
  | n + 1, x =>
    if x = 0 then []
    else if p x then [x]
    else x :: compared c p h n (nextToInspect c h x)

section
variable {c : Cat} {eq : Id → Id → Bool} {hash : Id → Nat} {h : Heap} {a : Arr} {hd : Id} {T : Tab} {xs : List Id} {n : Nat}

/-- The result of the loop depends only on the comparisons listed: if it finds something then it is the last one. -/
theorem findLoop_compared {p : Id → Bool} : ∀ {n : Nat} {x y : Id}, findLoop c p h n x = .ok (some y) →
    ∃ l, compared c p h n x = l ++ [y] ∧ p y = true ∧ ∀ z ∈ l, p z = false
  | 0, x, y, e => by simp only [findLoop] at e; split at e <;> cases e
  | n + 1, x, y, e => by
    simp only [findLoop] at e
    split at e
    · cases e
    · rename_i hx
      split at e
      · rename_i hp
        cases e
        exact ⟨[], by simp [compared, hx, hp], hp, by simp⟩
      · rename_i hp
        obtain ⟨l, h1, h2, h3⟩ := findLoop_compared e
        refine ⟨x :: l, by simp [compared, hx, hp, h1], h2, ?_⟩
        intro z hz
        rcases List.mem_cons.1 hz with rfl | hz
        · simpa using hp
        · exact h3 z hz

theorem compared_solid (r : Rep h a hd T) (oc : OfCat c T) (so : ∀ i, ∀ g ∈ T.B i, g.Solid) (p : Id → Bool) {i : Nat} :
    ∀ (R G : List Grp) (n : Nat), T.B i = G ++ R → compared c p h n ((gnodes R).headD 0) <+: R.map Grp.first
  | [], G, n, _ => by cases n <;> simp [compared]
  | g :: R, G, 0, _ => by simp [compared]
  | g :: R, G, n + 1, hB => by
    have hg : (gnodes (g :: R)).headD 0 = g.first := by rw [gnodes_cons, g.toList_eq_first]; simp
    rw [hg, compared]
    split
    · exact List.nil_prefix
    · split
      · simp
      · rw [r.inspect oc hB (so i g (by rw [hB]; simp)), List.map_cons, List.prefix_cons_inj]
        exact compared_solid r oc so p R (G ++ [g]) n (by rw [hB]; simp)

theorem parts_count (eh : EqHash eq hash) {b : Nat} (x : Id) : ∀ {gs : List Grp}, (∀ g ∈ gs, g.parts.length ≤ b) →
    (∀ g ∈ gs, ∀ x ∈ g.toList, ∀ y ∈ g.toList, eq x y = true) →
    gs.Pairwise (fun g g' => ∀ x ∈ g.toList, ∀ y ∈ g'.toList, eq x y = false) →
    ((gs.flatMap Grp.parts).map Grp.first).countP (fun y => eq x y) ≤ b
  | [], _, _, _ => by simp
  | g :: gs, hb, hs, hd => by
    rw [List.pairwise_cons] at hd
    rw [List.flatMap_cons, List.map_append, List.countP_append]
    by_cases hg : eq x g.first = true
    · have h0 : ((gs.flatMap Grp.parts).map Grp.first).countP (fun y => eq x y) = 0 := by
        rw [List.countP_eq_zero]
        intro y hy k
        obtain ⟨q, hq, rfl⟩ := List.mem_map.1 hy
        have hm : q.first ∈ gnodes gs := by
          rw [← gnodes_parts]
          exact mem_gnodes.2 ⟨q, hq, q.first_mem⟩
        obtain ⟨g', hg', hm⟩ := mem_gnodes.1 hm
        have := hd.1 g' hg' g.first g.first_mem q.first hm
        rw [eh.trans (eh.symm hg) k] at this
        cases this
      have h1 : (g.parts.map Grp.first).countP (fun y => eq x y) ≤ b :=
        Nat.le_trans List.countP_le_length (by rw [List.length_map]; exact hb g (by simp))
      omega
    · have h0 : (g.parts.map Grp.first).countP (fun y => eq x y) = 0 := by
        rw [List.countP_eq_zero]
        intro y hy k
        obtain ⟨q, hq, rfl⟩ := List.mem_map.1 hy
        have hm : q.first ∈ g.toList := by
          rw [← g.parts_toList]
          exact List.mem_flatMap.2 ⟨q, hq, q.first_mem⟩
        exact hg (eh.trans k (hs g (by simp) _ hm _ g.first_mem))
      have := parts_count eh x (fun g' h' => hb g' (by simp [h'])) (fun g' h' => hs g' (by simp [h'])) hd.2
      omega

/-- The loop compares only elements of one bucket, each at most once, and at most two (one if the index is unique) of those with the
same key. -/
theorem Holds.compared (w : Holds c eq hash h a hd xs) (eh : EqHash eq hash) (p : Id → Bool) (hk : Nat) (n : Nat) :
    (Hash.compared c p h n (h.prior (a.at (a.position hk)))).Nodup ∧
    (∀ y ∈ Hash.compared c p h n (h.prior (a.at (a.position hk))), y ∈ xs ∧ hash y % a.size = hk % a.size) ∧
    ∀ x, (Hash.compared c p h n (h.prior (a.at (a.position hk)))).countP (fun y => eq x y) ≤ (if c = .uniq then 1 else 2) := by
  obtain ⟨s0, T, r, gd, rfl⟩ := w
  have hl := Nat.mod_lt hk s0
  have r' := rep_parts.2 r
  have pre : Hash.compared c p h n (h.prior (a.base + hk % a.size)) <+: ((T.B (hk % a.size)).flatMap Grp.parts).map Grp.first := by
    rw [r'.bucketFirst hl]
    exact compared_solid r' gd.cat.parts (fun i g hg => parts_solid T i g hg) p _ [] n rfl
  have sub := pre.sublist
  have sub2 : ((T.B (hk % a.size)).flatMap Grp.parts).map Grp.first |>.Sublist (gnodes (T.B (hk % a.size))) := by
    rw [← gnodes_parts]
    generalize (T.B (hk % a.size)).flatMap Grp.parts = gs
    induction gs with
    | nil => simp
    | cons g gs ih =>
      rw [List.map_cons, gnodes_cons, g.toList_eq_first, List.cons_append]
      exact (ih.trans (List.sublist_append_right _ _)).cons_cons _
  refine ⟨(r.bucket_nodup _).sublist (sub.trans sub2), fun y hy => ?_, fun x => ?_⟩
  · have hm := sub2.subset (sub.subset hy)
    exact ⟨r.mem_nodes.2 ⟨_, hm⟩, gd.place _ y hm⟩
  · refine Nat.le_trans (sub.countP_le) (parts_count eh x (fun g hg => ?_) (gd.same _) (gd.diff _))
    cases c with
    | uniq =>
      obtain ⟨y, rfl⟩ := gd.cat rfl _ g hg
      simp [Grp.parts]
    | multi =>
      cases g with
      | one => simp [Grp.parts]
      | many f mid l => cases mid <;> simp [Grp.parts]

end
end MI.Hash
