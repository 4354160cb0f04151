import Verif.Hash.Rehash
set_option linter.unusedSimpArgs false
/-! Rehashing as a whole. -/
namespace MI.Hash
open MI

/-- The memory for the new bucket array and the local node of rehashing is not used by the index. -/
structure NewMem (oa na : Arr) (hd cpy : Id) (xs : List Id) : Prop where
  b0 : 0 < na.base
  c0 : cpy ≠ 0
  cn : cpy ∉ hd :: xs
  co : cpy < oa.base ∨ oa.endB < cpy
  cna : cpy < na.base ∨ na.endB < cpy
  xn : ∀ z ∈ hd :: xs, z < na.base ∨ na.endB < z
  ar : oa.endB < na.base ∨ na.endB < oa.base

section
variable {c : Cat} {eq : Id → Id → Bool} {h : Heap} {oa na : Arr} {hd cpy : Id} {hash : Id → Nat} {T : Tab}

theorem Grp.parts_last_mem (g : Grp) : ∀ q ∈ g.parts, q.last ∈ g.toList := by
  intro q hq
  cases g with
  | one x => simp [Grp.parts] at hq; simp [hq]
  | many f mid l =>
    cases mid with
    | nil => simp [Grp.parts] at hq; rcases hq with rfl | rfl <;> simp
    | cons s r => simp [Grp.parts] at hq; simp [hq]

theorem parts_place (gd : Good c oa.size eq hash T) : ∀ i, ∀ g ∈ T.parts.B i, hash g.last % oa.size = i := by
  intro i g hg
  simp only [Tab.parts, List.mem_flatMap] at hg
  obtain ⟨q, hq, hg⟩ := hg
  exact gd.place i _ (mem_gnodes.2 ⟨q, hq, q.parts_last_mem g hg⟩)

theorem Rep.groups_mem {a : Arr} (r : Rep h a hd T) {g : Grp} : g ∈ T.groups ↔ ∃ i, g ∈ T.B i := by
  simp only [Tab.groups, List.mem_flatMap]
  constructor
  · rintro ⟨i, -, k⟩; exact ⟨i, k⟩
  · rintro ⟨i, k⟩
    exact ⟨i, (r.ordB i).2 (by intro q; rw [q] at k; simp at k), k⟩

theorem newTab_B (hash : Id → Nat) (size : Nat) (j : Nat) : ∀ L : List (Nat × Grp),
    (newTab hash size L).B j = (L.map (·.2)).filter (fun g => decide (hash g.last % size = j))
  | [] => rfl
  | (i, g) :: L => by
    simp only [newTab, Tab.put, List.map_cons, List.filter_cons]
    by_cases k : hash g.last % size = j
    · subst k
      simp [newTab_B hash size _ L]
    · rw [upd_other _ _ (Ne.symm k), newTab_B hash size j L]
      simp [k]

theorem Tab.parts_groups (T : Tab) : T.parts.groups = T.groups.flatMap Grp.parts := by
  simp [Tab.parts, Tab.groups, List.flatMap_assoc]

/-- All different groups of a well formed table have different elements. -/
theorem Good.groups_diff (r : Rep h oa hd T) (gd : Good c oa.size eq hash T) (eh : EqHash eq hash) :
    T.groups.Pairwise (fun g g' => ∀ x ∈ g.toList, ∀ y ∈ g'.toList, eq x y = false) := by
  unfold Tab.groups
  rw [List.pairwise_flatMap]
  refine ⟨fun i _ => gd.diff i, ?_⟩
  refine List.Pairwise.imp ?_ r.ordnd
  intro i j ne g hg g' hg' x hx y hy
  by_contra k
  have k : eq x y = true := by simpa using k
  apply ne
  rw [← gd.place i x (mem_gnodes.2 ⟨g, hg, hx⟩), ← gd.place j y (mem_gnodes.2 ⟨g', hg', hy⟩), eh.cons k]

theorem filter_flatMap_parts (hash : Id → Nat) (size j : Nat) : ∀ gs : List Grp,
    (∀ g ∈ gs, ∀ x ∈ g.toList, hash x = hash g.last) →
    (gs.flatMap Grp.parts).filter (fun g => decide (hash g.last % size = j)) =
      (gs.filter (fun g => decide (hash g.last % size = j))).flatMap Grp.parts
  | [], _ => rfl
  | g :: gs, hg => by
    have ih := filter_flatMap_parts hash size j gs (fun g' h' => hg g' (by simp [h']))
    rw [List.flatMap_cons, List.filter_append, ih, List.filter_cons]
    have hq : ∀ q ∈ g.parts, hash q.last = hash g.last := fun q hq => hg g (by simp) _ (g.parts_last_mem q hq)
    by_cases k : hash g.last % size = j
    · rw [if_pos (by simpa using k), List.flatMap_cons]
      congr 1
      rw [List.filter_eq_self]
      intro q h'
      simp [hq q h', k]
    · rw [if_neg (by simpa using k)]
      have : g.parts.filter (fun g => decide (hash g.last % size = j)) = [] := by
        rw [List.filter_eq_nil_iff]
        intro q h'
        simp [hq q h', k]
      rw [this, List.nil_append]

/-- The table after complete rehashing. -/
theorem rehashed_good (r : Rep h oa hd T) (gd : Good c oa.size eq hash T) (eh : EqHash eq hash) {h' : Heap} {hd' : Id} {L : List (Nat × Grp)} {T1 : Tab}
    (p : Popped T.parts L T1) (r1 : T1.ord = []) (r' : Rep h' na hd' (newTab hash na.size L)) :
    ∃ T', Rep h' na hd' T' ∧ Good c na.size eq hash T' ∧ T'.nodes.Perm T.nodes ∧
      ∀ y, T'.nodes.filter (eq y) = T.nodes.filter (eq y) := by
  have ond : T.parts.ord.Nodup := r.ordnd
  have gr := p.groups ond
  have g1 : T1.groups = [] := by simp [Tab.groups, r1]
  rw [g1, List.nil_append, Tab.parts_groups] at gr
  have hsame : ∀ g ∈ T.groups, ∀ x ∈ g.toList, hash x = hash g.last := by
    intro g hg x hx
    obtain ⟨i, hi⟩ := r.groups_mem.1 hg
    exact eh.cons (gd.same i g hi x hx _ g.last_mem)
  let T' : Tab := ⟨(newTab hash na.size L).ord, fun j => T.groups.filter (fun g => decide (hash g.last % na.size = j))⟩
  have hp : T'.parts = newTab hash na.size L := by
    have : T'.parts.B = (newTab hash na.size L).B := by
      funext j
      rw [newTab_B, ← gr, filter_flatMap_parts _ _ _ _ hsame]
      rfl
    show (⟨(newTab hash na.size L).ord, T'.parts.B⟩ : Tab) = _
    rw [this]
  have r2 : Rep h' na hd' T' := rep_parts.1 (hp ▸ r')
  have gd' : Good c na.size eq hash T' := by
    refine ⟨?_, ?_, ?_, ?_⟩
    · intro j x hx
      obtain ⟨g, hg, hx⟩ := mem_gnodes.1 hx
      simp only [T', List.mem_filter, decide_eq_true_eq] at hg
      rw [hsame g hg.1 x hx]
      exact hg.2
    · intro j g hg
      simp only [T', List.mem_filter, decide_eq_true_eq] at hg
      obtain ⟨i, hi⟩ := r.groups_mem.1 hg.1
      exact gd.same i g hi
    · intro j
      exact (gd.groups_diff r eh).filter _
    · intro hc j g hg
      simp only [T', List.mem_filter, decide_eq_true_eq] at hg
      obtain ⟨i, hi⟩ := r.groups_mem.1 hg.1
      exact gd.cat hc i g hi
  have mem : ∀ x, x ∈ T'.nodes ↔ x ∈ T.nodes := by
    intro x
    rw [r2.mem_nodes, r.mem_nodes]
    constructor
    · rintro ⟨j, hj⟩
      obtain ⟨g, hg, hx⟩ := mem_gnodes.1 hj
      simp only [T', List.mem_filter, decide_eq_true_eq] at hg
      obtain ⟨i, hi⟩ := r.groups_mem.1 hg.1
      exact ⟨i, mem_gnodes.2 ⟨g, hi, hx⟩⟩
    · rintro ⟨i, hi⟩
      obtain ⟨g, hg, hx⟩ := mem_gnodes.1 hi
      refine ⟨hash g.last % na.size, mem_gnodes.2 ⟨g, ?_, hx⟩⟩
      simp only [T', List.mem_filter, decide_eq_true_eq, and_true]
      exact r.groups_mem.2 ⟨i, hg⟩
  have nd := (List.nodup_cons.1 r.nd).2
  have nd' := (List.nodup_cons.1 r2.nd).2
  refine ⟨T', r2, gd', (List.perm_ext_iff_of_nodup nd' nd).2 mem, ?_⟩
  intro y
  by_cases hx : ∃ x ∈ T.nodes, eq y x = true
  · obtain ⟨x, xm, px⟩ := hx
    have key : ∀ {h : Heap} {a : Arr} {hd : Id} {S : Tab}, Rep h a hd S → Good c a.size eq hash S → x ∈ S.nodes →
        ∃ i g, g ∈ S.B i ∧ x ∈ g.toList ∧ S.nodes.filter (eq y) = g.toList := by
      intro h a hd S rs gs xs
      obtain ⟨G1, g, G2, pre, post, hB, xg, hn, h1, h2, -⟩ := rs.group_of gs eh (p := eq y) (hk := hash y)
        (fun u v h1 h2 => eh.trans h1 h2) (fun u v h1 h2 => eh.trans (eh.symm h1) h2) (fun u h1 => eh.cons h1) xs px
      refine ⟨_, g, by rw [hB]; simp, xg, ?_⟩
      rw [hn, List.filter_append, List.filter_append, List.filter_eq_self.2 h1,
        List.filter_eq_nil_iff.2 (fun z hz => by simp [h2 z (by simp [hz])]),
        List.filter_eq_nil_iff.2 (fun z hz => by simp [h2 z (by simp [hz])])]
      simp
    obtain ⟨i, g, hg, xg, e1⟩ := key r gd xm
    obtain ⟨j, g', hg', xg', e2⟩ := key r2 gd' ((mem x).2 xm)
    rw [e1, e2]
    simp only [T', List.mem_filter, decide_eq_true_eq] at hg'
    obtain ⟨i', hi'⟩ := r.groups_mem.1 hg'.1
    by_cases k : g = g'
    · rw [k]
    · exfalso
      have pw := gd.groups_diff r eh
      have hgm : g ∈ T.groups := r.groups_mem.2 ⟨i, hg⟩
      have q : eq x x = false := by
        rcases List.append_of_mem hgm with ⟨l1, l2, hl⟩
        rw [hl, List.pairwise_append, List.pairwise_cons] at pw
        have hm : g' ∈ l1 ++ g :: l2 := hl ▸ hg'.1
        simp only [List.mem_append, List.mem_cons] at hm
        rcases hm with m | m | m
        · exact pw.2.2 g' m g (by simp) x xg' x xg
        · exact absurd m.symm k
        · exact pw.2.1.1 g' m x xg x xg'
      rw [eh.refl] at q
      cases q
  · have h1 : T.nodes.filter (eq y) = [] := by
      rw [List.filter_eq_nil_iff]
      intro z hz k
      exact hx ⟨z, hz, k⟩
    have h2 : T'.nodes.filter (eq y) = [] := by
      rw [List.filter_eq_nil_iff]
      intro z hz k
      exact hx ⟨z, (mem z).1 hz, k⟩
    rw [h1, h2]

/-- Rehashing: either it succeeds, or the hash function throws and everything is as before. -/
theorem rehash_table {t : Option Nat} (r : Rep h oa hd T) (gd : Good c oa.size eq hash T) (eh : EqHash eq hash) (os : 0 < oa.size) (ns : 0 < na.size)
    (nm : NewMem oa na hd cpy T.nodes) :
    ∃ h' b, rehash c hash T.nodes.length t h oa na hd cpy = .ok (h', b) ∧ (t = none → b = false) ∧
      (b = true → Rep h' oa hd T) ∧
      (b = false → ∃ T', Rep h' na hd T' ∧ Good c na.size eq hash T' ∧ T'.nodes.Perm T.nodes ∧
        ∀ y, T'.nodes.filter (eq y) = T.nodes.filter (eq y)) ∧
      (b = true ↔ ∃ k, t = some k ∧ k < T.parts.groups.length) ∧
      rehashCalls c hash T.nodes.length t h na hd cpy ≤ T.parts.groups.length ∧
      (b = false → rehashCalls c hash T.nodes.length t h na hd cpy = T.parts.groups.length) := by
  obtain ⟨c1, c2, c3⟩ := clear_rep h nm.b0 nm.c0 nm.cna
  have hcn : ∀ z ∈ hd :: T.nodes, z ≠ cpy := fun z hz k => nm.cn (k ▸ hz)
  have rc : Rep (clear h na cpy) oa hd T := by
    refine r.congr ?_ ?_ ?_
    · intro z hz
      exact c2 z (hcn z hz) (nm.xn z hz)
    · intro z h1 h2
      refine c2 z ?_ ?_
      · have := nm.co
        simp only [Id] at *
        omega
      · have := nm.ar
        simp only [Id] at *
        omega
    · intro z hz
      exact c3 z (hcn z hz)
  have rp := rep_parts.2 rc
  have en : Tab.empty.nodes = [] := rfl
  have w : Two (clear h na cpy) oa hd T.parts na cpy (newTab hash na.size []) := by
    refine ⟨rp, c1, ⟨?_, ?_, nm.ar⟩⟩
    · intro z hz
      rw [Tab.parts_nodes] at hz
      refine ⟨?_, nm.xn z hz⟩
      simp only [newTab, en, List.mem_cons, List.not_mem_nil, or_false]
      exact hcn z hz
    · intro z hz
      simp only [newTab, en, List.mem_cons, List.not_mem_nil, or_false] at hz
      subst hz
      exact nm.co
  have pl := parts_place gd
  have fresh : ∀ {h' : Heap} {T1 : Tab} {L : List (Nat × Grp)}, Two h' oa hd T1 na cpy (newTab hash na.size L) →
      Fresh na cpy (newTab hash na.size L) hd := by
    intro h' T1 L w'
    have := w'.ap.n1 hd (by simp)
    exact ⟨fun k => r.nz (by simp [k]), this.1, this.2⟩
  have wi0 : WithinOk [] T.parts false := by intro i g r k; cases k
  have fin : ∀ {s' : RS} {L : List (Nat × Grp)} {T1 : Tab}, Popped T.parts L T1 → Two s'.h oa hd T1 na cpy (newTab hash na.size L) →
      T1.nodes = [] → ∃ T', Rep (rehashFinish s'.h hd cpy) na hd T' ∧ Good c na.size eq hash T' ∧ T'.nodes.Perm T.nodes ∧
        ∀ y, T'.nodes.filter (eq y) = T.nodes.filter (eq y) := by
    intro s' L T1 p w' e
    exact rehashed_good r gd eh p (w'.r1.nodes_nil.1 e) (rehashFinish_rep w'.r2 (fresh w'))
  have cnt : ∀ {s' : RS} {L : List (Nat × Grp)} {T1 : Tab} {b : Bool}, Popped T.parts L T1 → Two s'.h oa hd T1 na cpy (newTab hash na.size L) →
      s'.log = logOf hash L → (b = false ↔ T1.nodes = []) → s'.log.length + (if b then 1 else 0) ≤ T.parts.groups.length ∧
        (b = false → s'.log.length + (if b then 1 else 0) = T.parts.groups.length) := by
    intro s' L T1 b p w' lg hb
    have e := congrArg List.length (p.groups rp.ordnd)
    simp only [List.length_append, List.length_map] at e
    have ll : s'.log.length = L.length := by rw [lg]; simp [logOf]
    cases b with
    | true =>
      have := w'.r1.groups_pos (fun k => nomatch hb.2 k)
      simp only [if_true]
      exact ⟨by omega, fun k => nomatch k⟩
    | false =>
      have := w'.r1.groups_nil (hb.1 rfl)
      rw [this] at e
      simp only [Bool.false_eq_true, if_false, List.length_nil] at e ⊢
      exact ⟨by omega, fun _ => by omega⟩
  cases c with
  | uniq =>
    have so : ∀ i, ∀ g ∈ T.parts.B i, ∃ x, g = .one x := fun i g hg => gd.cat.parts rfl i g hg
    obtain ⟨s', b, L, T1, e1, p, w', lg, wi, hb, ht⟩ := rehashLoopU_spec (hash := hash) (cpy := cpy) ns so T.nodes.length t
      { h := clear h na cpy } [] T.parts Popped.nil w rfl wi0 (by rw [Tab.parts_nodes])
    have ct := cnt p w' lg hb
    simp only [rehash, rehashU, rehashCalls, e1]
    cases b with
    | true =>
      refine ⟨_, true, rfl, fun k => absurd (ht.1 rfl) (by simp [k]), fun _ => ?_, (fun k => nomatch k), ht, ct⟩
      rw [lg]
      exact rep_parts.1 (restoreU_spec rp os so pl L _ T1 _ p w'.r1 (prevBuc_ok p pl lg wi))
    | false =>
      exact ⟨_, false, rfl, fun _ => rfl, (fun k => nomatch k), fun _ => fin p w' (hb.1 rfl), ht, ct⟩
  | multi =>
    have so : ∀ i, ∀ g ∈ T.parts.B i, g.Solid := fun i g hg => parts_solid T i g hg
    simp only [rehash, rehashN, rehashCalls]
    by_cases z0 : T.nodes.length = 0
    · rw [if_pos z0, if_pos z0]
      have e : T.parts.nodes = [] := by rw [Tab.parts_nodes]; exact List.length_eq_zero_iff.1 z0
      exact ⟨_, false, rfl, fun _ => rfl, (fun k => nomatch k), fun _ => fin (s' := { h := clear h na cpy }) Popped.nil w e, by simp [rp.groups_nil e], by omega, fun _ => by simp [rp.groups_nil e]⟩
    · rw [if_neg z0, if_neg z0]
      obtain ⟨s', b, L, T1, e1, p, w', lg, wi, hb, ht⟩ := rehashLoopN_spec (hash := hash) (cpy := cpy) ns so T.nodes.length t
        { h := clear h na cpy } [] T.parts Popped.nil w rfl wi0 (by rw [Tab.parts_nodes]; exact Nat.le_refl _)
      have ct := cnt p w' lg hb
      rw [e1]
      cases b with
      | true =>
        refine ⟨_, true, rfl, fun k => absurd (ht.1 rfl) (by simp [k]), fun _ => ?_, (fun k => nomatch k), ht, ct⟩
        rw [lg]
        exact rep_parts.1 (restoreN_spec os rp.ordnd so pl L _ T1 _ p w' (prevBuc_ok p pl lg wi))
      | false =>
        exact ⟨_, false, rfl, fun _ => rfl, (fun k => nomatch k), fun _ => fin p w' (hb.1 rfl), ht, ct⟩

end
end MI.Hash
