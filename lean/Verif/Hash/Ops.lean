import Verif.Hash.InPlace2
import Verif.Hash.Rehash2
set_option linter.unusedSimpArgs false
/-! Operations of hashed indices in terms of the list of elements. -/
namespace MI.Hash
open MI

/-- The address `x` is not used by the index. -/
def FreshId (a : Arr) (hd : Id) (xs : List Id) (x : Id) : Prop := x ≠ 0 ∧ x ∉ hd :: xs ∧ (x < a.base ∨ a.endB < x)

section
variable {c : Cat} {eq eq' : Id → Id → Bool} {hash hash' : Id → Nat} {h : Heap} {a : Arr} {hd x : Id} {xs : List Id} {n : Nat}

theorem Holds.nodup (w : Holds c eq hash h a hd xs) : (hd :: xs).Nodup := by
  obtain ⟨-, T, r, -, rfl⟩ := w; exact r.nd

theorem Holds.nz (w : Holds c eq hash h a hd xs) : 0 ∉ hd :: xs := by
  obtain ⟨-, T, r, -, rfl⟩ := w; exact r.nz

theorem Holds.dis (w : Holds c eq hash h a hd xs) : ∀ x ∈ hd :: xs, x < a.base ∨ a.endB < x := by
  obtain ⟨-, T, r, -, rfl⟩ := w; exact r.dis

theorem Holds.size_pos (w : Holds c eq hash h a hd xs) : 0 < a.size := w.1

/-! ## Traversal -/

theorem Holds.begin (w : Holds c eq hash h a hd xs) : Hash.begin h hd = xs.headD hd := by
  obtain ⟨-, T, r, -, rfl⟩ := w; exact r.begin

theorem Holds.after (w : Holds c eq hash h a hd xs) {u v : List Id} (e : xs = u ++ x :: v) : Hash.after c h x = v.headD hd := by
  obtain ⟨-, T, r, gd, rfl⟩ := w; exact r.after gd.cat e

/-- Elements that compare equal are adjacent. -/
theorem Holds.grouped (w : Holds c eq hash h a hd xs) (eh : EqHash eq hash) : Grouped eq xs := by
  obtain ⟨-, T, r, gd, rfl⟩ := w
  intro u v w x y z e exy hz
  obtain ⟨G1, g, G2, pre, post, -, -, hn, hg, ho, -⟩ := r.group_of gd eh (p := eq x) (hk := hash x) (fun _ _ h1 h2 => eh.trans h1 h2)
    (fun _ _ h1 h2 => eh.trans (eh.symm h1) h2) (fun _ h1 => eh.cons h1) (x := x) (by rw [e]; simp) (eh.refl x)
  have nd := (List.nodup_cons.1 r.nd).2
  -- the list splits as `pre`, the elements equal to `x`, `post`; `x` and `y` are in the middle part
  have key : ∀ (pre u v w : List Id) (x y z : Id) (m post : List Id), pre ++ m ++ post = u ++ x :: v ++ y :: w → x ∉ pre → y ∉ post →
      (pre ++ m ++ post).Nodup → z ∈ v → z ∈ m := by
    intro pre
    induction pre with
    | nil =>
      intro u v w x y z m post e hx hy nd hz
      simp only [List.nil_append] at e nd
      have zm : z ∈ m ++ post := by rw [e]; simp [hz]
      rcases List.mem_append.1 zm with k | k
      · exact k
      · exfalso
        have ym : y ∈ m := by
          have : y ∈ m ++ post := by rw [e]; simp
          exact (List.mem_append.1 this).resolve_right hy
        obtain ⟨m1, m2, rfl⟩ := List.append_of_mem ym
        obtain ⟨p1, p2, rfl⟩ := List.append_of_mem k
        have e1 : m1 ++ y :: (m2 ++ (p1 ++ z :: p2)) = (u ++ x :: v) ++ y :: w := by rw [← e]; simp
        have := split_unique (by rw [← List.append_assoc] at nd; simpa using nd) e1
        obtain ⟨e2, -⟩ := this
        have zm : z ∈ m1 := by rw [e2]; simp [hz]
        simp only [List.nodup_append] at nd
        exact nd.2.2 z (by simp [zm]) z (by simp) rfl
    | cons q pre ih =>
      intro u v w x y z m post e hx hy nd hz
      simp only [List.mem_cons, not_or] at hx
      cases u with
      | nil =>
        simp only [List.cons_append, List.nil_append, List.cons.injEq] at e
        exact absurd e.1.symm hx.1
      | cons u0 u =>
        simp only [List.cons_append, List.cons.injEq] at e nd
        exact ih u v w x y z m post (by simpa using e.2) hx.2 hy (List.nodup_cons.1 nd).2 hz
  refine hg z (key pre u v w x y z g.toList post (by rw [← hn]; exact e) ?_ ?_ (by rw [← hn]; exact nd) hz)
  · intro k
    have := ho x (by simp [k])
    rw [eh.refl] at this
    cases this
  · intro k
    have := ho y (by simp [k])
    rw [exy] at this
    cases this

/-- In unique indices no two elements compare equal. -/
theorem Holds.unique (w : Holds .uniq eq hash h a hd xs) (eh : EqHash eq hash) : xs.Pairwise (fun x y => eq x y = false) := by
  obtain ⟨-, T, r, gd, rfl⟩ := w
  rw [List.pairwise_iff_forall_sublist]
  intro x y hs
  by_contra k
  have k : eq x y = true := by simpa using k
  have nd := ((List.nodup_cons.1 r.nd).2.sublist hs)
  have sub := hs.subset
  obtain ⟨G1, g, G2, pre, post, hB, xg, hn, hg, ho, -⟩ := r.group_of gd eh (p := eq x) (hk := hash x) (fun _ _ h1 h2 => eh.trans h1 h2)
    (fun _ _ h1 h2 => eh.trans (eh.symm h1) h2) (fun _ h1 => eh.cons h1) (x := x) (sub (by simp)) (eh.refl x)
  obtain ⟨q, rfl⟩ := gd.cat rfl _ g (by rw [hB]; simp)
  simp only [Grp.toList_one, List.mem_singleton] at xg
  subst xg
  have ym : y ∈ T.nodes := sub (by simp)
  rw [hn] at ym
  simp only [Grp.toList_one, List.mem_append, List.mem_singleton] at ym
  rcases ym with (ym | rfl) | ym
  · rw [ho y (by simp [ym])] at k; cases k
  · simp at nd
  · rw [ho y (by simp [ym])] at k; cases k

/-! ## Lookup -/

section
variable {p : Id → Bool} {hk : Nat}

/-- The elements found by the inspection loop. -/
theorem Holds.findLoop (w : Holds c eq hash h a hd xs) (eh : EqHash eq hash) (hn : xs.length ≤ n)
    (ext : ∀ x y, p x = true → eq x y = true → p y = true) (one : ∀ x y, p x = true → p y = true → eq x y = true)
    (cons : ∀ x, p x = true → hk = hash x) :
    (Hash.findLoop c p h n (h.prior (a.at (a.position hk))) = .ok none ∧ ∀ y ∈ xs, p y = false) ∨
      ∃ f m u v, Hash.findLoop c p h n (h.prior (a.at (a.position hk))) = .ok (some f) ∧ xs = u ++ (f :: m) ++ v ∧
        (∀ y ∈ f :: m, p y = true) ∧ (∀ y ∈ u ++ v, p y = false) ∧ endOfRange c eq h f = v.headD hd := by
  obtain ⟨s0, T, r, gd, rfl⟩ := w
  rcases findLoop_good r gd eh s0 hn ext one cons with k | ⟨G1, g, G2, pre, post, h1, hB, hno, h2, h3⟩
  · exact Or.inl k
  · right
    have ap := gd.apart eh hB
    refine ⟨g.first, g.toList.tail, pre, post, h1, by rw [← g.toList_eq_first]; exact hno, by rw [← g.toList_eq_first]; exact h2, h3, ?_⟩
    exact (r.range gd.cat hB (gd.same _ g (by rw [hB]; simp)) (fun g2 m => ap.2 g2 m _ g.first_mem _ g2.first_mem)).2 pre post hno

theorem Holds.find (w : Holds c eq hash h a hd xs) (eh : EqHash eq hash) (hn : xs.length ≤ n)
    (ext : ∀ x y, p x = true → eq x y = true → p y = true) (one : ∀ x y, p x = true → p y = true → eq x y = true)
    (cons : ∀ x, p x = true → hk = hash x) :
    Hash.find n c p hk h a hd = .ok ((xs.find? p).getD hd) := by
  unfold Hash.find
  rcases w.findLoop eh hn ext one cons with ⟨k1, k2⟩ | ⟨f, m, u, v, k1, e, k2, k3, -⟩
  · rw [k1, List.find?_eq_none.2 (by intro y hy; simp [k2 y hy])]
    rfl
  · rw [k1, e, List.append_assoc, List.find?_append, List.find?_eq_none.2 (by intro y hy; simp [k3 y (by simp [hy])])]
    simp [k2 f (by simp)]

theorem Holds.count (w : Holds c eq hash h a hd xs) (eh : EqHash eq hash) (hn : xs.length ≤ n)
    (ext : ∀ x y, p x = true → eq x y = true → p y = true) (one : ∀ x y, p x = true → p y = true → eq x y = true)
    (cons : ∀ x, p x = true → hk = hash x) :
    Hash.count n c eq p hk h a = .ok (xs.countP p) := by
  unfold Hash.count
  have w' := w
  obtain ⟨s0, T, r, gd, rfl⟩ := w'
  rcases w.findLoop eh hn ext one cons with ⟨k1, k2⟩ | ⟨f, m, u, v, k1, e, k2, k3, k4⟩
  · rw [k1]
    simp only [Out.ok.injEq]
    symm
    rw [List.countP_eq_zero]
    intro y hy
    simp [k2 y hy]
  · rw [k1]
    simp only
    rw [k4, countLoop_spec r gd.cat m u f n 0 e (by
      rw [e] at hn; simp only [List.length_append, List.length_cons] at hn; omega)]
    congr 1
    have c1 : u.countP p = 0 := List.countP_eq_zero.2 (by intro y hy; simp [k3 y (by simp [hy])])
    have c2 : v.countP p = 0 := List.countP_eq_zero.2 (by intro y hy; simp [k3 y (by simp [hy])])
    rw [e, List.countP_append, List.countP_append, c1, c2, List.countP_eq_length.2 (by intro y hy; exact k2 y hy)]
    simp

theorem Holds.equalRange (w : Holds c eq hash h a hd xs) (eh : EqHash eq hash) (hn : xs.length ≤ n)
    (ext : ∀ x y, p x = true → eq x y = true → p y = true) (one : ∀ x y, p x = true → p y = true → eq x y = true)
    (cons : ∀ x, p x = true → hk = hash x) :
    (Hash.equalRange n c eq p hk h a hd = .ok (hd, hd) ∧ ∀ y ∈ xs, p y = false) ∨
      ∃ u f m v, Hash.equalRange n c eq p hk h a hd = .ok (f, v.headD hd) ∧ xs = u ++ (f :: m) ++ v ∧ (∀ y ∈ f :: m, p y = true) ∧
        (∀ y ∈ u ++ v, p y = false) := by
  unfold Hash.equalRange
  rcases w.findLoop eh hn ext one cons with ⟨k1, k2⟩ | ⟨f, m, u, v, k1, e, k2, k3, k4⟩
  · left
    rw [k1]
    exact ⟨rfl, k2⟩
  · right
    refine ⟨u, f, m, v, ?_, e, k2, k3⟩
    rw [k1]
    simp only
    rw [k4]

end

theorem bucketLoop_spec {T : Tab} (r : Rep h a hd T) (oc : OfCat c T) {i : Nat} : ∀ (v u : List Id) (n res : Nat), gnodes (T.B i) = u ++ v →
    v.length ≤ n → bucketLoop c h n (v.headD 0) res = .ok (res + v.length)
  | [], u, n, res, _, _ => by cases n <;> simp [bucketLoop]
  | y :: v, u, 0, res, _, hn => by simp at hn
  | y :: v, u, n + 1, res, e, hn => by
    have al : afterLocal c h y = v.headD 0 := r.afterLocal oc e
    have y0 : y ≠ 0 := by
      rintro rfl
      exact r.nz (List.mem_cons_of_mem _ (r.mem_nodes.2 ⟨i, by rw [e]; simp⟩))
    have ih := bucketLoop_spec r oc v (u ++ [y]) n (res + 1) (by rw [e]; simp) (by simpa using hn)
    rw [List.headD_cons, bucketLoop, if_neg y0, al, ih]
    congr 1
    simp only [List.length_cons]
    omega

theorem Holds.bucketSize (w : Holds c eq hash h a hd xs) (hn : xs.length ≤ n) {m : Nat} (hm : m < a.size) :
    Hash.bucketSize n c h a m = .ok (xs.countP fun x => hash x % a.size == m) := by
  obtain ⟨s0, T, r, gd, rfl⟩ := w
  have hl : (gnodes (T.B m)).length ≤ T.nodes.length ∧ (gnodes (T.B m)).length = T.nodes.countP (fun x => hash x % a.size == m) := by
    have zero : ∀ o : List Nat, m ∉ o → (nodesO T.B o).countP (fun x => hash x % a.size == m) = 0 := by
      intro o ho
      rw [List.countP_eq_zero]
      intro y hy
      simp only [nodesO, List.mem_flatMap] at hy
      obtain ⟨j, hj, hy⟩ := hy
      have := gd.place j y hy
      simp only [beq_iff_eq, this]
      rintro rfl
      exact ho hj
    by_cases hB : T.B m = []
    · have : m ∉ T.ord := fun k => (r.ordB m).1 k hB
      rw [hB]
      refine ⟨by simp, ?_⟩
      exact (zero T.ord this).symm
    · obtain ⟨o1, o2, e⟩ := List.append_of_mem ((r.ordB _).2 hB)
      have ond := r.ordnd
      rw [e] at ond
      have n1 : m ∉ o1 := fun k => (List.nodup_append.1 ond).2.2 m k m (by simp) rfl
      have n2 : m ∉ o2 := (List.nodup_cons.1 (List.nodup_append.1 ond).2.1).1
      rw [nodes_split e]
      refine ⟨by simp only [List.length_append]; omega, ?_⟩
      rw [List.countP_append, List.countP_append, zero o1 n1, zero o2 n2, List.countP_eq_length.2]
      · omega
      · intro y hy
        simp [gd.place m y hy]
  unfold Hash.bucketSize Arr.at
  rw [r.bucketFirst hm, bucketLoop_spec r gd.cat (gnodes (T.B m)) [] n 0 rfl (Nat.le_trans hl.1 hn), hl.2]
  simp

/-! ## Insertion and removal -/

/-- What `link_point` says for a value, and what `link` does with the answer. -/
theorem Holds.linkPoint (w : Holds c eq hash h a hd xs) (eh : EqHash eq hash) (hn : xs.length ≤ n) (x : Id) :
    (∃ y ∈ xs, c = .uniq ∧ eq x y = true ∧ Hash.linkPoint n c eq (eq x) (hash x) h a = .ok (.reject y)) ∨
    (∃ pos, Hash.linkPoint n c eq (eq x) (hash x) h a = .ok (.accept pos) ∧ (c = .uniq → ∀ y ∈ xs, eq x y = false) ∧
      ∃ u v, xs = u ++ v ∧ (∀ y ∈ u, eq x y = false) ∧
        (FreshId a hd xs x → Holds c eq hash (Hash.link c h x pos hd) a hd (u ++ x :: v))) := by
  obtain ⟨s0, T, r, gd, rfl⟩ := w
  have hl := Nat.mod_lt (hash x) s0
  rcases linkPoint_spec r gd eh x s0 hn with ⟨k1, k2⟩ | ⟨G1, g, G2, hB, he, ⟨rfl, k⟩ | ⟨rfl, k⟩⟩
  · right
    refine ⟨_, k2, fun _ => k1, ?_⟩
    have gl := gd.linkBucket eh (x := x) (fun y hy => k1 y (r.mem_nodes.2 ⟨_, hy⟩))
    by_cases hB : T.B (hash x % a.size) = []
    · have ni : hash x % a.size ∉ T.ord := fun k => (r.ordB _).1 k hB
      refine ⟨T.nodes, [], by simp, k1, fun fr => ⟨s0, _, (r.linkBucket c hl fr).1, gl, ?_⟩⟩
      rw [nodes_put_new ni (by simp), hB]
      simp
    · obtain ⟨o1, o2, e⟩ := List.append_of_mem ((r.ordB _).2 hB)
      refine ⟨nodesO T.B o1, gnodes (T.B (hash x % a.size)) ++ nodesO T.B o2, by rw [nodes_split e]; simp, ?_, fun fr => ⟨s0, _, (r.linkBucket c hl fr).1, gl, ?_⟩⟩
      · intro y hy
        apply k1
        rw [nodes_split e]
        simp [hy]
      · rw [nodes_put_mem e r.ordnd]
        simp
  · left
    exact ⟨g.first, r.mem_nodes.2 ⟨_, by rw [hB]; simp [g.first_mem]⟩, rfl, he _ g.first_mem, k⟩
  · right
    refine ⟨_, k, (fun k => nomatch k), ?_⟩
    obtain ⟨o1, o2, e⟩ := List.append_of_mem ((r.ordB (hash x % a.size)).2 (by rw [hB]; simp))
    refine ⟨nodesO T.B o1 ++ gnodes G1, g.toList ++ gnodes G2 ++ nodesO T.B o2, by rw [nodes_split e, hB]; simp, ?_,
      fun fr => ⟨s0, _, (r.linkGroup hB fr).1, gd.linkGroup eh hB he, ?_⟩⟩
    · intro y hy
      by_contra k
      have k : eq x y = true := by simpa using k
      obtain ⟨H1, g', H2, pre, post, hB', yg', hno, h1, h2, h3⟩ := r.group_of gd eh (p := eq x) (hk := hash x) (fun _ _ h1 h2 => eh.trans h1 h2)
        (fun _ _ h1 h2 => eh.trans (eh.symm h1) h2) (fun _ h1 => eh.cons h1) (x := g.first) (r.mem_nodes.2 ⟨hash x % a.size, by rw [hB]; simp [g.first_mem]⟩) (he _ g.first_mem)
      rcases List.mem_append.1 hy with hy | hy
      · simp only [nodesO, List.mem_flatMap] at hy
        obtain ⟨j, hj, hy⟩ := hy
        have := gd.place j y hy
        rw [← eh.cons k] at this
        have ond := r.ordnd
        rw [e] at ond
        exact (List.nodup_append.1 ond).2.2 j hj _ (by simp) this.symm
      · obtain ⟨g1, m1, hy⟩ := mem_gnodes.1 hy
        have := (gd.apart eh hB).1 g1 m1 g.first g.first_mem y hy
        rw [eh.trans (eh.symm (he _ g.first_mem)) k] at this
        cases this
    · rw [nodes_put_mem e r.ordnd]
      simp

theorem nodes_remove {T : Tab} (r : Rep h a hd T) {i : Nat} {G1 G2 : List Grp} {g : Grp} (hB : T.B i = G1 ++ g :: G2) (xg : x ∈ g.toList) :
    (T.put i (G1 ++ (g.remove x).toList ++ G2)).nodes = T.nodes.erase x := by
  obtain ⟨o1, o2, e⟩ := List.append_of_mem ((r.ordB i).2 (by rw [hB]; simp))
  have nd := (List.nodup_cons.1 r.nd).2
  rw [nodes_split e, hB] at nd ⊢
  rw [nodes_put_mem e r.ordnd]
  simp only [gnodes_append, gnodes_cons, List.append_assoc] at nd ⊢
  have gnd := (List.nodup_append.1 (List.nodup_append.1 (List.nodup_append.1 nd).2.1).2.1).1
  have rs := Grp.remove_spec g x gnd xg
  have e1 : gnodes (g.remove x).toList = g.toList.erase x := by
    rw [← rs]
    cases g.remove x <;> simp
  rw [e1]
  have n1 : x ∉ nodesO T.B o1 := fun k => (List.nodup_append.1 nd).2.2 x k x (by simp [xg]) rfl
  have n2 : x ∉ gnodes G1 := fun k => (List.nodup_append.1 (List.nodup_append.1 nd).2.1).2.2 x k x (by simp [xg]) rfl
  rw [List.erase_append_right _ n1, List.erase_append_right _ n2, List.erase_append_left _ xg]

/-- Taking out an element, whose value may have changed. -/
theorem Holds.unlink' (w : Holds c eq hash h a hd xs) (ch : Chg eq eq' hash hash' x) (hx : x ∈ xs) :
    Holds c eq' hash' (Hash.unlink c h x) a hd (xs.erase x) := by
  obtain ⟨s0, T, r, gd, rfl⟩ := w
  obtain ⟨i, xi⟩ := r.mem_nodes.1 hx
  obtain ⟨g, gm, xg⟩ := mem_gnodes.1 xi
  obtain ⟨G1, G2, hB⟩ := List.append_of_mem gm
  exact ⟨s0, _, (r.unlink gd.cat hB xg).1, gd.without r ch hB xg, nodes_remove r hB xg⟩

theorem Holds.unlink (w : Holds c eq hash h a hd xs) (hx : x ∈ xs) : Holds c eq hash (Hash.unlink c h x) a hd (xs.erase x) :=
  w.unlink' ⟨fun _ _ _ _ => rfl, fun _ _ => rfl⟩ hx

/-- Only the values of the elements matter. -/
theorem Holds.congr (w : Holds c eq hash h a hd xs) (hh : ∀ x ∈ xs, hash' x = hash x) (he : ∀ x ∈ xs, ∀ y ∈ xs, eq' x y = eq x y) :
    Holds c eq' hash' h a hd xs := by
  obtain ⟨s0, T, r, gd, rfl⟩ := w
  exact ⟨s0, T, r, gd.congr (fun i x hx => hh x (r.mem_nodes.2 ⟨i, hx⟩))
    (fun i x hx y hy => he x (r.mem_nodes.2 ⟨i, hx⟩) y (r.mem_nodes.2 ⟨i, hy⟩)), rfl⟩

theorem FreshId.erase (w : Holds c eq hash h a hd xs) (hx : x ∈ xs) : FreshId a hd (xs.erase x) x := by
  have nd := w.nodup
  refine ⟨fun k => w.nz (by rw [← k]; simp [hx]), ?_, w.dis x (by simp [hx])⟩
  rw [List.mem_cons, not_or]
  refine ⟨?_, List.Nodup.not_mem_erase (List.nodup_cons.1 nd).2⟩
  rintro rfl
  exact (List.nodup_cons.1 nd).1 hx

/-! ## Changes of value -/

/-- `in_place` decides if the index is still well formed when the value of `x` has changed. -/
theorem Holds.inPlace (w : Holds c eq hash h a hd xs) (eh' : EqHash eq' hash') (ch : Chg eq eq' hash hash' x) (hx : x ∈ xs) (hn : xs.length ≤ n) :
    ∃ b, Hash.inPlace n c (eq' x) (hash' x) h a x = .ok b ∧ (b = true ↔ Holds c eq' hash' h a hd xs) := by
  obtain ⟨s0, T, r, gd, rfl⟩ := w
  refine ⟨_, inPlace_eval r gd.cat (eq' x) (hash' x) s0 hn, ?_, ?_⟩
  · intro k
    obtain ⟨T', r', g', e⟩ := inPlace_sound r gd eh' ch s0 hn (by rw [inPlace_eval r gd.cat (eq' x) (hash' x) s0 hn, k])
    exact ⟨s0, T', r', g', e⟩
  · rintro ⟨-, T', r', g', e⟩
    have := inPlace_complete r' g' eh' s0 (by rw [e]; exact hn) (x := x) (by rw [e]; exact hx)
    rw [inPlace_eval r gd.cat (eq' x) (hash' x) s0 hn] at this
    exact Out.ok.inj this

/-! ## Undo -/

theorem unlinkA_h (c : Cat) (h : Heap) (x : Id) : (unlinkA c h x).h = unlink c h x := by
  cases c <;> rfl

theorem unlinkA_undo (c : Cat) (h : Heap) (x : Id) : (unlinkA c h x).undo = h := by
  cases c
  · exact (U.unlinkA_undoes h x).undo
  · exact (N.unlinkA_undoes h x).undo

theorem unlinkA_fits (c : Cat) (h : Heap) (x : Id) : (unlinkA c h x).log.fits := by
  cases c
  · exact U.unlinkA_fits h x
  · exact N.unlinkA_fits h x

/-! ## Rehashing and clearing -/

theorem Holds.rehash {na : Arr} {cpy : Id} {t : Option Nat} (w : Holds c eq hash h a hd xs) (eh : EqHash eq hash) (ns : 0 < na.size)
    (nm : NewMem a na hd cpy xs) :
    ∃ h' b, Hash.rehash c hash xs.length t h a na hd cpy = .ok (h', b) ∧ (t = none → b = false) ∧
      (b = true → Holds c eq hash h' a hd xs) ∧
      (b = false → ∃ xs', Holds c eq hash h' na hd xs' ∧ xs'.Perm xs ∧ ∀ y, xs'.filter (eq y) = xs.filter (eq y)) := by
  obtain ⟨s0, T, r, gd, rfl⟩ := w
  obtain ⟨h', b, e1, e2, e3, e4, -⟩ := rehash_table (t := t) r gd eh s0 ns nm
  refine ⟨h', b, e1, e2, fun k => ⟨s0, T, e3 k, gd, rfl⟩, fun k => ?_⟩
  obtain ⟨T', r', g', p, f⟩ := e4 k
  exact ⟨T'.nodes, ⟨ns, T', r', g', rfl⟩, p, f⟩

theorem empty_good (c : Cat) (size : Nat) (eq : Id → Id → Bool) (hash : Id → Nat) : Good c size eq hash Tab.empty :=
  ⟨fun i x hx => by simp [Tab.empty] at hx, fun i g hg => by simp [Tab.empty] at hg, fun i => by simp [Tab.empty],
    fun _ i g hg => by simp [Tab.empty] at hg⟩

theorem holds_clear (c : Cat) (eq : Id → Id → Bool) (hash : Id → Nat) (h : Heap) (s0 : 0 < a.size) (b0 : 0 < a.base) (h0 : hd ≠ 0)
    (dis : hd < a.base ∨ a.endB < hd) : Holds c eq hash (clear h a hd) a hd [] :=
  ⟨s0, Tab.empty, (clear_rep h b0 h0 dis).1, empty_good c a.size eq hash, rfl⟩

theorem Holds.clear (w : Holds c eq hash h a hd xs) (eq' : Id → Id → Bool) (hash' : Id → Nat) : Holds c eq' hash' (Hash.clear h a hd) a hd [] := by
  have w' := w
  obtain ⟨s0, T, r, gd, rfl⟩ := w'
  exact holds_clear c eq' hash' h s0 r.b0 (fun k => w.nz (by simp [k])) (w.dis hd (by simp))

end
end MI.Hash
