import Verif.Cont.CopyModel
import Verif.Hash.Ops
set_option linter.unusedSimpArgs false
/-! The copy of a hashed index. -/
namespace MI.Hash
open MI

/-! ## Mapping a table to other nodes -/

namespace Grp

def map (φ : Id → Id) : Grp → Grp
  | one x => one (φ x)
  | many f mid l => many (φ f) (mid.map φ) (φ l)

variable {φ : Id → Id}

@[simp] theorem toList_map (g : Grp) : (g.map φ).toList = g.toList.map φ := by cases g <;> simp [map]
@[simp] theorem first_map (g : Grp) : (g.map φ).first = φ g.first := by cases g <;> simp [map]
@[simp] theorem last_map (g : Grp) : (g.map φ).last = φ g.last := by cases g <;> simp [map]

end Grp

/-- A table with other nodes. -/
def Tab.map (φ : Id → Id) (T : Tab) : Tab := ⟨T.ord, fun i => (T.B i).map (Grp.map φ)⟩

/-- Segments with other nodes and other buckets. -/
def mapSeg (φ ψ : Id → Id) (s : Seg) : Seg := (s.1.map ψ, s.2.map φ)

section maps
variable {φ ψ : Id → Id}

theorem gnodes_map (gs : List Grp) : gnodes (gs.map (Grp.map φ)) = (gnodes gs).map φ := by
  induction gs with
  | nil => rfl
  | cons g r ih => simp [ih]

theorem nodesO_map (B : Nat → List Grp) (o : List Nat) : nodesO (fun i => (B i).map (Grp.map φ)) o = (nodesO B o).map φ := by
  induction o with
  | nil => rfl
  | cons i r ih => rw [nodesO_cons, nodesO_cons, ih, gnodes_map, List.map_append]

theorem Tab.nodes_map (T : Tab) : (T.map φ).nodes = T.nodes.map φ := nodesO_map _ _

theorem flatC_map (i : Id) (gs : List Grp) : flatC (ψ i) (gs.map (Grp.map φ)) = (flatC i gs).map (mapSeg φ ψ) := by
  cases gs with
  | nil => rfl
  | cons g r => simp [flatC, mapSeg]

theorem flatO_map {base base' : Id} (B : Nat → List Grp) (o : List Nat) (hψ : ∀ i ∈ o, ψ (base + i) = base' + i) :
    flatO (fun i => (B i).map (Grp.map φ)) base' o = (flatO B base o).map (mapSeg φ ψ) := by
  induction o with
  | nil => rfl
  | cons i r ih =>
    rw [flatO_cons, flatO_cons, ih (fun j hj => hψ j (by simp [hj])), List.map_append, ← flatC_map, hψ i (by simp)]

theorem getLastD_map (f : Id) (l : List Id) : (l.map φ).getLastD (φ f) = φ (l.getLastD f) := by
  rcases List.eq_nil_or_concat' l with rfl | ⟨u, z, rfl⟩
  · rfl
  · simp

theorem headD_map (f : Id) (l : List Id) : (l.map φ).headD (φ f) = φ (l.headD f) := by cases l <;> rfl

end maps

/-- The address in the copy of a node or bucket of the original. -/
def image (φ : Id → Id) (a b : Arr) (p : Id) : Id := if a.base ≤ p ∧ p ≤ a.endB then b.base + (p - a.base) else φ p

/-! ## The links of the copy -/

section
variable {φ : Id → Id} {h c : Heap} {a b : Arr} {D : List Id}

def OkP (φ : Id → Id) (a b : Arr) (h c : Heap) (z : Id) : Prop := c.prior (image φ a b z) = image φ a b (h.prior z)
def OkN (φ : Id → Id) (a b : Arr) (h c : Heap) (z : Id) : Prop := c.next (image φ a b z) = image φ a b (h.next z)

theorem image_bucket {z : Id} (h1 : a.base ≤ z) (h2 : z ≤ a.endB) : image φ a b z = b.base + (z - a.base) := if_pos ⟨h1, h2⟩

theorem image_node {z : Id} (k : z < a.base ∨ a.endB < z) : image φ a b z = φ z := if_neg (by idomega)

theorem Line.copy (hP : ∀ z ∈ D, OkP φ a b h c z) (hN : ∀ z ∈ D, OkN φ a b h c z) (im : ∀ z ∈ D, image φ a b z = φ z) :
    ∀ {r : List Id}, Line h r → (∀ z ∈ r, z ∈ D) → Line c (r.map φ)
  | [], _, _ => trivial
  | [x], _, _ => ⟨by simp, trivial⟩
  | x :: y :: r, l, sub => by
    refine ⟨?_, Line.copy hP hN im l.2 (fun z hz => sub z (by simp [hz]))⟩
    intro w hw
    have hw : φ y = w := by simpa using hw
    subst hw
    have l1 := l.1 y rfl
    have hx := sub x (by simp)
    have hy := sub y (by simp)
    refine ⟨?_, ?_⟩
    · have := hN x hx
      rw [OkN, im x hx, l1.1, im y hy] at this
      exact this
    · have := hP y hy
      rw [OkP, im y hy, l1.2, im x hx] at this
      exact this

theorem Inner.copy (hP : ∀ z ∈ D, OkP φ a b h c z) (hN : ∀ z ∈ D, OkN φ a b h c z) (im : ∀ z ∈ D, image φ a b z = φ z) {g : Grp}
    (i : Inner h g) (sub : ∀ z ∈ g.toList, z ∈ D) : Inner c (g.map φ) := by
  cases g with
  | one x => trivial
  | many f mid l =>
    obtain ⟨i1, i2, i3, i4⟩ := i
    simp only [Grp.toList_many, List.mem_cons, List.mem_append, List.mem_singleton] at sub
    have nx : ∀ x y, x ∈ D → y ∈ D → h.next x = y → c.next (φ x) = φ y := by
      intro x y hx hy e
      have := hN x hx
      rw [OkN, im x hx, e, im y hy] at this
      exact this
    have pr : ∀ x y, x ∈ D → y ∈ D → h.prior x = y → c.prior (φ x) = φ y := by
      intro x y hx hy e
      have := hP x hx
      rw [OkP, im x hx, e, im y hy] at this
      exact this
    have fD := sub f (Or.inl rfl)
    have lD := sub l (Or.inr (Or.inr (by simp)))
    have m1 : mid.headD l ∈ D := by
      cases mid with
      | nil => exact lD
      | cons s r => exact sub s (Or.inr (Or.inl (by simp)))
    have m2 : mid.getLastD f ∈ D := by
      rcases List.eq_nil_or_concat' mid with rfl | ⟨u, z, rfl⟩
      · exact fD
      · rw [List.getLastD_concat]; exact sub z (Or.inr (Or.inl (by simp)))
    refine ⟨?_, ?_, i3.copy hP hN im (fun z hz => sub z (Or.inr (Or.inl hz))), fun q => ?_⟩
    · rw [headD_map]; exact nx _ _ fD m1 i1
    · rw [getLastD_map]; exact pr _ _ lD m2 i2
    · obtain ⟨j1, j2⟩ := i4 (by rintro rfl; exact q rfl)
      rw [headD_map, getLastD_map]
      exact ⟨pr _ _ m1 lD j1, nx _ _ m2 fD j2⟩

theorem Chain.copy {ψ : Id → Id} (hP : ∀ z ∈ D, OkP φ a b h c z) (hN : ∀ z ∈ D, OkN φ a b h c z) (im : ∀ z ∈ D, image φ a b z = φ z) :
    ∀ {fs : List Seg} {p : Id}, Chain h p fs → p ∈ D → (∀ z ∈ nodesS fs, z ∈ D) → (∀ z ∈ bucks fs, image φ a b z = ψ z ∧ OkP φ a b h c z) →
      Chain c (φ p) (fs.map (mapSeg φ ψ))
  | [], _, _, _, _, _ => trivial
  | (ob, g) :: r, p, ⟨⟨j1, j2, j3⟩, i, k⟩, hp, sub, hb => by
    simp only [nodesS_cons, List.mem_append] at sub
    rw [bucks_cons] at hb
    have gD : ∀ z ∈ g.toList, z ∈ D := fun z hz => sub z (Or.inl hz)
    have fD := gD _ g.first_mem
    refine ⟨⟨?_, ?_, ?_⟩, i.copy hP hN im gD, ?_⟩
    · have := hP _ fD
      rw [OkP, im _ fD, j1, im _ hp] at this
      simpa [mapSeg] using this
    · have := hN _ hp
      rw [OkN, im _ hp, j2] at this
      rw [this]
      cases ob with
      | none => simp [mapSeg, im _ fD]
      | some x => simp [mapSeg, (hb x (by simp)).1]
    · intro y hy
      cases ob with
      | none => exact nomatch hy
      | some x =>
        have hy : ψ x = y := by simpa [mapSeg] using hy
        have := (hb x (by simp)).2
        rw [OkP, (hb x (by simp)).1, j3 x rfl, im _ fD, hy] at this
        simpa [mapSeg] using this
    · have := Chain.copy (ψ := ψ) hP hN im k (gD _ g.last_mem) (fun z hz => sub z (Or.inr hz)) (fun z hz => hb z (by simp [hz]))
      simpa [mapSeg] using this

/-! ## Keeping what is right -/

variable (inj : ∀ y ∈ D, ∀ z ∈ D, φ y = φ z → y = z) (out : ∀ z ∈ D, z < a.base ∨ a.endB < z) (out' : ∀ z ∈ D, φ z < b.base ∨ b.endB < φ z)
  (sz : b.size = a.size)

/-- Nodes and buckets of the original. -/
def Dom (a : Arr) (D : List Id) (z : Id) : Prop := z ∈ D ∨ (a.base ≤ z ∧ z ≤ a.endB)

include inj out out' sz in
theorem image_inj {y z : Id} (hy : Dom a D y) (hz : Dom a D z) (e : image φ a b y = image φ a b z) : y = z := by
  rcases hy with hy | hy <;> rcases hz with hz | hz
  · rw [image_node (out y hy), image_node (out z hz)] at e
    exact inj y hy z hz e
  · rw [image_node (out y hy), image_bucket hz.1 hz.2] at e
    have := out' y hy
    unfold Arr.endB at *
    idomega
  · rw [image_node (out z hz), image_bucket hy.1 hy.2] at e
    have := out' z hz
    unfold Arr.endB at *
    idomega
  · rw [image_bucket hy.1 hy.2, image_bucket hz.1 hz.2] at e
    idomega

/-- What was right stays right. -/
structure Keeps (φ : Id → Id) (a b : Arr) (D : List Id) (h c c' : Heap) : Prop where
  prior : ∀ z, Dom a D z → OkP φ a b h c z → OkP φ a b h c' z
  next : ∀ z ∈ D, OkN φ a b h c z → OkN φ a b h c' z

theorem Keeps.refl : Keeps φ a b D h c c := ⟨fun _ _ k => k, fun _ _ k => k⟩
theorem Keeps.trans {c' c'' : Heap} (k : Keeps φ a b D h c c') (l : Keeps φ a b D h c' c'') : Keeps φ a b D h c c'' :=
  ⟨fun z hz e => l.prior z hz (k.prior z hz e), fun z hz e => l.next z hz (k.next z hz e)⟩

include inj out out' sz

theorem keeps_prior {z p v : Id} (hz : Dom a D z) (hp : p = image φ a b z) (hv : v = image φ a b (h.prior z)) :
    Keeps φ a b D h c (c.setPrior p v) ∧ OkP φ a b h (c.setPrior p v) z := by
  subst hp hv
  refine ⟨⟨fun y hy e => ?_, fun _ _ k => k⟩, upd_same _ _ _⟩
  by_cases k : image φ a b y = image φ a b z
  · obtain rfl := image_inj inj out out' sz hy hz k
    exact upd_same _ _ _
  · exact (upd_other _ _ k).trans e

theorem keeps_next {z p v : Id} (hz : z ∈ D) (hp : p = image φ a b z) (hv : v = image φ a b (h.next z)) :
    Keeps φ a b D h c (c.setNext p v) ∧ OkN φ a b h (c.setNext p v) z := by
  subst hp hv
  refine ⟨⟨fun _ _ k => k, fun y hy e => ?_⟩, upd_same _ _ _⟩
  by_cases k : image φ a b y = image φ a b z
  · obtain rfl := image_inj inj out out' sz (Or.inl hy) (Or.inl hz) k
    exact upd_same _ _ _
  · exact (upd_other _ _ k).trans e

end

/-! ## Neighbours -/

/-- A relation holds of neighbours. -/
def Adj (R : Id → Id → Prop) : Id → List Id → Prop
  | _, [] => True
  | x, y :: r => R x y ∧ Adj R y r

theorem Adj.of_split {R : Id → Id → Prop} : ∀ {l : List Id} {p : Id}, (∀ u x y v, p :: l = u ++ x :: y :: v → R x y) → Adj R p l
  | [], _, _ => trivial
  | y :: l, p, k => ⟨k [] p y l rfl, Adj.of_split fun u x z v e => k (p :: u) x z v (by rw [e]; rfl)⟩

theorem Adj.split {R : Id → Id → Prop} : ∀ {l : List Id} {p : Id} {u v : List Id} {x y : Id}, Adj R p l → p :: l = u ++ x :: y :: v → R x y
  | _, p, [], v, x, y, k, e => by
    simp only [List.nil_append, List.cons.injEq] at e
    obtain ⟨rfl, rfl⟩ := e
    exact k.1
  | [], p, z :: u, v, x, y, _, e => by simp at e
  | w :: l, p, z :: u, v, x, y, k, e => by
    simp only [List.cons_append, List.cons.injEq] at e
    exact Adj.split k.2 e.2

/-- `y` comes after `x` and is the first of the bucket `k`. -/
def Bk (h : Heap) (a : Arr) (x y k : Id) : Prop := a.base ≤ k ∧ k ≤ a.endB ∧ h.next x = k ∧ h.prior k = y ∧ h.prior y = x

section
variable {h : Heap} {a : Arr} {hd : Id} {T : Tab}

theorem N.notFirst {p x f' : Id} {ob ob' : Option Id} {g : Grp} (lc : Loc h p ob g ob' f') (hx : x ∈ g.toList.tail) : N.isFirstOfBucket h x = false := by
  cases g with
  | one y => simp at hx
  | many f mid l =>
    obtain ⟨⟨j1, j2, j3⟩, ⟨i1, i2, i3, i4⟩, ⟨k1, k2, k3⟩, nd, nz, f0, pg, fg, -, obg', -, -, -, -⟩ := lc
    simp only [Grp.toList_many, List.tail_cons, List.mem_append, List.mem_singleton] at hx
    simp only [Grp.first_many, Grp.last_many, Grp.toList_many] at *
    rw [List.nodup_cons, List.nodup_append] at nd
    obtain ⟨n1, n2, n3, n4⟩ := nd
    simp only [List.mem_append, List.mem_cons, List.mem_singleton, not_or] at n1 pg fg
    have key : ∀ y, h.prior x = y → ∀ z, h.next y = z → ∀ w, h.prior z = w → w ≠ x → N.isFirstOfBucket h x = false := by
      intro y e1 z e2 w e3 ne
      simp [N.isFirstOfBucket, e1, e2, e3, ne]
    have lx : x ≠ l → x ∈ mid := by
      rintro q
      rcases hx with k | k
      · exact k
      · exact absurd (by simpa using k) q
    by_cases q : x = l
    · subst q
      cases hm : mid with
      | nil =>
        subst hm
        simp only [List.getLastD_nil, List.headD_nil] at i1 i2
        exact key f i2 x i1 f i2 (fun k => n1.2.1 k)
      | cons s r =>
        obtain ⟨i4, i5⟩ := i4 (by simp [hm])
        refine key _ i2 _ i5 _ j1 (fun k => ?_)
        exact pg.2.2.1 k
    · have xm := lx q
      obtain ⟨u, v, rfl⟩ := List.append_of_mem xm
      rcases List.eq_nil_or_concat' u with rfl | ⟨u', t, rfl⟩
      · obtain ⟨i4, -⟩ := i4 (by simp)
        simp only [List.nil_append, List.headD_cons] at i4
        cases ob' with
        | none =>
          simp only [Option.getD_none] at k2
          exact key l i4 f' k2 l k1 (Ne.symm q)
        | some y =>
          simp only [Option.getD_some] at k2
          refine key l i4 y k2 f' (k3 y rfl) (fun k => ?_)
          exact fg.2.1 (by simp [k])
      · have := line_step (h := h) (x := t) (t := x) (r := v) (u := u') (by simpa using i3)
        refine key t this.2 x this.1 t this.2 (fun k => ?_)
        subst k
        simp only [List.append_assoc, List.singleton_append] at n2
        rw [List.nodup_append] at n2
        exact (List.nodup_cons.1 n2.2.1).1 (by simp)

/-- Neighbours in the ring. -/
theorem rep_pair (r : Rep h a hd T) {u v : List Id} {x y : Id} (e : hd :: (T.nodes ++ [hd]) = u ++ x :: y :: v) :
    (∃ k, Bk h a x y k) ∨ (h.next x ∈ hd :: T.nodes ∧ N.isFirstOfBucket h y = false ∧
      ((∀ i, ∀ g ∈ T.B i, ∃ x, g = .one x) → h.next x = y ∧ h.prior y = x)) := by
  have cn := r.closeNodes
  have ym : y ∈ nodesS (close hd a.endB (T.flat a.base)) := by
    rw [cn]
    cases u with
    | nil => simp only [List.nil_append, List.cons.injEq] at e; rw [e.2]; simp
    | cons z u => simp only [List.cons_append, List.cons.injEq] at e; rw [e.2]; simp
  have nd2 : (T.nodes ++ [hd]).Nodup := by
    have := List.nodup_cons.1 r.nd
    rw [List.nodup_append]
    exact ⟨this.2, by simp, fun p hp q hq k => by rw [List.mem_singleton.1 hq] at k; exact this.1 (k ▸ hp)⟩
  obtain ⟨⟨ob, g⟩, sm, yg⟩ := List.mem_flatMap.1 ym
  simp only at yg
  obtain ⟨pre, post, ec⟩ := List.append_of_mem sm
  have ch := r.ring
  unfold Ring at ch
  rw [ec, Chain.append] at ch
  obtain ⟨c1, j, i, c2⟩ := ch
  obtain ⟨s, t, eg⟩ := List.append_of_mem yg
  have en : T.nodes ++ [hd] = nodesS pre ++ (s ++ y :: t) ++ nodesS post := by
    rw [← cn, ec]; simp [eg]
  -- the list determines the place of `y`
  have split : hd :: (nodesS pre ++ s) = u ++ [x] := by
    have e1 : hd :: (nodesS pre ++ s) ++ y :: (t ++ nodesS post) = (u ++ [x]) ++ y :: v := by
      have : hd :: (T.nodes ++ [hd]) = hd :: (nodesS pre ++ s) ++ y :: (t ++ nodesS post) := by rw [en]; simp
      rw [← this, e]; simp
    cases u with
    | nil =>
      simp only [List.nil_append, List.cons_append, List.cons.injEq] at e1
      obtain ⟨rfl, e2⟩ := e1
      have e3 := split_unique (u := nodesS pre ++ s) (u' := []) (x := y) (v := t ++ nodesS post) (v' := v) (by
        have := nd2; rw [en] at this; simpa using this) (by simpa using e2)
      simp [e3.1]
    | cons z u =>
      simp only [List.cons_append, List.cons.injEq] at e1
      obtain ⟨rfl, e2⟩ := e1
      have e3 := split_unique (u := nodesS pre ++ s) (u' := u ++ [x]) (x := y) (v := t ++ nodesS post) (v' := v) (by
        have := nd2; rw [en] at this; simpa using this) (by simpa using e2)
      simp [e3.1]
  have mem : ∀ z ∈ g.toList, z ∈ hd :: T.nodes := by
    intro z hz
    have : z ∈ T.nodes ++ [hd] := by
      rw [← cn, ec]
      simp [hz]
    simpa [or_comm] using this
  rcases List.eq_nil_or_concat' s with rfl | ⟨s', w, rfl⟩
  · -- the first of a group
    have yf : y = g.first := by
      have := g.toList_eq_first
      rw [eg] at this
      simpa using (List.cons.inj this).1
    have xl : x = lastOf hd pre := by
      have h1 := nodes_eq_last hd pre
      simp only [List.append_nil] at split
      rw [split] at h1
      have := List.append_inj' h1 rfl
      simpa using this.2
    rw [← xl, ← yf] at j
    obtain ⟨j1, j2, j3⟩ := j
    cases ob with
    | some k =>
      left
      have hk : k ∈ T.ord.map (a.base + ·) ++ [a.endB] := by
        rw [← r.closeBucks, ec]; simp
      have := r.bucks_range k hk
      exact ⟨k, this.1, this.2, by simpa using j2, j3 k rfl, j1⟩
    | none =>
      right
      simp only [Option.getD_none] at j2
      have xy : x ≠ y := by
        rintro rfl
        have h2 : hd ∈ nodesS pre ∨ x ∈ nodesS pre ∨ x = hd := by
          have := lastOf_mem hd pre
          rw [← xl] at this
          rcases List.mem_cons.1 this with k | k
          · exact Or.inr (Or.inr k)
          · exact Or.inr (Or.inl k)
        have nd3 := nd2
        rw [en] at nd3
        simp only [List.nil_append, List.append_assoc] at nd3
        rw [List.nodup_append] at nd3
        rcases h2 with k | k | k
        · -- the header is only at the end
          have : hd ∈ nodesS post ∨ hd ∈ x :: t := by
            have := congrArg List.getLast? en
            simp only [List.nil_append, List.getLast?_append, List.getLast?_singleton, Option.some_or] at this
            by_contra q
            rw [not_or] at q
            cases hp : nodesS post with
            | nil =>
              rw [hp] at this
              simp only [List.getLast?_nil, Option.none_or] at this
              have : hd ∈ x :: t := List.mem_of_getLast? (by
                cases ht : (x :: t).getLast? with
                | none => simp at ht
                | some z => rw [ht] at this; simpa using this.symm)
              exact q.2 this
            | cons p q' =>
              rw [hp] at this
              have : hd ∈ p :: q' := List.mem_of_getLast? (by
                cases ht : (p :: q').getLast? with
                | none => simp at ht
                | some z => rw [ht] at this; simpa using this.symm)
              exact q.1 (hp ▸ this)
          rcases this with q | q
          · exact nd3.2.2 hd k hd (by simp [q]) rfl
          · exact nd3.2.2 hd k hd (by
              rcases List.mem_cons.1 q with q | q
              · simp [q]
              · simp [q]) rfl
        · exact nd3.2.2 x k x (by simp) rfl
        · -- the group of the header is that of the end bucket
          subst k
          obtain ⟨w, hw⟩ := close_last ec
          have hg : g = .one x ∧ post = [] := by
            rw [eg] at hw
            have nd4 := nd3.2.1
            simp only [List.nil_append] at hw
            have e5 : x :: (t ++ nodesS post) = w ++ x :: [] := by simpa using hw
            have e6 := split_unique (u := []) (v := t ++ nodesS post) (u' := w) (v' := []) (x := x) (by simpa using nd4) (by simpa using e5)
            have e7 : t = [] ∧ nodesS post = [] := by simpa using e6.2
            refine ⟨?_, ?_⟩
            · cases g with
              | one z => simp at eg; rw [eg.1]
              | many f mid l =>
                exfalso
                rw [e7.1] at eg
                have := congrArg List.length eg
                simp at this
            · cases post with
              | nil => rfl
              | cons p q =>
                have h9 := p.2.toList_ne
                have := e7.2
                simp [h9] at this
          have h8 := congrArg List.getLast? ec
          simp only [close, List.getLast?_append, List.getLast?_singleton, Option.some_or, hg.2] at h8
          simp at h8
      refine ⟨by rw [j2]; exact mem y (by rw [eg]; simp), ?_, fun _ => ⟨j2, j1⟩⟩
      simp [N.isFirstOfBucket, j1, j2, xy]
  · -- inside a group
    have xw : x = w := by
      have h1 : (hd :: (nodesS pre ++ s')) ++ [w] = u ++ [x] := by rw [← split]; simp
      have := List.append_inj' h1 rfl
      simpa using this.2.symm
    subst xw
    right
    have xd : x ∈ g.toList.dropLast := by
      have : g.toList = (s' ++ [x]) ++ (y :: t) := by rw [eg]
      rw [this, List.dropLast_append_of_ne_nil (by simp)]
      simp
    have yt : y ∈ g.toList.tail := by
      rw [eg]
      cases s' <;> simp
    refine ⟨mem _ (i.next_mem x xd), ?_, fun q => ?_⟩
    · -- this group is not that of the header
      have : ∃ ob' g' post', post = (ob', g') :: post' := by
        cases hp : post with
        | cons p q => exact ⟨p.1, p.2, q, rfl⟩
        | nil =>
          exfalso
          have h8 := congrArg List.getLast? ec
          simp only [close, List.getLast?_append, List.getLast?_singleton, Option.some_or, hp] at h8
          simp only [List.getLast?_singleton, Option.some_or, Option.some.injEq, Prod.mk.injEq] at h8
          rw [← h8.2] at yt
          simp at yt
      obtain ⟨ob', g', post', rfl⟩ := this
      exact N.notFirst (ring_loc r.sep r.ring ec) yt
    · exfalso
      have : ∃ z, g = .one z := by
        simp only [close, List.mem_append, List.mem_singleton] at sm
        rcases sm with k | k
        · simp only [Tab.flat, flatO, List.mem_flatMap] at k
          obtain ⟨i, -, hs⟩ := k
          have : g ∈ T.B i := by
            cases hB : T.B i with
            | nil => rw [hB] at hs; exact nomatch hs
            | cons g0 gs =>
              rw [hB] at hs
              simp only [flatC, List.mem_cons, List.mem_map, Prod.mk.injEq] at hs
              rcases hs with ⟨-, rfl⟩ | ⟨g', hg', -, rfl⟩
              · simp
              · simp [hg']
          exact q i g this
        · exact ⟨hd, (Prod.mk.inj k).2⟩
      obtain ⟨z, rfl⟩ := this
      simp at yt

end

/-! ## The loops -/

section
variable {φ : Id → Id} {f : Id → Option Id} {h : Heap} {a b : Arr} {D : List Id} {hd : Id}

/-- The links around two neighbours are right in the copy. -/
def Done (φ : Id → Id) (a b : Arr) (h c : Heap) (x y : Id) : Prop :=
  OkN φ a b h c x ∧ OkP φ a b h c y ∧ ∀ k, Bk h a x y k → OkP φ a b h c k

theorem Done.mono {c c' : Heap} {x y : Id} (d : Done φ a b h c x y) (k : Keeps φ a b D h c c') (hx : x ∈ D) (hy : y ∈ D) :
    Done φ a b h c' x y := ⟨k.next x hx d.1, k.prior y (Or.inl hy) d.2.1, fun j hj => k.prior j (Or.inr ⟨hj.1, hj.2.1⟩) (d.2.2 j hj)⟩

/-- What the loop for non-unique indices needs to know about two neighbours. -/
def NextTo (h : Heap) (a : Arr) (D : List Id) (x y : Id) : Prop :=
  x ∈ D ∧ y ∈ D ∧ h.prior y ∈ D ∧ N.after h x = y ∧ ((∃ k, Bk h a x y k) ∨ (h.next x ∈ D ∧ N.isFirstOfBucket h y = false))

/-- What the loop for unique indices needs to know about two neighbours. -/
def PriorTo (h : Heap) (a : Arr) (D : List Id) (y x : Id) : Prop :=
  x ∈ D ∧ y ∈ D ∧ h.prior y = x ∧ ((∃ k, Bk h a x y k) ∨ h.next x = y)

variable (inj : ∀ y ∈ D, ∀ z ∈ D, φ y = φ z → y = z) (out : ∀ z ∈ D, z < a.base ∨ a.endB < z) (out' : ∀ z ∈ D, φ z < b.base ∨ b.endB < φ z)
  (sz : b.size = a.size) (hf : ∀ x ∈ D, f x = some (φ x))
include inj out out' sz hf

/-- Writing the links of two neighbours where a bucket begins. -/
theorem write_first (c : Heap) {x y k : Id} (hx : x ∈ D) (hy : y ∈ D) (bk : Bk h a x y k) :
    Keeps φ a b D h c (((c.setNext (φ x) (b.base + (h.next x - a.base))).setPrior (b.base + (h.next x - a.base)) (φ y)).setPrior (φ y) (φ x)) ∧
      Done φ a b h (((c.setNext (φ x) (b.base + (h.next x - a.base))).setPrior (b.base + (h.next x - a.base)) (φ y)).setPrior (φ y) (φ x)) x y := by
  obtain ⟨k1, k2, k3, k4, k5⟩ := bk
  subst k3
  have ek : image φ a b (h.next x) = b.base + (h.next x - a.base) := image_bucket k1 k2
  have w1 := keeps_next (φ := φ) (b := b) (h := h) (c := c) inj out out' sz (p := φ x) (v := b.base + (h.next x - a.base)) hx
    (image_node (out x hx)).symm ek.symm
  have w2 := keeps_prior (φ := φ) (b := b) (h := h) (c := c.setNext (φ x) (b.base + (h.next x - a.base))) inj out out' sz (z := h.next x)
    (p := b.base + (h.next x - a.base)) (v := φ y) (Or.inr ⟨k1, k2⟩) ek.symm (by rw [k4]; exact (image_node (out y hy)).symm)
  have w3 := keeps_prior (φ := φ) (b := b) (h := h)
    (c := (c.setNext (φ x) (b.base + (h.next x - a.base))).setPrior (b.base + (h.next x - a.base)) (φ y)) inj out out' sz (z := y)
    (p := φ y) (v := φ x) (Or.inl hy) (image_node (out y hy)).symm (by rw [k5]; exact (image_node (out x hx)).symm)
  refine ⟨w1.1.trans (w2.1.trans w3.1), (w2.1.trans w3.1).next x hx w1.2, w3.2, ?_⟩
  rintro k ⟨-, -, rfl, -, -⟩
  exact w3.1.prior _ (Or.inr ⟨k1, k2⟩) w2.2

/-- Writing the links of two neighbours of a bucket. -/
theorem write_inner (c : Heap) {x y : Id} (hx : x ∈ D) (hy : y ∈ D) (hn : h.next x ∈ D) (hp : h.prior y ∈ D) :
    Keeps φ a b D h c ((c.setNext (φ x) (φ (h.next x))).setPrior (φ y) (φ (h.prior y))) ∧
      Done φ a b h ((c.setNext (φ x) (φ (h.next x))).setPrior (φ y) (φ (h.prior y))) x y := by
  have w1 := keeps_next (φ := φ) (b := b) (h := h) (c := c) inj out out' sz (p := φ x) (v := φ (h.next x)) hx
    (image_node (out x hx)).symm (image_node (out _ hn)).symm
  have w2 := keeps_prior (φ := φ) (b := b) (h := h) (c := c.setNext (φ x) (φ (h.next x))) inj out out' sz (z := y)
    (p := φ y) (v := φ (h.prior y)) (Or.inl hy) (image_node (out y hy)).symm (image_node (out _ hp)).symm
  refine ⟨w1.1.trans w2.1, w2.1.next x hx w1.2, w2.2, ?_⟩
  rintro k ⟨k1, k2, rfl, -, -⟩
  have := out _ hn
  idomega

theorem copyLoopN_spec : ∀ (ys : List Id) (org : Id) (c : Heap) (n : Nat), Adj (NextTo h a D) org (ys ++ [hd]) → hd ∉ ys → ys.length < n →
    ∃ c', copyLoopN f h a b hd n org (φ org) c = some c' ∧ Keeps φ a b D h c c' ∧ Adj (Done φ a b h c') org (ys ++ [hd])
  | ys, org, c, 0, _, _, hn => by simp at hn
  | ys, org, c, n + 1, ad, nh, hn => by
    obtain ⟨y, r, er⟩ : ∃ y r, ys ++ [hd] = y :: r := by cases ys <;> simp
    rw [er] at ad
    obtain ⟨hx, hy, hp, af, q⟩ := ad.1
    -- one turn of the loop
    obtain ⟨c1, e1, k1, d1⟩ : ∃ c1, copyLoopN f h a b hd (n + 1) org (φ org) c =
        (if y = hd then some c1 else copyLoopN f h a b hd n y (φ y) c1) ∧ Keeps φ a b D h c c1 ∧ Done φ a b h c1 org y := by
      rcases q with ⟨k, bk⟩ | ⟨q1, q2⟩
      · refine ⟨_, ?_, write_first inj out out' sz hf c hx hy bk⟩
        have fb : N.isFirstOfBucket h y = true := by
          obtain ⟨-, -, k3, k4, k5⟩ := bk
          simp [N.isFirstOfBucket, k3, k4, k5]
        simp only [copyLoopN, af, hf y hy, fb, if_true]
      · refine ⟨_, ?_, write_inner inj out out' sz hf c hx hy q1 hp⟩
        simp only [copyLoopN, af, hf y hy, q2, hf _ q1, hf _ hp, Bool.false_eq_true, if_false]
        by_cases a1 : h.next org = y <;> by_cases a2 : h.prior y = org
        · rw [a1, a2]; simp
        · rw [a1]; simp [a2]
        · rw [a2]; simp [a1]
        · simp [a1, a2]
    cases ys with
    | nil =>
      simp only [List.nil_append, List.cons.injEq] at er
      obtain ⟨rfl, rfl⟩ := er
      exact ⟨c1, by rw [e1, if_pos rfl], k1, d1, trivial⟩
    | cons z ys =>
      simp only [List.cons_append, List.cons.injEq] at er
      obtain ⟨rfl, rfl⟩ := er
      simp only [List.mem_cons, not_or] at nh
      obtain ⟨c', e2, k2, d2⟩ := copyLoopN_spec ys z c1 n ad.2 nh.2 (by simp at hn; omega)
      exact ⟨c', by rw [e1, if_neg (Ne.symm nh.1), e2], k1.trans k2, d1.mono k2 hx hy, d2⟩

theorem copyLoopU_spec : ∀ (ys : List Id) (org : Id) (c : Heap) (n : Nat), Adj (PriorTo h a D) org (ys ++ [hd]) → hd ∉ ys → ys.length < n →
    ∃ c', copyLoopU f h a b hd n org (φ org) c = some c' ∧ Keeps φ a b D h c c' ∧ Adj (fun y x => Done φ a b h c' x y) org (ys ++ [hd])
  | ys, org, c, 0, _, _, hn => by simp at hn
  | ys, org, c, n + 1, ad, nh, hn => by
    obtain ⟨x, r, er⟩ : ∃ y r, ys ++ [hd] = y :: r := by cases ys <;> simp
    rw [er] at ad
    obtain ⟨hx, hy, pr, q⟩ := ad.1
    -- one turn of the loop
    obtain ⟨c1, e1, k1, d1⟩ : ∃ c1, copyLoopU f h a b hd (n + 1) org (φ org) c =
        (if x = hd then some c1 else copyLoopU f h a b hd n x (φ x) c1) ∧ Keeps φ a b D h c c1 ∧ Done φ a b h c1 x org := by
      rcases q with ⟨k, bk⟩ | q
      · obtain ⟨u1, u2⟩ := write_first inj out out' sz hf c hx hy bk
        have fb : U.isFirstOfBucket h org = true := by
          have := out _ hy
          obtain ⟨l1, l2, l3, -, -⟩ := bk
          simp only [U.isFirstOfBucket, pr, l3, bne_iff_ne, ne_eq]
          idomega
        have ne : φ org ≠ b.base + (h.next x - a.base) := by
          have := out' _ hy
          obtain ⟨l1, l2, l3, -, -⟩ := bk
          unfold Arr.endB at *
          idomega
        have comm : ((c.setPrior (φ org) (φ x)).setNext (φ x) (b.base + (h.next x - a.base))).setPrior (b.base + (h.next x - a.base)) (φ org) =
            ((c.setNext (φ x) (b.base + (h.next x - a.base))).setPrior (b.base + (h.next x - a.base)) (φ org)).setPrior (φ org) (φ x) := by
          simp only [Heap.setPrior, Heap.setNext, Heap.mk.injEq, true_and, and_true]
          funext z
          by_cases z1 : z = φ org
          · subst z1; rw [upd_other _ _ ne, upd_same, upd_same]
          · rw [upd_other (upd c.prior (b.base + (h.next x - a.base)) (φ org)) _ z1]
            by_cases z2 : z = b.base + (h.next x - a.base)
            · subst z2; rw [upd_same, upd_same]
            · rw [upd_other _ _ z2, upd_other _ _ z2, upd_other _ _ z1]
        refine ⟨_, ?_, u1, u2⟩
        simp only [copyLoopU, pr, hf x hx, fb, if_true, comm]
      · have hn' : h.next x ∈ D := by rw [q]; exact hy
        have hp' : h.prior org ∈ D := by rw [pr]; exact hx
        refine ⟨_, ?_, write_inner inj out out' sz hf c hx hy hn' hp'⟩
        have fb : U.isFirstOfBucket h org = false := by simp [U.isFirstOfBucket, pr, q]
        simp only [copyLoopU, pr, hf x hx, fb, Bool.false_eq_true, if_false, q]
        rfl
    cases ys with
    | nil =>
      simp only [List.nil_append, List.cons.injEq] at er
      obtain ⟨rfl, rfl⟩ := er
      exact ⟨c1, by rw [e1, if_pos rfl], k1, d1, trivial⟩
    | cons z ys =>
      simp only [List.cons_append, List.cons.injEq] at er
      obtain ⟨rfl, rfl⟩ := er
      simp only [List.mem_cons, not_or] at nh
      obtain ⟨c', e2, k2, d2⟩ := copyLoopU_spec ys z c1 n ad.2 nh.2 (by simp at hn; omega)
      exact ⟨c', by rw [e1, if_neg (Ne.symm nh.1), e2], k1.trans k2, d1.mono k2 hx hy, d2⟩

end

/-! ## The copy -/

section
variable {φ : Id → Id} {f : Id → Option Id} {h : Heap} {a b : Arr} {hd : Id} {T : Tab}

theorem Rep.prior_mem (r : Rep h a hd T) {y : Id} (hy : y ∈ hd :: T.nodes) : h.prior y ∈ hd :: T.nodes := by
  have cn := r.closeNodes
  have := r.ring.prior_mem y (by rw [cn]; simpa [or_comm] using hy)
  rw [cn] at this
  simp only [List.mem_cons, List.mem_append, List.mem_nil_iff, or_false] at this ⊢
  tauto

theorem Rep.nextTo (r : Rep h a hd T) (ne : T.nodes ≠ []) : Adj (NextTo h a (hd :: T.nodes)) hd (T.nodes ++ [hd]) := by
  refine Adj.of_split fun u x y v e => ?_
  have mem : ∀ z ∈ u ++ x :: y :: v, z ∈ hd :: T.nodes := by
    intro z hz
    rw [← e] at hz
    simp only [List.mem_cons, List.mem_append, List.mem_nil_iff, or_false] at hz ⊢
    tauto
  have hx := mem x (by simp)
  have hy := mem y (by simp)
  refine ⟨hx, hy, r.prior_mem hy, ?_, ?_⟩
  · cases u with
    | nil =>
      simp only [List.nil_append, List.cons.injEq] at e
      obtain ⟨rfl, e⟩ := e
      obtain ⟨z, r', hT⟩ := List.exists_cons_of_ne_nil ne
      have yz : z = y := by rw [hT] at e; simpa using (List.cons.inj e).1
      subst yz
      have bg := r.begin
      have c := r.ring
      unfold Ring at c
      obtain ⟨k, g, post, e'⟩ := close_head hd a.endB T.B a.base T.ord (fun i hi => (r.ordB i).1 hi)
      have e' : close hd a.endB (T.flat a.base) = (some k, g) :: post := e'
      have cn := r.closeNodes
      rw [e'] at c cn
      obtain ⟨⟨j1, j2, j3⟩, -, -⟩ := c
      have gf : g.first = z := by
        rw [hT, nodesS_cons, g.toList_eq_first] at cn
        simpa using (List.cons.inj cn).1
      rw [gf] at j1 j3
      have j2 : h.next hd = k := j2
      have j3 := j3 k rfl
      have nz : z ≠ hd := by
        rintro rfl
        have := (List.nodup_cons.1 r.nd).1
        rw [hT] at this
        simp at this
      simp [N.after, j1, j2, j3, nz]
    | cons w u =>
      simp only [List.cons_append, List.cons.injEq] at e
      obtain ⟨rfl, e⟩ := e
      rcases List.eq_nil_or_concat' v with rfl | ⟨v', q, rfl⟩
      · have e : T.nodes ++ [hd] = (u ++ [x]) ++ [y] := by rw [e]; simp
        have e := List.append_inj' e rfl
        have af := r.after (c := .multi) (fun k => by cases k) (u := u) (x := x) (v := []) e.1
        have : hd = y := by simpa using e.2
        rw [← this]
        exact af
      · have e : T.nodes ++ [hd] = (u ++ x :: y :: v') ++ [q] := by rw [e]; simp
        have e := List.append_inj' e rfl
        exact r.after (c := .multi) (fun k => by cases k) (u := u) (x := x) (v := y :: v') e.1
  · rcases rep_pair r e with k | ⟨k1, k2, -⟩
    · exact Or.inl k
    · exact Or.inr ⟨k1, k2⟩

theorem Rep.priorTo (r : Rep h a hd T) (oc : OfCat .uniq T) : Adj (PriorTo h a (hd :: T.nodes)) hd (T.nodes.reverse ++ [hd]) := by
  refine Adj.of_split fun u y x v e => ?_
  have e : hd :: (T.nodes ++ [hd]) = v.reverse ++ x :: y :: u.reverse := by
    have := congrArg List.reverse e
    simpa using this
  have mem : ∀ z ∈ v.reverse ++ x :: y :: u.reverse, z ∈ hd :: T.nodes := by
    intro z hz
    rw [← e] at hz
    simp only [List.mem_cons, List.mem_append, List.mem_nil_iff, or_false] at hz ⊢
    tauto
  have hx := mem x (by simp)
  have hy := mem y (by simp)
  rcases rep_pair r e with ⟨k, bk⟩ | ⟨-, -, k⟩
  · exact ⟨hx, hy, bk.2.2.2.2, Or.inl ⟨k, bk⟩⟩
  · obtain ⟨k1, k2⟩ := k (oc rfl)
    exact ⟨hx, hy, k2, Or.inr k1⟩

/-- Every bucket in use begins with an element. -/
theorem Rep.bucket (r : Rep h a hd T) {k : Id} (hk : k ∈ Hash.bucks (close hd a.endB (T.flat a.base))) :
    ∃ u x y v, hd :: (T.nodes ++ [hd]) = u ++ x :: y :: v ∧ Bk h a x y k := by
  obtain ⟨⟨ob, g⟩, sm, e⟩ := List.mem_filterMap.1 hk
  have e : ob = some k := e
  subst e
  obtain ⟨pre, post, ec⟩ := List.append_of_mem sm
  have ch := r.ring
  unfold Ring at ch
  rw [ec, Chain.append] at ch
  obtain ⟨c1, ⟨j1, j2, j3⟩, i, c2⟩ := ch
  refine ⟨(hd :: Hash.nodesS pre).dropLast, lastOf hd pre, g.first, g.toList.tail ++ Hash.nodesS post, ?_, ?_⟩
  · rw [← r.closeNodes, ec, nodesS_append, nodesS_cons, g.toList_eq_first]
    have := nodes_eq_last hd pre
    rw [← List.cons_append, this]
    simp
  · rw [r.closeBucks] at hk
    have := r.bucks_range k hk
    exact ⟨this.1, this.2, j2, j3 k rfl, j1⟩

theorem Rep.copy {c0 c' : Heap} (r : Rep h a hd T) (h0 : φ 0 = 0) (nd : ((hd :: T.nodes).map φ).Nodup) (nz : 0 ∉ (hd :: T.nodes).map φ)
    (sz : b.size = a.size) (b0 : 0 < b.base) (out' : ∀ z ∈ hd :: T.nodes, φ z < b.base ∨ b.endB < φ z)
    (k0 : ∀ i, i < b.size → c0.prior (b.base + i) = 0) (kp : Keeps φ a b (hd :: T.nodes) h c0 c')
    (dn : ∀ u x y v, hd :: (T.nodes ++ [hd]) = u ++ x :: y :: v → Done φ a b h c' x y) : Rep c' b (φ hd) (T.map φ) := by
  have im : ∀ z ∈ hd :: T.nodes, image φ a b z = φ z := fun z hz => image_node (r.dis z hz)
  have i0 : image φ a b 0 = 0 := by rw [image_node (Or.inl r.b0), h0]
  have split1 : ∀ x ∈ hd :: T.nodes, ∃ u y v, hd :: (T.nodes ++ [hd]) = u ++ x :: y :: v := by
    intro x hx
    obtain ⟨u, v, e⟩ := List.append_of_mem hx
    cases v with
    | nil => exact ⟨u, hd, [], by rw [← List.cons_append, e]; simp⟩
    | cons y v => exact ⟨u, y, v ++ [hd], by rw [← List.cons_append, e]; simp⟩
  have split2 : ∀ y ∈ hd :: T.nodes, ∃ u x v, hd :: (T.nodes ++ [hd]) = u ++ x :: y :: v := by
    intro y hy
    have hy : y ∈ T.nodes ++ [hd] := by simpa [or_comm] using hy
    obtain ⟨u, v, e⟩ := List.append_of_mem hy
    rcases List.eq_nil_or_concat' u with rfl | ⟨u', x, rfl⟩
    · exact ⟨[], hd, v, by rw [e]; simp⟩
    · exact ⟨hd :: u', x, v, by rw [e]; simp⟩
  have hN : ∀ z ∈ hd :: T.nodes, OkN φ a b h c' z := fun z hz => by
    obtain ⟨u, y, v, e⟩ := split1 z hz
    exact (dn u z y v e).1
  have hP : ∀ z ∈ hd :: T.nodes, OkP φ a b h c' z := fun z hz => by
    obtain ⟨u, x, v, e⟩ := split2 z hz
    exact (dn u x z v e).2.1
  have hB : ∀ z ∈ Hash.bucks (close hd a.endB (T.flat a.base)), image φ a b z = b.base + (z - a.base) ∧ OkP φ a b h c' z := by
    intro z hz
    obtain ⟨u, x, y, v, e, bk⟩ := r.bucket hz
    exact ⟨image_bucket bk.1 bk.2.1, (dn u x y v e).2.2 z bk⟩
  have flat : close (φ hd) b.endB ((T.map φ).flat b.base) = (close hd a.endB (T.flat a.base)).map (mapSeg φ fun z => b.base + (z - a.base)) := by
    have := flatO_map (φ := φ) (ψ := fun z => b.base + (z - a.base)) (base := a.base) (base' := b.base) T.B T.ord (fun i _ => by simp)
    simp only [close, Tab.flat, Tab.map, this, List.map_append, List.map_cons, List.map_nil, mapSeg, Grp.map, Option.map_some,
      List.append_cancel_left_eq, List.cons.injEq, Prod.mk.injEq, Option.some.injEq, and_true]
    unfold Arr.endB
    idomega
  refine ⟨?_, ?_, ?_, b0, ?_, r.ordnd, ?_, fun i hi => by rw [sz]; exact r.ordlt i hi, fun i hi hB' => ?_⟩
  · unfold Ring
    rw [flat]
    refine r.ring.copy hP hN im (by simp) (fun z hz => ?_) hB
    rw [r.closeNodes] at hz
    simpa [or_comm] using hz
  · rw [Tab.nodes_map]; exact nd
  · rw [Tab.nodes_map]; exact nz
  · rw [Tab.nodes_map]
    intro z hz
    rcases List.mem_cons.1 hz with rfl | hz
    · exact out' hd (by simp)
    · obtain ⟨y, hy, rfl⟩ := List.mem_map.1 hz
      exact out' y (by simp [hy])
  · intro i
    rw [show (T.map φ).ord = T.ord from rfl, r.ordB i]
    simp [Tab.map]
  · have hT : T.B i = [] := by simpa [Tab.map] using hB'
    rw [sz] at hi
    have e := r.emp i hi hT
    have d : Dom a (hd :: T.nodes) (a.base + i) := Or.inr (by unfold Arr.endB; idomega)
    have ei : image φ a b (a.base + i) = b.base + i := by
      rw [image_bucket (by idomega) (by unfold Arr.endB; idomega)]; idomega
    have := kp.prior _ d (by rw [OkP, ei, e, i0]; exact k0 i (by idomega))
    rw [OkP, ei, e, i0] at this
    exact this

theorem Good.copy {ct : Cat} {n : Nat} {eq eq' : Id → Id → Bool} {hash hash' : Id → Nat} (g : Good ct n eq hash T)
    (heq : ∀ i, ∀ x ∈ gnodes (T.B i), ∀ y ∈ gnodes (T.B i), eq' (φ x) (φ y) = eq x y) (hh : ∀ i, ∀ x ∈ gnodes (T.B i), hash' (φ x) = hash x) :
    Good ct n eq' hash' (T.map φ) := by
  refine ⟨fun i x hx => ?_, fun i q hq x hx y hy => ?_, fun i => ?_, fun k i q hq => ?_⟩
  · rw [show (T.map φ).B i = (T.B i).map (Grp.map φ) from rfl, gnodes_map] at hx
    obtain ⟨z, hz, rfl⟩ := List.mem_map.1 hx
    rw [hh i z hz]
    exact g.place i z hz
  · obtain ⟨p, hp, rfl⟩ := List.mem_map.1 hq
    rw [Grp.toList_map] at hx hy
    obtain ⟨x, hx', rfl⟩ := List.mem_map.1 hx
    obtain ⟨y, hy', rfl⟩ := List.mem_map.1 hy
    rw [heq i x (mem_gnodes.2 ⟨p, hp, hx'⟩) y (mem_gnodes.2 ⟨p, hp, hy'⟩)]
    exact g.same i p hp x hx' y hy'
  · rw [show (T.map φ).B i = (T.B i).map (Grp.map φ) from rfl, List.pairwise_map]
    refine (g.diff i).imp_of_mem fun {p q} hp hq k => ?_
    rw [Grp.toList_map, Grp.toList_map]
    intro x hx y hy
    obtain ⟨x, hx', rfl⟩ := List.mem_map.1 hx
    obtain ⟨y, hy', rfl⟩ := List.mem_map.1 hy
    rw [heq i x (mem_gnodes.2 ⟨p, hp, hx'⟩) y (mem_gnodes.2 ⟨q, hq, hy'⟩)]
    exact k x hx' y hy'
  · obtain ⟨p, hp, rfl⟩ := List.mem_map.1 hq
    obtain ⟨x, rfl⟩ := g.cat k i p hp
    exact ⟨φ x, rfl⟩

/-- The copy of a hashed index holds the clones of the elements, in the same order. -/
theorem copy_spec {ct : Cat} {eq eq' : Id → Id → Bool} {hash hash' : Id → Nat} {xs : List Id} {n count : Nat} {c : Heap}
    (w : Holds ct eq hash h a hd xs) (h0 : φ 0 = 0) (hf : ∀ x ∈ hd :: xs, f x = some (φ x)) (nd : ((hd :: xs).map φ).Nodup)
    (nz : 0 ∉ (hd :: xs).map φ) (sz : b.size = a.size) (b0 : 0 < b.base) (out' : ∀ z ∈ hd :: xs, φ z < b.base ∨ b.endB < φ z)
    (heq : ∀ x ∈ xs, ∀ y ∈ xs, eq' (φ x) (φ y) = eq x y) (hh : ∀ x ∈ xs, hash' (φ x) = hash x) (hc : count = xs.length) (hn : xs.length < n) :
    ∃ c', copy ct f n h a count hd c b (φ hd) = some c' ∧ Holds ct eq' hash' c' b (φ hd) (xs.map φ) := by
  obtain ⟨s0, T, r, g, rfl⟩ := w
  have hd0 : φ hd ≠ 0 := fun k => nz (by simp [k])
  have cl := (clear_rep c b0 hd0 (out' hd (by simp))).1
  have gd : Good ct b.size eq' hash' (T.map φ) := by
    rw [sz]
    refine g.copy (fun i x hx y hy => heq x ?_ y ?_) (fun i x hx => hh x ?_)
    all_goals exact r.mem_nodes.2 ⟨i, ‹_›⟩
  by_cases c0 : T.nodes = []
  · have : count = 0 := by rw [hc, c0]; rfl
    subst this
    refine ⟨clear c b (φ hd), by simp [copy], ?_⟩
    rw [c0]
    exact holds_clear ct eq' hash' c (by rw [sz]; exact s0) b0 hd0 (out' hd (by simp))
  · have c1 : count ≠ 0 := by
      rw [hc]
      exact fun k => c0 (List.length_eq_zero_iff.1 k)
    have inj : ∀ y ∈ hd :: T.nodes, ∀ z ∈ hd :: T.nodes, φ y = φ z → y = z := fun y hy z hz e => List.inj_on_of_nodup_map nd hy hz e
    have hdn := (List.nodup_cons.1 r.nd).1
    have fin : ∀ c', Keeps φ a b (hd :: T.nodes) h (clear c b (φ hd)) c' →
        (∀ u x y v, hd :: (T.nodes ++ [hd]) = u ++ x :: y :: v → Done φ a b h c' x y) → Holds ct eq' hash' c' b (φ hd) (T.nodes.map φ) := by
      intro c' kp dn
      exact ⟨by rw [sz]; exact s0, T.map φ, r.copy h0 nd nz sz b0 out' (fun i hi => cl.emp i hi rfl) kp dn, gd, T.nodes_map⟩
    cases ct with
    | uniq =>
      obtain ⟨c', e, kp, ad⟩ := copyLoopU_spec (f := f) (hd := hd) inj r.dis out' sz hf T.nodes.reverse hd (clear c b (φ hd)) n (r.priorTo g.cat) (by simpa using hdn) (by simpa using hn)
      refine ⟨c', by simp only [copy, if_pos c1, e], fin c' kp fun u x y v es => ?_⟩
      refine ad.split (u := v.reverse) (v := u.reverse) ?_
      have := congrArg List.reverse es
      simpa using this
    | multi =>
      obtain ⟨c', e, kp, ad⟩ := copyLoopN_spec (f := f) (hd := hd) inj r.dis out' sz hf T.nodes hd (clear c b (φ hd)) n (r.nextTo c0) hdn hn
      exact ⟨c', by simp only [copy, if_pos c1, e], fin c' kp fun u x y v es => ad.split es⟩

end
end MI.Hash
