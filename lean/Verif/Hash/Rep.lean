import Verif.Hash.Heap
/-!
# Hashed indices: what the links of an index represent

A hashed index is a circular sequence of *segments*. A segment is a group of nodes, with the address of its bucket if
it is the first group of the bucket. The header is the only node of a group of its own, in the extra bucket `buckets.end()`.
The links within and between groups are those drawn in hash_index_node.hpp:28-92.
-/
namespace MI.Hash
open MI

/-- A group of adjacent nodes: one node, or a first and a last node with others between them. -/
inductive Grp where
  | one (x : Id)
  | many (f : Id) (mid : List Id) (l : Id)
deriving DecidableEq, Repr

namespace Grp
def toList : Grp → List Id
  | one x => [x]
  | many f mid l => f :: (mid ++ [l])

def first : Grp → Id
  | one x => x
  | many f _ _ => f

def last : Grp → Id
  | one x => x
  | many _ _ l => l

/-- Put `x` before the others. -/
def cons (x : Id) : Grp → Grp
  | one f => many x [] f
  | many f mid l => many x (f :: mid) l

@[simp] theorem toList_one (x : Id) : (one x).toList = [x] := rfl
@[simp] theorem toList_many (f : Id) (mid : List Id) (l : Id) : (many f mid l).toList = f :: (mid ++ [l]) := rfl
@[simp] theorem first_one (x : Id) : (one x).first = x := rfl
@[simp] theorem first_many (f : Id) (mid : List Id) (l : Id) : (many f mid l).first = f := rfl
@[simp] theorem last_one (x : Id) : (one x).last = x := rfl
@[simp] theorem last_many (f : Id) (mid : List Id) (l : Id) : (many f mid l).last = l := rfl

theorem toList_ne (g : Grp) : g.toList ≠ [] := by cases g <;> simp

theorem first_mem (g : Grp) : g.first ∈ g.toList := by cases g <;> simp
theorem last_mem (g : Grp) : g.last ∈ g.toList := by cases g <;> simp

theorem toList_eq_first (g : Grp) : g.toList = g.first :: g.toList.tail := by cases g <;> simp

theorem toList_eq_last (g : Grp) : g.toList = g.toList.dropLast ++ [g.last] := by
  cases g with
  | one x => simp
  | many f mid l =>
    simp only [toList_many, last_many]
    rw [← List.cons_append, List.dropLast_concat]

@[simp] theorem toList_cons (x : Id) (g : Grp) : (g.cons x).toList = x :: g.toList := by cases g <;> simp [cons]
@[simp] theorem first_cons (x : Id) (g : Grp) : (g.cons x).first = x := by cases g <;> simp [cons]
@[simp] theorem last_cons (x : Id) (g : Grp) : (g.cons x).last = g.last := by cases g <;> simp [cons]
end Grp

/-- Consecutive nodes linked to each other. -/
def Line (h : Heap) : List Id → Prop
  | [] => True
  | a :: r => (∀ b ∈ r.head?, h.next a = b ∧ h.prior b = a) ∧ Line h r

/-- The links inside a group (everything but the `prior` of its first and the `next` of its last node). -/
def Inner (h : Heap) : Grp → Prop
  | .one _ => True
  | .many f mid l =>
    h.next f = mid.headD l ∧ h.prior l = mid.getLastD f ∧ Line h mid ∧
      (mid ≠ [] → h.prior (mid.headD l) = l ∧ h.next (mid.getLastD f) = f)

/-- Links from the node `p` to the first node `f` of the next group, which is first in the bucket `b` if `ob = some b`. -/
def Join (h : Heap) (p : Id) (ob : Option Id) (f : Id) : Prop :=
  h.prior f = p ∧ h.next p = ob.getD f ∧ ∀ b, ob = some b → h.prior b = f

/-- A segment. -/
abbrev Seg := Option Id × Grp

/-- The links of the given segments, the first of which comes after the node `p`. -/
def Chain (h : Heap) : Id → List Seg → Prop
  | _, [] => True
  | p, (ob, g) :: r => Join h p ob g.first ∧ Inner h g ∧ Chain h g.last r

/-- The last node of the segments, or `p`. -/
def lastOf : Id → List Seg → Id
  | p, [] => p
  | _, (_, g) :: r => lastOf g.last r

/-- The nodes of the segments. -/
def nodesS (fs : List Seg) : List Id := fs.flatMap (·.2.toList)

/-- The buckets of the segments. -/
def bucks (fs : List Seg) : List Id := fs.filterMap (·.1)

@[simp] theorem nodesS_nil : nodesS [] = [] := rfl
@[simp] theorem nodesS_cons (s : Seg) (r : List Seg) : nodesS (s :: r) = s.2.toList ++ nodesS r := rfl
@[simp] theorem nodesS_append (a b : List Seg) : nodesS (a ++ b) = nodesS a ++ nodesS b := by simp [nodesS]
@[simp] theorem bucks_nil : bucks [] = [] := rfl
@[simp] theorem bucks_append (a b : List Seg) : bucks (a ++ b) = bucks a ++ bucks b := by simp [bucks]
@[simp] theorem bucks_some (b : Id) (g : Grp) (r : List Seg) : bucks ((some b, g) :: r) = b :: bucks r := rfl
@[simp] theorem bucks_none (g : Grp) (r : List Seg) : bucks ((none, g) :: r) = bucks r := rfl
theorem bucks_cons (ob : Option Id) (g : Grp) (r : List Seg) : bucks ((ob, g) :: r) = ob.toList ++ bucks r := by
  cases ob <;> rfl

theorem lastOf_append (p : Id) (a b : List Seg) : lastOf p (a ++ b) = lastOf (lastOf p a) b := by
  induction a generalizing p with
  | nil => rfl
  | cons s r ih => exact ih _

@[simp] theorem lastOf_nil (p : Id) : lastOf p [] = p := rfl
@[simp] theorem lastOf_one (p : Id) (s : Seg) : lastOf p [s] = s.2.last := rfl

theorem lastOf_mem (p : Id) (fs : List Seg) : lastOf p fs ∈ p :: nodesS fs := by
  induction fs generalizing p with
  | nil => simp
  | cons s r ih =>
    have := ih s.2.last
    rcases List.mem_cons.1 this with e | e
    · have := s.2.last_mem
      simp only [nodesS_cons, List.mem_cons, List.mem_append]
      right; left
      rw [← e] at this
      exact this
    · simp only [nodesS_cons, List.mem_cons, List.mem_append]
      exact Or.inr (Or.inr e)

theorem nodes_eq_last (p : Id) (fs : List Seg) : p :: nodesS fs = (p :: nodesS fs).dropLast ++ [lastOf p fs] := by
  induction fs generalizing p with
  | nil => simp
  | cons s r ih =>
    have e := s.2.toList_eq_last
    have e2 : p :: nodesS (s :: r) = (p :: s.2.toList.dropLast) ++ (s.2.last :: nodesS r) := by
      rw [nodesS_cons]
      conv => lhs; rw [e]
      simp
    rw [e2, List.dropLast_append_of_ne_nil (by simp), ih s.2.last]
    simp [lastOf]

theorem Chain.append {h : Heap} {p : Id} {a b : List Seg} :
    Chain h p (a ++ b) ↔ Chain h p a ∧ Chain h (lastOf p a) b := by
  induction a generalizing p with
  | nil => simp [Chain, lastOf]
  | cons s r ih => obtain ⟨ob, g⟩ := s; simp [Chain, lastOf, ih, and_assoc]

/-! ## Frames -/

/-- `h'` differs from `h` at most in the `prior` of `P` and the `next` of `N`. -/
def Agree (h h' : Heap) (P N : List Id) : Prop :=
  (∀ a, a ∉ P → h'.prior a = h.prior a) ∧ (∀ a, a ∉ N → h'.next a = h.next a)

theorem Agree.refl (h : Heap) (P N : List Id) : Agree h h P N := ⟨fun _ _ => rfl, fun _ _ => rfl⟩

theorem Agree.setPrior {h0 h : Heap} {P N : List Id} (a v : Id) (k : Agree h0 h P N) (m : a ∈ P) :
    Agree h0 (h.setPrior a v) P N := by
  refine ⟨fun x hx => ?_, k.2⟩
  have : x ≠ a := by rintro rfl; exact hx m
  show upd h.prior a v x = _
  rw [upd_other _ _ this, k.1 x hx]

theorem Agree.setNext {h0 h : Heap} {P N : List Id} (a v : Id) (k : Agree h0 h P N) (m : a ∈ N) :
    Agree h0 (h.setNext a v) P N := by
  refine ⟨k.1, fun x hx => ?_⟩
  have : x ≠ a := by rintro rfl; exact hx m
  show upd h.next a v x = _
  rw [upd_other _ _ this, k.2 x hx]

theorem Agree.mono {h h' : Heap} {P N P' N' : List Id} (k : Agree h h' P N) (s : P ⊆ P') (t : N ⊆ N') :
    Agree h h' P' N' :=
  ⟨fun a ha => k.1 a (fun m => ha (s m)), fun a ha => k.2 a (fun m => ha (t m))⟩

theorem Agree.trans {h h' h'' : Heap} {P N : List Id} (k : Agree h h' P N) (k' : Agree h' h'' P N) : Agree h h'' P N :=
  ⟨fun a ha => (k'.1 a ha).trans (k.1 a ha), fun a ha => (k'.2 a ha).trans (k.2 a ha)⟩

theorem Line.congr {h h' : Heap} : ∀ {r : List Id}, Line h r → (∀ a ∈ r.tail, h'.prior a = h.prior a) →
    (∀ a ∈ r.dropLast, h'.next a = h.next a) → Line h' r
  | [], _, _, _ => trivial
  | [a], _, _, _ => by simp [Line]
  | a :: b :: r, l, hp, hn => by
    have l1 := l.1 b rfl
    refine ⟨?_, Line.congr l.2 (fun x hx => hp x (by simp at hx ⊢; exact Or.inr hx))
      (fun x hx => hn x (by simp only [List.dropLast_cons_cons]; exact List.mem_cons_of_mem _ hx))⟩
    rintro c ⟨⟩
    rw [hp b (by simp), hn a (by simp)]
    exact l1

theorem getLastD_mem (x : Id) (l : List Id) (h : l ≠ []) : l.getLastD x ∈ l := by
  rcases List.eq_nil_or_concat' l with e | ⟨i, z, rfl⟩
  · exact absurd e h
  · rw [List.getLastD_concat]; simp

theorem headD_mem (x : Id) (l : List Id) (h : l ≠ []) : l.headD x ∈ l := by
  cases l with
  | nil => exact absurd rfl h
  | cons a r => simp

theorem Inner.congr {h h' : Heap} {g : Grp} (i : Inner h g) (hp : ∀ a ∈ g.toList.tail, h'.prior a = h.prior a)
    (hn : ∀ a ∈ g.toList.dropLast, h'.next a = h.next a) : Inner h' g := by
  cases g with
  | one x => trivial
  | many f mid l =>
    obtain ⟨i1, i2, i3, i4⟩ := i
    have hp' : ∀ a ∈ mid ++ [l], h'.prior a = h.prior a := hp
    have hn' : ∀ a ∈ f :: mid, h'.next a = h.next a := by
      intro a ha
      apply hn
      rw [Grp.toList_many, ← List.cons_append, List.dropLast_concat]
      exact ha
    refine ⟨by rw [hn' f (by simp), i1], by rw [hp' l (by simp), i2], ?_, ?_⟩
    · exact i3.congr (fun a ha => hp' a (by simp [List.mem_of_mem_tail ha]))
        (fun a ha => hn' a (List.mem_cons_of_mem _ (List.dropLast_subset _ ha)))
    · intro ne
      have := i4 ne
      rw [hp' _ (List.mem_append_left _ (headD_mem l mid ne)), hn' _ (List.mem_cons_of_mem _ (getLastD_mem f mid ne))]
      exact this

theorem Join.congr {h h' : Heap} {p : Id} {ob : Option Id} {f : Id} (j : Join h p ob f)
    (hf : h'.prior f = h.prior f) (hb : ∀ b ∈ ob.toList, h'.prior b = h.prior b) (hn : h'.next p = h.next p) :
    Join h' p ob f := by
  refine ⟨hf.trans j.1, hn.trans j.2.1, ?_⟩
  rintro b rfl
  rw [hb b (by simp)]
  exact j.2.2 b rfl

theorem Chain.congr {h h' : Heap} : ∀ {fs : List Seg} {p : Id}, Chain h p fs →
    (∀ a ∈ nodesS fs, h'.prior a = h.prior a) → (∀ b ∈ bucks fs, h'.prior b = h.prior b) →
    (∀ a ∈ (p :: nodesS fs).dropLast, h'.next a = h.next a) → Chain h' p fs
  | [], _, _, _, _, _ => trivial
  | (ob, g) :: r, p, ⟨j, i, c⟩, hp, hb, hn => by
    have e := g.toList_eq_last
    have e2 : p :: nodesS ((ob, g) :: r) = (p :: g.toList.dropLast) ++ (g.last :: nodesS r) := by
      rw [nodesS_cons]
      conv => lhs; rw [show ((ob, g) : Seg).2 = g from rfl, e]
      simp
    rw [e2, List.dropLast_append_of_ne_nil (by simp)] at hn
    rw [bucks_cons] at hb
    refine ⟨j.congr (hp _ (by simp [g.first_mem])) (fun b hb' => hb b (by simp only [List.mem_append]; exact Or.inl hb'))
      (hn p (by simp)), i.congr (fun a ha => hp a (by simp [List.mem_of_mem_tail ha]))
      (fun a ha => hn a (by simp [ha])), ?_⟩
    exact Chain.congr c (fun a ha => hp a (by simp [ha])) (fun a ha => hb a (by simp only [List.mem_append]; exact Or.inr ha))
      (fun a ha => hn a (by simp only [List.mem_append]; exact Or.inr ha))

/-- Replace the segments between `pre` and the segment of `g`. -/
theorem splice {h h' : Heap} {p : Id} {pre M M' : List Seg} {ob ob' : Option Id} {g : Grp} {post : List Seg}
    {P N : List Id} (c : Chain h p (pre ++ M ++ (ob, g) :: post)) (ag : Agree h h' P N)
    (hP1 : ∀ a ∈ P, a ∉ nodesS pre ++ bucks pre) (hN1 : ∀ a ∈ N, a ∉ (p :: nodesS pre).dropLast)
    (hP2 : ∀ a ∈ P, a ∉ g.toList.tail ++ nodesS post ++ bucks post)
    (hN2 : ∀ a ∈ N, a ∉ (g.toList ++ nodesS post).dropLast)
    (m : Chain h' (lastOf p pre) M') (j : Join h' (lastOf (lastOf p pre) M') ob' g.first) :
    Chain h' p (pre ++ M' ++ (ob', g) :: post) := by
  rw [Chain.append, Chain.append] at c
  rw [Chain.append, Chain.append, lastOf_append]
  obtain ⟨⟨c1, c2⟩, c3⟩ := c
  obtain ⟨c4, c5, c6⟩ := c3
  have e : g.toList ++ nodesS post = g.toList.dropLast ++ (g.last :: nodesS post) := by
    conv => lhs; rw [g.toList_eq_last]
    simp
  rw [e, List.dropLast_append_of_ne_nil (by simp)] at hN2
  simp only [List.mem_append] at hP1 hP2 hN2
  refine ⟨⟨c1.congr ?_ ?_ ?_, m⟩, j, c5.congr ?_ ?_, c6.congr ?_ ?_ ?_⟩
  · intro a ha; exact ag.1 a (fun k => hP1 a k (Or.inl ha))
  · intro a ha; exact ag.1 a (fun k => hP1 a k (Or.inr ha))
  · intro a ha; exact ag.2 a (fun k => hN1 a k ha)
  · intro a ha; exact ag.1 a (fun k => hP2 a k (Or.inl (Or.inl ha)))
  · intro a ha; exact ag.2 a (fun k => hN2 a k (Or.inl ha))
  · intro a ha; exact ag.1 a (fun k => hP2 a k (Or.inl (Or.inr ha)))
  · intro a ha; exact ag.1 a (fun k => hP2 a k (Or.inr ha))
  · intro a ha; exact ag.2 a (fun k => hN2 a k (Or.inr ha))

/-! ## Rings -/

/-- The segments with that of the header at the end. -/
def close (hd eb : Id) (fs : List Seg) : List Seg := fs ++ [(some eb, .one hd)]

/-- All nodes and buckets are different from each other and from 0. -/
def Sep (hd eb : Id) (fs : List Seg) : Prop :=
  (nodesS (close hd eb fs) ++ bucks (close hd eb fs)).Nodup ∧ 0 ∉ nodesS (close hd eb fs) ++ bucks (close hd eb fs)

/-- The links of an index with header `hd`, end bucket `eb` and the given segments. -/
def Ring (h : Heap) (hd eb : Id) (fs : List Seg) : Prop := Chain h hd (close hd eb fs)

theorem notin_dropLast {α : Type _} {l : List α} {z : α} (n : (l ++ [z]).Nodup) : z ∉ (l ++ [z]).dropLast := by
  rw [List.dropLast_concat]
  intro m
  have := (List.nodup_append.1 n).2.2 z m z (by simp)
  exact this rfl

theorem lastOf_notin (p : Id) (fs : List Seg) (n : (p :: nodesS fs).Nodup) : lastOf p fs ∉ (p :: nodesS fs).dropLast := by
  have e := nodes_eq_last p fs
  rw [e] at n ⊢
  exact notin_dropLast n

/-- `splice` with the usual places of the changed fields: the nodes and buckets of the replaced segments `M`, the
neighbours, and nodes and buckets `fr` that did not belong to the index. -/
theorem ring_splice {h h' : Heap} {hd eb : Id} {fs pre M M' : List Seg} {ob ob' : Option Id} {g : Grp} {post : List Seg}
    {P N fr : List Id} (sp : Sep hd eb fs) (c : Ring h hd eb fs) (e : close hd eb fs = pre ++ M ++ (ob, g) :: post)
    (ag : Agree h h' P N) (hfr : ∀ a ∈ fr, a ∉ nodesS (close hd eb fs) ++ bucks (close hd eb fs))
    (hP : ∀ a ∈ P, a ∈ g.first :: (nodesS M ++ bucks M ++ ob.toList ++ fr))
    (hN : ∀ a ∈ N, a ∈ lastOf hd pre :: (nodesS M ++ fr))
    (m : Chain h' (lastOf hd pre) M') (j : Join h' (lastOf (lastOf hd pre) M') ob' g.first) :
    Chain h' hd (pre ++ M' ++ (ob', g) :: post) := by
  have el : ∃ w, g.toList ++ nodesS post = w ++ [hd] := by
    have := congrArg nodesS e
    simp only [close, nodesS_append, nodesS_cons, nodesS_nil, List.append_nil, Grp.toList_one] at this
    have k : (g.toList ++ nodesS post) ≠ [] := by simp [g.toList_ne]
    obtain ⟨w, z, hw⟩ := (List.eq_nil_or_concat' (g.toList ++ nodesS post)).resolve_left k
    refine ⟨w, ?_⟩
    rw [hw, ← List.append_assoc] at this
    have := List.append_inj_right' this rfl
    rw [hw, this]
  have nd := sp.1
  have hfr' := hfr
  unfold Ring at c
  rw [e] at c nd hfr'
  simp only [nodesS_append, bucks_append, nodesS_cons, bucks_cons] at nd hfr'
  obtain ⟨w, hw⟩ := el
  have hdin : hd ∈ g.toList ++ nodesS post := by rw [hw]; simp
  have ge := g.toList_eq_first
  have nd1 : (hd :: nodesS pre).Nodup := by
    rw [List.nodup_cons]
    constructor
    · intro k
      have := (List.nodup_append.1 (List.nodup_append.1 nd).1).2.2 hd (by simp [k]) hd hdin
      exact this rfl
    · exact (List.nodup_append.1 (List.nodup_append.1 (List.nodup_append.1 nd).1).1).1
  have nd2 : (g.toList ++ nodesS post).Nodup := (List.nodup_append.1 (List.nodup_append.1 nd).1).2.1
  have key1 : ∀ a ∈ nodesS pre, a ∉ nodesS M ∧ a ∉ g.toList ++ nodesS post ∧ a ∉ bucks M ∧ a ∉ bucks pre ∧ a ∉ ob.toList ∧ a ∉ bucks post := by
    intro a ha
    have := List.nodup_append.1 nd
    have d1 : ∀ x ∈ bucks pre ++ bucks M ++ (ob.toList ++ bucks post), x ≠ a := fun x hx => (this.2.2 a (by simp [ha]) x hx).symm
    have d2 := (List.nodup_append.1 this.1).2.2 a (by simp [ha])
    have d3 := (List.nodup_append.1 (List.nodup_append.1 this.1).1).2.2 a ha
    refine ⟨fun k => d3 a k rfl, fun k => d2 a k rfl, fun k => d1 a (by simp [k]) rfl, fun k => d1 a (by simp [k]) rfl,
      fun k => d1 a (by simp only [List.mem_append]; tauto) rfl, fun k => d1 a (by simp [k]) rfl⟩
  have key2 : ∀ a ∈ g.toList ++ nodesS post, a ∉ nodesS pre ∧ a ∉ nodesS M ∧ a ∉ bucks M ∧ a ∉ bucks pre ∧ a ∉ ob.toList ∧ a ∉ bucks post := by
    intro a ha
    have := List.nodup_append.1 nd
    have d1 : ∀ x ∈ bucks pre ++ bucks M ++ (ob.toList ++ bucks post), x ≠ a :=
      fun x hx => (this.2.2 a (by rw [List.mem_append]; exact Or.inr ha) x hx).symm
    have d2 : ∀ x ∈ nodesS pre ++ nodesS M, x ≠ a := fun x hx => (List.nodup_append.1 this.1).2.2 x hx a ha
    refine ⟨fun k => d2 a (by simp [k]) rfl, fun k => d2 a (by simp [k]) rfl, fun k => d1 a (by simp [k]) rfl,
      fun k => d1 a (by simp [k]) rfl, fun k => d1 a (by simp only [List.mem_append]; tauto) rfl, fun k => d1 a (by simp [k]) rfl⟩
  have key3 : ∀ a ∈ bucks pre, a ∉ bucks M ∧ a ∉ ob.toList ∧ a ∉ nodesS M ∧ a ∉ g.toList := by
    intro a ha
    have := List.nodup_append.1 nd
    have d1 : ∀ x ∈ nodesS pre ++ nodesS M ++ (g.toList ++ nodesS post), x ≠ a :=
      fun x hx => (this.2.2 x hx a (by simp [ha]))
    have d2 := (List.nodup_append.1 this.2.1).2.2 a (by simp [ha])
    have d3 := (List.nodup_append.1 (List.nodup_append.1 this.2.1).1).2.2 a ha
    refine ⟨fun k => d3 a k rfl, fun k => d2 a (by simp only [List.mem_append]; tauto) rfl, fun k => d1 a (by simp [k]) rfl,
      fun k => d1 a (by simp [k]) rfl⟩
  have key4 : ∀ a ∈ bucks post, a ∉ bucks M ∧ a ∉ ob.toList ∧ a ∉ nodesS M ∧ a ∉ g.toList := by
    intro a ha
    have := List.nodup_append.1 nd
    have d1 : ∀ x ∈ nodesS pre ++ nodesS M ++ (g.toList ++ nodesS post), x ≠ a :=
      fun x hx => (this.2.2 x hx a (by simp [ha]))
    have d2 : ∀ x ∈ bucks pre ++ bucks M, x ≠ a := fun x hx => (List.nodup_append.1 this.2.1).2.2 x hx a (by simp [ha])
    have d3 : ∀ x ∈ ob.toList, x ≠ a := fun x hx =>
      (List.nodup_append.1 (List.nodup_append.1 this.2.1).2.1).2.2 x hx a ha
    refine ⟨fun k => d2 a (by simp [k]) rfl, fun k => d3 a k rfl, fun k => d1 a (by simp [k]) rfl,
      fun k => d1 a (by simp [k]) rfl⟩
  refine splice c ag ?_ ?_ ?_ ?_ m j
  · intro a ha k
    have := hP a ha
    simp only [List.mem_cons, List.mem_append] at this k
    rcases k with k | k
    · have q := key1 a k
      rcases this with e | ((e | e) | e) | e
      · exact q.2.1 (by rw [e]; simp [g.first_mem])
      · exact q.1 e
      · exact q.2.2.1 e
      · exact q.2.2.2.2.1 e
      · exact hfr' a e (by simp [k])
    · have q := key3 a k
      rcases this with e | ((e | e) | e) | e
      · exact q.2.2.2 (by rw [e]; simp [g.first_mem])
      · exact q.2.2.1 e
      · exact q.1 e
      · exact q.2.1 e
      · exact hfr' a e (by simp [k])
  · intro a ha k
    have := hN a ha
    simp only [List.mem_cons, List.mem_append] at this
    rcases this with e | e | e
    · exact lastOf_notin hd pre nd1 (e ▸ k)
    · rcases List.mem_cons.1 (List.dropLast_subset _ k) with k' | k'
      · exact (key2 a (by rw [k']; exact hdin)).2.1 e
      · exact (key1 a k').1 e
    · rcases List.mem_cons.1 (List.dropLast_subset _ k) with k' | k'
      · refine hfr' a e ?_
        rw [k']; simp only [List.mem_append] at hdin ⊢; tauto
      · exact hfr' a e (by simp [k'])
  · intro a ha k
    have := hP a ha
    simp only [List.mem_cons, List.mem_append] at this k
    rcases k with (k | k) | k
    · have q := key2 a (by simp [List.mem_of_mem_tail k])
      rcases this with e | ((e | e) | e) | e
      · have nn := (List.nodup_append.1 nd2).1
        rw [ge] at nn
        exact (List.nodup_cons.1 nn).1 (e ▸ k)
      · exact q.2.1 e
      · exact q.2.2.1 e
      · exact q.2.2.2.2.1 e
      · exact hfr' a e (by simp [List.mem_of_mem_tail k])
    · have q := key2 a (by simp [k])
      rcases this with e | ((e | e) | e) | e
      · exact (List.nodup_append.1 nd2).2.2 a (e ▸ g.first_mem) a k rfl
      · exact q.2.1 e
      · exact q.2.2.1 e
      · exact q.2.2.2.2.1 e
      · exact hfr' a e (by simp [k])
    · have q := key4 a k
      rcases this with e | ((e | e) | e) | e
      · exact q.2.2.2 (e ▸ g.first_mem)
      · exact q.2.2.1 e
      · exact q.1 e
      · exact q.2.1 e
      · exact hfr' a e (by simp [k])
  · intro a ha k
    have := hN a ha
    have k0 := List.dropLast_subset _ k
    simp only [List.mem_cons, List.mem_append] at this
    rcases this with e | e | e
    · rcases List.mem_cons.1 (lastOf_mem hd pre) with e' | e'
      · rw [hw] at k nd2
        rw [e.trans e'] at k
        exact notin_dropLast nd2 k
      · exact (key1 _ e').2.1 (e ▸ k0)
    · exact (key2 a k0).2.1 e
    · refine hfr' a e ?_
      simp only [List.mem_append] at k0 ⊢; tauto

end MI.Hash
