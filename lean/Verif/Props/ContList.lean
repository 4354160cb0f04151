import Verif.Cont.ListLemmas3
import Verif.Props.ContApi
/-!
# Properties of the list operations of sequenced and random access indices in containers with other indices: C59, C60, C43

`S.list`: index `k` is a sequenced or a random access index. `s ++ t` is its sequence, and `pos` the iterator to the first element of `t`, or `end()` if `t` is
empty (`At`). The vocabulary is in `Cont.ListSpec`.
-/
set_option linter.unusedVariables false
namespace MI.Cont
open MI
variable {V : Type} {w w' : World V} {i j k l : Nat} {c c' d : Container V} {H : Host V}

/-! ## C59: insertion at a position, `resize`, `assign` -/

/-- C59: `insert(position,v)` and `emplace(position,...)` (and `push_front`, `push_back`, ...). If the value clashes with no element, it is inserted right before
`position` in index `k`, and in the other indices as by an insertion without hint. Otherwise nothing changes, and an element it clashes with is
returned. If a call or an allocation throws, nothing changes. -/
theorem C59_insert {S : Spec V} {em : Bool} {n : Nat} {v : V} {s t : List Id} {pos : Id} (ok : H.Ok) (r : Reach w) (hc : w.cs[i]? = some c) (hS : c.asked[k]? = some S)
    (hl : S.list) (hk : c.seqs[k]? = some (s ++ t)) (hp : At c.hd pos t) :
    (∃ w' c' x, World.insertAt H em i k pos w n v = .ok (w', ⟨x, true⟩) ∧ InsertedAt w w' i k c c' s t [v] [x] ∧ w'.m.val x = v ∧ Reach w' ∧
      ∀ y ∈ c.elems, ¬ Clash c.asked v (w.m.val y)) ∨
    (∃ w' y, World.insertAt H em i k pos w n v = .ok (w', ⟨y, false⟩) ∧ Unchanged w w' i ∧ Reach w' ∧ y ∈ c.elems ∧ Clash c.asked v (w.m.val y)) ∨
    (∃ w' ret, World.insertAt H em i k pos w n v = .threw (w', ret) ∧ Unchanged w w' i ∧ Reach w' ∧ ¬ H.Calm) := by
  cases insertAt_spec (em := em) (n := n) (v := v) ok r hc hS hl hk hp with
  | took w1 x c1 k1 r1 g hx hcl => exact Or.inl ⟨w1, c1, x, k1, g, hx, r1, hcl⟩
  | left w1 y c1 k1 r1 g un hy hcl => exact Or.inr (Or.inl ⟨w1, y, k1, un, r1, hy, hcl⟩)
  | threw w1 c1 ret k1 r1 g un nc => exact Or.inr (Or.inr ⟨w1, ret, k1, un, r1, nc⟩)

/-- C59: `insert(position,std::move(nh))`, for a handle `h` that owns `x`: as `C59_insert`, with the element itself; the handle keeps it unless it is inserted. -/
theorem C59_insert_handle {S : Spec V} {x : Id} {h : Nat} {s t : List Id} {pos : Id} (ok : H.Ok) (r : Reach w) (hc : w.cs[i]? = some c) (hh : w.hs[h]? = some (some x))
    (hS : c.asked[k]? = some S) (hl : S.list) (hk : c.seqs[k]? = some (s ++ t)) (hp : At c.hd pos t) :
    (∃ w' c', World.insertNhAt H i k pos w h = .ok (w', ⟨x, true⟩) ∧ Reach w' ∧ OnlyAt w w' i c c' ∧ Inlaid w.m.val k s t [x] c c' ∧ w'.m = w.m ∧ w'.hs = w.hs.set h none ∧
      (∀ y ∈ c.elems, ¬ Clash c.asked (w.m.val x) (w.m.val y))) ∨
    (∃ w' y, World.insertNhAt H i k pos w h = .ok (w', ⟨y, false⟩) ∧ Reach w' ∧ Unchanged w w' i ∧ w'.m = w.m ∧ y ∈ c.elems ∧ Clash c.asked (w.m.val x) (w.m.val y)) ∨
    (∃ w', World.insertNhAt H i k pos w h = .threw (w', ⟨0, false⟩) ∧ Reach w' ∧ Unchanged w w' i ∧ w'.m = w.m ∧ ¬ H.Calm) :=
  insertNhAt_spec ok r hc hh hS hl hk hp

/-- C59: `insert(position,first,last)`, `insert(position,n,v)`. Of the values `done`, all of them if the operation returns, the accepted ones stand in this order
between `s` and `t` in index `k`. If it throws, a call or an allocation did, at the value `v`. -/
theorem C59_insert_range {S : Spec V} {em : Bool} {vs : List V} {s t : List Id} {pos : Id} (ok : H.Ok) (r : Reach w) (hc : w.cs[i]? = some c) (hS : c.asked[k]? = some S)
    (hl : S.list) (hk : c.seqs[k]? = some (s ++ t)) (hp : At c.hd pos t) :
    ∃ w' c' done took, InsertedAt w w' i k c c' s t done took ∧ Reach w' ∧
      ((World.insertRangeAt H em i k pos w vs = .ok w' ∧ done = vs) ∨
       (World.insertRangeAt H em i k pos w vs = .threw w' ∧ ¬ H.Calm ∧ ∃ v rest, vs = done ++ v :: rest)) :=
  insertRangeAt_spec ok r hc hS hl hk hp

/-- C59: `resize(n)` with `n` not greater than the size erases exactly the elements beyond the first `n` of index `k`, from every index. It does not throw. -/
theorem C59_resize_shrink {S : Spec V} {em : Bool} {v : V} {u m : List Id} (r : Reach w) (hc : w.cs[i]? = some c) (hS : c.asked[k]? = some S) (hl : S.list)
    (hk : c.seqs[k]? = some (u ++ m)) : ∃ w', World.resize H em i k w u.length v = .ok w' ∧ Purged w w' i m ∧ Reach w' :=
  resize_shrink r hc hS hl hk

/-- C59: `resize(n,v)` with `n` greater than the size tries to append as many copies of the value as are missing; those accepted are at the end. -/
theorem C59_resize_grow {S : Spec V} {em : Bool} {v : V} {xs : List Id} {n : Nat} (ok : H.Ok) (r : Reach w) (hc : w.cs[i]? = some c) (hS : c.asked[k]? = some S) (hl : S.list)
    (hk : c.seqs[k]? = some xs) (hn : xs.length < n) :
    ∃ w' c' done took, InsertedAt w w' i k c c' xs [] done took ∧ Reach w' ∧
      ((World.resize H em i k w n v = .ok w' ∧ done = List.replicate (n - xs.length) v) ∨
       (World.resize H em i k w n v = .threw w' ∧ ¬ H.Calm ∧ ∃ v' rest, List.replicate (n - xs.length) v = done ++ v' :: rest)) :=
  resize_grow ok r hc hS hl hk hn

/-- C59: if no index is unique, the size is `n` after `resize(n,v)` has returned. -/
theorem C59_resize_size {S : Spec V} {em : Bool} {v : V} {n : Nat} (ok : H.Ok) (r : Reach w) (hc : w.cs[i]? = some c) (hS : c.asked[k]? = some S) (hl : S.list)
    (hu : ∀ S ∈ c.asked, S.unique = false) (e : World.resize H em i k w n v = .ok w') : ∃ c', w'.cs[i]? = some c' ∧ c'.count = n := by
  obtain ⟨xs, hk⟩ := seq_get hS
  have hcnt := count_seq r.inv hc hk
  by_cases hn : xs.length < n
  · obtain ⟨w1, c1, done, took, g, -, q⟩ := C59_resize_grow (H := H) (em := em) (v := v) ok r hc hS hl hk hn
    rcases q with ⟨q1, rfl⟩ | ⟨q1, -⟩
    swap
    · rw [q1] at e; exact nomatch e
    rw [q1] at e
    obtain rfl := Out.ok.inj e
    refine ⟨c1, g.only.post, ?_⟩
    have all : ∀ {xs vs ks : List V}, Keeps c.asked xs vs ks → ks.length = vs.length := by
      intro xs vs ks h
      induction h with
      | nil => rfl
      | take _ _ ih => simp [ih]
      | skip e _ _ =>
        obtain ⟨_, _, S, hS, h, -⟩ := e
        rw [hu S hS] at h
        exact nomatch h
    have := all g.keeps
    rw [List.length_map, List.length_replicate] at this
    rw [g.inlaid.count, this, hcnt]; omega
  · obtain ⟨w1, q1, q2, -⟩ := C59_resize_shrink (H := H) (em := em) (v := v) (u := xs.take n) (m := xs.drop n) r hc hS hl (by rw [List.take_append_drop]; exact hk)
    rw [List.length_take, Nat.min_eq_left (by omega)] at q1
    rw [q1] at e
    obtain rfl := Out.ok.inj e
    obtain ⟨c0, c1, o, -, q3, -⟩ := q2.cont
    obtain rfl := Option.some.inj (o.pre.symm.trans hc)
    refine ⟨c1, o.post, ?_⟩
    rw [List.length_drop] at q3
    omega

/-- C59: `assign(first,last)`, `assign(n,v)` first destroy all elements, then insert the values in the order given; the old elements are gone even if this throws. -/
theorem C59_assign {S : Spec V} {em : Bool} {vs : List V} (ok : H.Ok) (r : Reach w) (hc : w.cs[i]? = some c) (hS : c.asked[k]? = some S) (hl : S.list) :
    ∃ w1 c1 w' c' done took, OnlyAt w w1 i c c1 ∧ Emptied w w1 c.elems c.elems ∧ c1.count = 0 ∧ (∀ xs ∈ c1.seqs, xs = []) ∧ InsertedAt w1 w' i k c1 c' [] [] done took ∧ Reach w' ∧
      ((World.assignRange H em i w vs = .ok w' ∧ done = vs) ∨
       (World.assignRange H em i w vs = .threw w' ∧ ¬ H.Calm ∧ ∃ v rest, vs = done ++ v :: rest)) := by
  obtain ⟨w1, c1, h1, h2, h3, h4, -, w2, c2, done, took, h5, h6, h7⟩ := assign_spec (H := H) (em := em) (vs := vs) ok r hc hS hl
  exact ⟨w1, c1, w2, c2, done, took, h1, h2, h3, h4, h5, h6, h7⟩

section
open Ex
/-- (7,1), (8,1), (0,9) are inserted before 21 in the sequenced index of container 1; (3,2) clashes with 21. -/
example : leaves (World.insertRangeAt (Host.top fun _ => {}) true 1 2 21 w4 [(7, 1), (3, 2), (8, 1), (0, 9)]) = some (true,
    [d0.seqs, [[2056, 16, 21, 2054, 2055, 17], [16, 17, 2055, 2054, 21, 2056], [16, 17, 2054, 2055, 2056, 21], [16, 17, 21, 2054, 2055, 2056]]], [some 13]) := by decide +kernel
/-- The same in its random access index; the allocation of the third node fails. -/
example : leaves (World.insertRangeAt (Host.top fun t => if t = 2 then { alloc := true } else {}) true 1 3 21 w4 [(7, 1), (3, 2), (8, 1), (0, 9)]) = some (false,
    [d0.seqs, [[16, 21, 2054, 17], [16, 17, 2054, 21], [16, 17, 21, 2054], [16, 17, 2054, 21]]], [some 13]) := by decide +kernel
theorem Ex.d1_asked : d1.asked = [.ord true (fun a b => a.1 < b.1), .hash .multi (fun a b => a.2 == b.2) (fun a => a.2), .seq, .rnd] := rfl
example : ∃ w' c' done took, InsertedAt w4 w' 1 2 d1 c' [16, 17] [21] done took ∧ Reach w' ∧
      ((World.insertRangeAt (Host.top fun _ => {}) true 1 2 21 w4 [(7, 1), (3, 2)] = .ok w' ∧ done = [(7, 1), (3, 2)]) ∨
       (World.insertRangeAt (Host.top fun _ => {}) true 1 2 21 w4 [(7, 1), (3, 2)] = .threw w' ∧ ¬ (Host.top fun _ => {} : Host Val).Calm ∧
         ∃ v rest, ([(7, 1), (3, 2)] : List Val) = done ++ v :: rest)) :=
  C59_insert_range (S := .seq) (Host.top_ok _) w4_reach hd1 (by rw [d1_asked]; rfl) trivial (by rw [d1_seqs]; rfl) rfl
example : (leavesN (World.insertAt (Host.top fun _ => {}) true 1 3 17 w4 0 (7, 1))).map (fun p => (p.2.1, p.2.2.2.pos, p.2.2.2.b)) = some (
    [d0.seqs, [[16, 21, 2054, 17], [16, 17, 2054, 21], [16, 17, 21, 2054], [16, 2054, 17, 21]]], 2054, true) := by decide +kernel
/-- The handle's element 13 goes to the front of the sequenced index of container 0; container 1 rejects it. -/
example : (leavesN (World.insertNhAt (Host.top fun _ => {}) 0 2 11 w4 0)).map (fun p => (p.2.1, p.2.2.1, p.2.2.2.pos, p.2.2.2.b)) = some (
    [[[12, 13, 11, 22, 23], [13, 22, 11, 12, 23], [13, 11, 12, 22, 23], [11, 12, 22, 23, 13]], d1.seqs], [none], 13, true) := by decide +kernel
example : (leavesN (World.insertNhAt (Host.top fun _ => {}) 1 2 16 w4 0)).map (fun p => (p.2.1, p.2.2.1, p.2.2.2.pos, p.2.2.2.b)) = some (
    [d0.seqs, d1.seqs], [some 13], 16, false) := by decide +kernel
example : leaves (World.resize (Host.top fun _ => {}) true 1 2 w4 1 (0, 0)) = some (true, [d0.seqs, [[16], [16], [16], [16]]], [some 13]) := by decide +kernel
example : ∃ w', World.resize (Host.top fun _ => {}) true 0 3 w4 1 (0, 0) = .ok w' ∧ Purged w4 w' 0 [12, 22, 23] ∧ Reach w' :=
  C59_resize_shrink (S := .rnd) (u := [11]) w4_reach hd0 (by rw [d0_asked]; rfl) trivial (by rw [d0_seqs]; rfl)
/-- Only one of the three copies of (8,8) is accepted. -/
example : leaves (World.resize (Host.top fun _ => {}) true 1 3 w4 6 (8, 8)) = some (true,
    [d0.seqs, [[16, 21, 2054, 17], [16, 17, 21, 2054], [16, 17, 21, 2054], [16, 17, 21, 2054]]], [some 13]) := by decide +kernel
example : leaves (World.assignRange (Host.top fun _ => {}) true 1 w4 [(7, 1), (3, 2), (8, 1), (0, 9)]) = some (true,
    [d0.seqs, [[2057, 2055, 2054, 2056], [2056, 2054, 2055, 2057], [2054, 2055, 2056, 2057], [2054, 2055, 2056, 2057]]], [some 13]) := by decide +kernel
end

/-! ## C60: `splice` from another container -/

/-- C60: `splice(position,x,i)` with equal allocators: if the element clashes with none in the destination, it leaves the source and stands right before
`position` in index `k`. Otherwise, and if a call throws, nothing changes. -/
theorem C60_splice_one {S : Spec V} {x : Id} {s t : List Id} {pos : Id} (ok : H.Ok) (ne : i ≠ j) (r : Reach w) (hc : w.cs[i]? = some c) (hd : w.cs[j]? = some d) (hx : x ∈ d.elems)
    (hS : c.asked[k]? = some S) (hl : S.list) (hk : c.seqs[k]? = some (s ++ t)) (hp : At c.hd pos t) :
    (∃ w' c' d', World.spliceOne H true i j k pos w x = .ok (w', ⟨x, true⟩) ∧ Reach w' ∧ SplicedAt w w' i j k c c' d d' s t [x] ∧
      (∀ y ∈ c.elems, ¬ Clash c.asked (w.m.val x) (w.m.val y))) ∨
    (∃ w' y, World.spliceOne H true i j k pos w x = .ok (w', ⟨y, false⟩) ∧ Reach w' ∧ Unchanged w w' i ∧ w'.m = w.m ∧ y ∈ c.elems ∧ Clash c.asked (w.m.val x) (w.m.val y)) ∨
    (∃ w', World.spliceOne H true i j k pos w x = .threw (w', ⟨0, false⟩) ∧ Reach w' ∧ Unchanged w w' i ∧ w'.m = w.m ∧ ¬ H.Calm) :=
  spliceOne_spec ok ne r hc hd hx hS hl hk hp

/-- C60: the same with unequal allocators: a new element `y` with the same value is inserted and the element erased. -/
theorem C60_splice_one_copy {S : Spec V} {x : Id} {s t : List Id} {pos : Id} (ok : H.Ok) (ne : i ≠ j) (r : Reach w) (hc : w.cs[i]? = some c) (hd : w.cs[j]? = some d) (hx : x ∈ d.elems)
    (hS : c.asked[k]? = some S) (hl : S.list) (hk : c.seqs[k]? = some (s ++ t)) (hp : At c.hd pos t) :
    (∃ w' c' d' y, World.spliceOne H false i j k pos w x = .ok (w', ⟨y, true⟩) ∧ Reach w' ∧ CopiedAt w w' i j k c c' d d' s t [x] [y] ∧
      (∀ y ∈ c.elems, ¬ Clash c.asked (w.m.val x) (w.m.val y))) ∨
    (∃ w' y, World.spliceOne H false i j k pos w x = .ok (w', ⟨y, false⟩) ∧ Reach w' ∧ Unchanged w w' i ∧ SameMemory w w' ∧ y ∈ c.elems ∧ Clash c.asked (w.m.val x) (w.m.val y)) ∨
    (∃ w' ret, World.spliceOne H false i j k pos w x = .threw (w', ret) ∧ Reach w' ∧ Unchanged w w' i ∧ SameMemory w w' ∧ ¬ H.Calm) :=
  spliceOne_copy ok ne r hc hd hx hS hl hk hp

/-- The range `m` of index `l` of container `j` is spliced into container `i`, with outcome `o`: of the elements `done`, all of the range if it returns, exactly
those that are accepted in turn (`Takes`) have gone to between `s` and `t` in index `k`; if it throws, a call or an allocation did. -/
def SpliceEnds (H : Host V) (w : World V) (i j k : Nat) (c d : Container V) (s t m : List Id) (o : Out (World V)) : Prop :=
  ∃ w' c' d' done took, SplicedAt w w' i j k c c' d d' s t took ∧ Takes c.asked w.m.val c.elems done took ∧ Reach w' ∧
    ((o = .ok w' ∧ done = m) ∨ (o = .threw w' ∧ ¬ H.Calm ∧ ∃ x rest, m = done ++ x :: rest))

/-- C60: `splice(position,x,first,last)` with equal allocators, for a random access index, for `position=end()`, or if nothing throws. (Otherwise: C43.) -/
theorem C60_splice_range {S : Spec V} {s t u m v : List Id} {pos : Id} (ok : H.Ok) (ne : i ≠ j) (r : Reach w) (hc : w.cs[i]? = some c) (hd : w.cs[j]? = some d)
    (hS : c.asked[k]? = some S) (hl : S.list) (hk : c.seqs[k]? = some (s ++ t)) (hp : At c.hd pos t) (hm : d.seqs[l]? = some (u ++ m ++ v))
    (hx : S = .rnd ∨ t = [] ∨ H.Calm) :
    SpliceEnds H w i j k c d s t m (World.spliceRange H true i j k l pos w ((m ++ v).headD d.hd) (v.headD d.hd)) :=
  spliceRange_spec ok ne r hc hd hS hl hk hp hm hx

/-- C60: the same with unequal allocators, for every index, position and throw point: the elements `gone` have been erased from the source, and new elements
`took` with the same values stand between `s` and `t`. -/
theorem C60_splice_range_copy {S : Spec V} {s t u m v : List Id} {pos : Id} (ok : H.Ok) (ne : i ≠ j) (r : Reach w) (hc : w.cs[i]? = some c) (hd : w.cs[j]? = some d)
    (hS : c.asked[k]? = some S) (hl : S.list) (hk : c.seqs[k]? = some (s ++ t)) (hp : At c.hd pos t) (hm : d.seqs[l]? = some (u ++ m ++ v)) :
    ∃ w' c' d' done gone took, CopiedAt w w' i j k c c' d d' s t gone took ∧ Takes c.asked w.m.val c.elems done gone ∧ Reach w' ∧
      ((World.spliceRange H false i j k l pos w ((m ++ v).headD d.hd) (v.headD d.hd) = .ok w' ∧ done = m) ∨
       (World.spliceRange H false i j k l pos w ((m ++ v).headD d.hd) (v.headD d.hd) = .threw w' ∧ ¬ H.Calm ∧ ∃ x rest, m = done ++ x :: rest)) :=
  spliceRange_copy ok ne r hc hd hS hl hk hp hm

/-- C43, in containers: the claim `C60_splice_range` without its last condition. -/
def SpliceAlwaysEnds : Prop := ∀ (V : Type) (H : Host V) (w : World V) (i j k l : Nat) (c d : Container V) (S : Spec V) (s t u m v : List Id) (pos : Id),
  H.Ok → i ≠ j → Reach w → w.cs[i]? = some c → w.cs[j]? = some d → c.asked[k]? = some S → S.list → c.seqs[k]? = some (s ++ t) → At c.hd pos t →
  d.seqs[l]? = some (u ++ m ++ v) → SpliceEnds H w i j k c d s t m (World.spliceRange H true i j k l pos w ((m ++ v).headD d.hd) (v.headD d.hd))

section
open Ex
theorem Ex.env_point {hd : Id} {size : Nat} {pool : List Id} {b a : Id} : ∀ {Ls : List (Layer Val)} {p : Nat → Bool}, EnvAll hd size pool (fun _ => { base := b, cpy := a }) Ls →
    EnvAll hd size pool (fun k => { base := b, cpy := a, point := p k }) Ls
  | [], _, _ => trivial
  | L :: Ls, p, h => by
    refine ⟨?_, env_point (p := fun k => p (k + 1)) h.2⟩
    have h1 := h.1
    cases L with
    | hash g eq hf pol ml hp a => exact ⟨h1.b0, h1.c0, h1.cn, h1.co, h1.cna, h1.xn, h1.ar⟩
    | _ => trivial

theorem Ex.hostT_ok : hostT.Ok := fun w r t => by
  have h := Host.top_ok (fun _ => {}) w r t
  exact ⟨h.1, fun c hc => env_point (h.2 c hc)⟩

/-- A call throws when the second element of container 0 is transferred to the sequenced index of container 1: the operation returns, and the sequenced index has
lost all its elements, which the other indices still have. -/
theorem Ex.splice_lost : leaves (World.spliceRange hostT true 1 0 2 0 21 w4 12 1) = some (true,
    [[[11, 22, 23], [22, 11, 23], [11, 22, 23], [11, 22, 23]], [[12, 16, 21, 17], [16, 17, 21, 12], [], [16, 17, 21, 12]]], [some 13]) := by decide +kernel

/-- C43: that claim is false of the code. -/
theorem C43_container_false : ¬ SpliceAlwaysEnds := by
  intro h
  have h1 := h Val hostT w4 1 0 2 0 d1 d0 .seq [16, 17] [21] [] [12, 11, 22, 23] [] 21 hostT_ok (by decide) w4_reach hd1 hd0 (by rw [d1_asked]; rfl) trivial
    (by rw [d1_seqs]; rfl) rfl (by rw [d0_seqs]; rfl)
  have e : World.spliceRange hostT true 1 0 2 0 21 w4 (([12, 11, 22, 23] ++ []).headD d0.hd) (([] : List Id).headD d0.hd) = World.spliceRange hostT true 1 0 2 0 21 w4 12 1 := by
    rw [show ([] : List Id).headD d0.hd = 1 by decide +kernel]; rfl
  rw [e] at h1
  obtain ⟨w', c', d', done, took, p, -, -, q⟩ := h1
  have b := splice_lost
  rcases q with ⟨q, -⟩ | ⟨q, -⟩
  · rw [q] at b
    have b := congrArg (fun o => o.bind fun p => p.2.1[1]?) b
    have b : (w'.cs.map (·.seqs))[1]? = some [[12, 16, 21, 17], [16, 17, 21, 12], [], [16, 17, 21, 12]] := b
    rw [List.getElem?_map, p.only.post (by decide)] at b
    have b := Option.some.inj b
    have a := p.inlaid.after
    have b : c'.seqs = [[12, 16, 21, 17], [16, 17, 21, 12], [], [16, 17, 21, 12]] := b
    rw [b] at a
    simp at a
  · rw [q] at b
    exact absurd (congrArg (fun o => o.map (·.1)) b) (by simp [leaves])

/-- Container 0, in the order of its first index, goes before 21 in the sequenced index of container 1. -/
example : leaves (World.spliceRange (Host.top fun _ => {}) true 1 0 2 0 21 w4 12 1) = some (true,
    [[[11], [11], [11], [11]], [[12, 16, 21, 22, 23, 17], [16, 22, 17, 21, 12, 23], [16, 17, 12, 22, 23, 21], [16, 17, 21, 12, 22, 23]]], [some 13]) := by decide +kernel
example : SpliceEnds (Host.top fun _ => {}) w4 1 0 2 d1 d0 [16, 17] [21] [12, 11] (World.spliceRange (Host.top fun _ => {}) true 1 0 2 0 21 w4 12 22) :=
  C60_splice_range (S := .seq) (l := 0) (u := []) (v := [22, 23]) (Host.top_ok _) (by decide) w4_reach hd1 hd0 (by rw [d1_asked]; rfl) trivial (by rw [d1_seqs]; rfl) rfl
    (by rw [d0_seqs]; rfl) (Or.inr (Or.inr Host.top_calm))
/-- A throw point in the random access index: the exception arrives, what has been transferred is in its place. -/
example : leaves (World.spliceRange hostT true 1 0 3 0 21 w4 12 1) = some (false,
    [[[11, 22, 23], [22, 11, 23], [11, 22, 23], [11, 22, 23]], [[12, 16, 21, 17], [16, 17, 21, 12], [16, 17, 21, 12], [16, 17, 12, 21]]], [some 13]) := by decide +kernel
/-- Unequal allocators; the construction of the third copy throws. -/
example : leaves (World.spliceRange (Host.top fun t => if t = 2 then { construct := true } else {}) false 1 0 3 0 21 w4 12 1) = some (false,
    [[[11, 22, 23], [22, 11, 23], [11, 22, 23], [11, 22, 23]], [[2054, 16, 21, 17], [16, 17, 21, 2054], [16, 17, 21, 2054], [16, 17, 2054, 21]]], [some 13]) := by decide +kernel
example : ∃ w' c' d' done gone took, CopiedAt w4 w' 1 0 2 d1 c' d0 d' [16, 17] [21] gone took ∧ Takes d1.asked w4.m.val d1.elems done gone ∧ Reach w' ∧
      ((World.spliceRange hostT false 1 0 2 0 21 w4 12 22 = .ok w' ∧ done = [12, 11]) ∨
       (World.spliceRange hostT false 1 0 2 0 21 w4 12 22 = .threw w' ∧ ¬ hostT.Calm ∧ ∃ x rest, [12, 11] = done ++ x :: rest)) :=
  C60_splice_range_copy (i := 1) (j := 0) (k := 2) (H := hostT) (pos := 21) (s := [16, 17]) (t := [21]) (S := .seq) (l := 0) (u := []) (m := [12, 11]) (v := [22, 23]) hostT_ok (by decide) w4_reach hd1 hd0 (by rw [d1_asked]; rfl) trivial (by rw [d1_seqs]; rfl) rfl
    (by rw [d0_seqs]; rfl)
example : (leavesN (World.spliceOne (Host.top fun _ => {}) true 1 0 2 21 w4 12)).map (fun p => (p.2.1, p.2.2.2.pos, p.2.2.2.b)) = some (
    [[[11, 22, 23], [22, 11, 23], [11, 22, 23], [11, 22, 23]], [[12, 16, 21, 17], [16, 17, 21, 12], [16, 17, 12, 21], [16, 17, 21, 12]]], 12, true) := by decide +kernel
example : (leavesN (World.spliceOne (Host.top fun _ => {}) false 1 0 3 21 w4 12)).map (fun p => (p.2.1, p.2.2.2.pos, p.2.2.2.b)) = some (
    [[[11, 22, 23], [22, 11, 23], [11, 22, 23], [11, 22, 23]], [[2054, 16, 21, 17], [16, 17, 21, 2054], [16, 17, 21, 2054], [16, 17, 2054, 21]]], 2054, true) := by decide +kernel
end

end MI.Cont
