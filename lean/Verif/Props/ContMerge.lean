import Verif.Cont.MergeLemmas
import Verif.Props.ContSift
/-!
# `merge` of sequenced and random access indices in containers with other indices: C62

`merge(x,comp)` of index `k` of container `i`, `x` being index `k` of container `j`; `xs` and `ys` are their sequences. `eqAl`: the allocators are equal. The vocabulary is in
`Cont.ListSpec`.
-/
set_option linter.unusedVariables false
namespace MI.Cont
open MI
variable {V : Type} {w w' : World V} {i j k l : Nat} {c c' d : Container V} {H : Host V} {eqAl : Bool}

/-- C62: `merge(x,comp)` with any comparison, call number `t` of which may throw. Elements of the source are taken in turn unless they clash with those then present
(`Takes`); in index `k` they come between the others, and no others change their order, also if the operation throws. If it returns, all of the source have been tried,
and the place of each is the one the comparison tells: sequenced indices compare before an element is tried, random access indices afterwards. If it throws, a comparison, the transfer of an element
or the allocation of the auxiliary array did. -/
theorem C62_merge {S : Spec V} {cmp : Nat → V → V → Option Bool} {fail : Bool} {xs ys : List Id} (ok : H.Ok) (ne : i ≠ j) (r : Reach w) (hc : w.cs[i]? = some c) (hd : w.cs[j]? = some d)
    (hS : c.asked[k]? = some S) (hT : d.asked[k]? = some S) (hl : S.list) (hk : c.seqs[k]? = some xs) (hm : d.seqs[k]? = some ys) :
    ∃ w' c' d' zs done gone took, Blended eqAl w w' i j k c c' d d' xs zs gone took ∧ Takes c.asked w.m.val c.elems done gone ∧ Reach w' ∧
      xs.Sublist zs ∧ took.Sublist zs ∧ (∃ rest, ys = done ++ rest) ∧
      ((World.mergeList cmp fail H eqAl i j k w = .ok w' ∧ done = ys ∧ (S = .seq → Weaves c.asked w.m.val cmp 0 c.elems xs ys zs gone took) ∧
          (S = .rnd → Merges (fun t y x => cmp t (w'.m.val y) (w'.m.val x)) 0 xs took zs)) ∨
       (World.mergeList cmp fail H eqAl i j k w = .threw w' ∧ (¬ H.Calm ∨ (∃ t v v', cmp t v v' = none) ∨ (S = .rnd ∧ fail = true)))) :=
  mergeList_spec ok ne r hc hd hS hT hl hk hm

/-- C62: with a comparison that is a strict weak ordering and both sequences sorted by it, nothing throwing, index `k` becomes the stable merge of its elements and
the accepted ones of the source, and is sorted. The rejected ones stay in the source. -/
theorem C62_merge_sorted {S : Spec V} {lt : V → V → Bool} {xs ys : List Id} (sw : StrictWeak lt) (ok : H.Ok) (calm : H.Calm) (ne : i ≠ j) (r : Reach w) (hc : w.cs[i]? = some c)
    (hd : w.cs[j]? = some d) (hS : c.asked[k]? = some S) (hT : d.asked[k]? = some S) (hl : S.list) (hk : c.seqs[k]? = some xs) (hm : d.seqs[k]? = some ys)
    (hx : Sorted lt (xs.map w.m.val)) (hy : Sorted lt (ys.map w.m.val)) :
    ∃ w' c' d' zs gone took, World.mergeList (fun _ v v' => some (lt v v')) false H eqAl i j k w = .ok w' ∧ Reach w' ∧ Blended eqAl w w' i j k c c' d d' xs zs gone took ∧
      Takes c.asked w.m.val c.elems ys gone ∧ zs = xs.merge took (fun a b => !lt (w'.m.val b) (w'.m.val a)) ∧ Sorted lt (zs.map w'.m.val) := by
  obtain ⟨w1, c1, d1, zs, done, gone, took, b, tk, r1, s1, s2, s3, q⟩ := C62_merge (H := H) (eqAl := eqAl) (cmp := fun _ v v' => some (lt v v')) (fail := false) ok ne r hc hd hS hT hl hk hm
  rcases q with ⟨q1, rfl, q2, q3⟩ | ⟨-, q⟩
  swap
  · rcases q with q | ⟨_, _, _, q⟩ | ⟨-, q⟩
    · exact absurd calm q
    · exact nomatch q
    · exact nomatch q
  have I := r.inv
  obtain ⟨-, -, -, hp, -⟩ := I.seq hc hk
  have hv : ∀ z ∈ xs, w1.m.val z = w.m.val z := fun z hz => by
    have hz := hp.mem_iff.1 hz
    exact b.val z ((I.facts hc).2.2.2.2.1 z hz) fun hg => I.apart ne hc hd hz (b.mem z hg)
  have hz : zs = xs.merge took (fun a b => !lt (w1.m.val b) (w1.m.val a)) := by
    cases S with
    | ord => exact hl.elim
    | hash => exact hl.elim
    | seq => exact (q2 rfl).merge sw hy b.vals hv
    | rnd => exact Merges.merge (q3 rfl)
  refine ⟨w1, c1, d1, zs, gone, took, q1, r1, b, tk, hz, ?_⟩
  have tks : ∀ {els r t : List Id}, Takes c.asked w.m.val els r t → t.Sublist r := by
    intro els r t h
    induction h with
    | nil => exact .refl _
    | take _ _ ih => exact ih.cons_cons _
    | skip _ _ ih => exact ih.trans (List.sublist_cons_self _ _)
  have sx : Sorted lt (xs.map w1.m.val) := by rw [List.map_congr_left hv]; exact hx
  have st : Sorted lt (took.map w1.m.val) := by rw [b.vals]; exact hy.sublist ((tks tk).map _)
  unfold Sorted at sx st ⊢
  rw [List.pairwise_map] at sx st ⊢
  have := List.pairwise_merge (le := fun a b => !lt (w1.m.val b) (w1.m.val a)) (l₁ := xs) (l₂ := took)
    (fun a b c h1 h2 => by
      simp only [Bool.not_eq_true'] at h1 h2 ⊢
      exact strictWeak_neg sw h2 h1)
    (fun a b => by
      simp only [Bool.or_eq_true, Bool.not_eq_true']
      cases h : lt (w1.m.val b) (w1.m.val a) with
      | false => exact Or.inl rfl
      | true =>
        right
        cases h' : lt (w1.m.val a) (w1.m.val b) with
        | false => rfl
        | true => have := sw.trans h h'; rw [sw.irrefl] at this; exact this.symm)
    (sx.imp fun h => by simp [h]) (st.imp fun h => by simp [h])
  rw [hz]
  exact this.imp fun h => by simpa using h

/-- C62: `merge` with the same container does nothing. -/
theorem C62_merge_self (cmp : Nat → V → V → Option Bool) (fail : Bool) : World.mergeList cmp fail H eqAl i i k w = .ok w := by
  simp only [World.mergeList, if_true]

section
open Ex
/-- A strict weak ordering in which (3,7), (1,5), (2,2) come before (4,7), (5,6), (9,7), (3,1): the sequenced and the random access indices of both containers are sorted. -/
def Ex.late (v : Val) : Bool := v.2 == 1 || decide (4 ≤ v.1)
def Ex.lateLt (v v' : Val) : Bool := !late v && late v'
theorem Ex.lateLt_sw : StrictWeak lateLt := by
  refine ⟨fun x => ?_, fun {x y z} => ?_, fun {x y z} => ?_⟩ <;> unfold lateLt
  · cases late x <;> rfl
  · cases late x <;> cases late y <;> cases late z <;> simp
  · cases late x <;> cases late y <;> cases late z <;> simp
/-- 11 is rejected. -/
example : leaves (World.mergeList (fun _ v v' => some (lateLt v v')) false (Host.top fun _ => {}) true 1 0 2 w4) = some (true,
    [[[11], [11], [11], [11]], [[12, 16, 21, 22, 23, 17], [16, 22, 17, 21, 12, 23], [16, 12, 17, 21, 22, 23], [16, 17, 21, 12, 22, 23]]], [some 13]) := by decide +kernel
example : leaves (World.mergeList (fun _ v v' => some (lateLt v v')) false (Host.top fun _ => {}) true 1 0 3 w4) = some (true,
    [[[11], [11], [11], [11]], [[12, 16, 21, 22, 23, 17], [16, 22, 17, 21, 12, 23], [16, 17, 21, 12, 22, 23], [16, 12, 17, 21, 22, 23]]], [some 13]) := by decide +kernel
example : ∃ w' c' d' zs gone took, World.mergeList (fun _ v v' => some (lateLt v v')) false (Host.top fun _ => {}) false 1 0 3 w4 = .ok w' ∧ Reach w' ∧
    Blended false w4 w' 1 0 3 d1 c' d0 d' [16, 17, 21] zs gone took ∧ Takes d1.asked w4.m.val d1.elems [11, 12, 22, 23] gone ∧
    zs = [16, 17, 21].merge took (fun a b => !lateLt (w'.m.val b) (w'.m.val a)) ∧ Sorted lateLt (zs.map w'.m.val) :=
  C62_merge_sorted (S := .rnd) lateLt_sw (Host.top_ok _) Host.top_calm (by decide) w4_reach hd1 hd0 (by rw [d1_asked]; rfl) (by rw [d0_asked]; rfl) trivial (by rw [d1_seqs]; rfl)
    (by rw [d0_seqs]; rfl) (by show List.Pairwise _ _; decide +kernel) (by show List.Pairwise _ _; decide +kernel)
/-- The fourth comparison throws: 12 has been transferred by the sequenced index; of the random access index all have been, but not merged. -/
example : leaves (World.mergeList (fun t v v' => if t = 3 then none else some (lateLt v v')) false (Host.top fun _ => {}) true 1 0 2 w4) = some (false,
    [[[11, 22, 23], [22, 11, 23], [11, 22, 23], [11, 22, 23]], [[12, 16, 21, 17], [16, 17, 21, 12], [16, 12, 17, 21], [16, 17, 21, 12]]], [some 13]) := by decide +kernel
example : leaves (World.mergeList (fun t v v' => if t = 3 then none else some (lateLt v v')) false (Host.top fun _ => {}) true 1 0 3 w4) = some (false,
    [[[11], [11], [11], [11]], [[12, 16, 21, 22, 23, 17], [16, 22, 17, 21, 12, 23], [16, 17, 21, 12, 22, 23], [16, 17, 21, 12, 22, 23]]], [some 13]) := by decide +kernel
example := C62_merge (eqAl := true) (i := 1) (j := 0) (k := 2) (H := hostT) (cmp := fun t v v' => if t = 3 then none else some (lateLt v v')) (fail := false) (S := .seq) hostT_ok (by decide)
  w4_reach hd1 hd0 (by rw [d1_asked]; rfl) (by rw [d0_asked]; rfl) trivial (by rw [d1_seqs]; rfl) (by rw [d0_seqs]; rfl)
example : World.mergeList (fun _ v v' => some (lateLt v v')) false (Host.top fun _ => {}) true 1 1 3 w4 = .ok w4 := C62_merge_self _ _
end

end MI.Cont
