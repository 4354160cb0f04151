import Verif.Cont.ApiLemmas4
import Verif.Cont.HostExample
/-!
# Properties of operations made of several steps: C09, C11, C27, C44, C46

`Host`: where memory comes from and which calls throw, at each step; `H.Ok`: memory is new; `H.Calm`: nothing throws.
`v.headD hd`: the iterator to the first element of `v`, or, if `v` is empty, `hd`, which is `end()`.
-/
set_option linter.unusedVariables false
namespace MI.Cont
open MI
variable {V : Type} {w w' : World V} {i j k : Nat} {c c' : Container V} {H : Host V}

/-! ## C09, C44: erasure -/

/-- C09: `erase(position)` through index `k` removes the element from every index and nothing else, deletes its node, and returns the iterator
to the element that followed it in index `k` (`end()` if it was the last). -/
theorem C09_erase_returns_next {x : Id} {u v : List Id} (r : Reach w) (hc : w.cs[i]? = some c) (h : c.seqs[k]? = some (u ++ x :: v)) :
    ∃ w', w.eraseIt i k x = .ok (w', v.headD c.hd) ∧ Purged w w' i [x] :=
  let ⟨w', h1, h2, _⟩ := eraseIt_spec r hc h
  ⟨w', h1, h2⟩

/-- C44: `erase(first,last)` through index `k` (of any kind) erases exactly the elements of the range, from every index, and returns `last`. The
other elements keep their order in every index. -/
theorem C44_erase_range {u m v : List Id} (r : Reach w) (hc : w.cs[i]? = some c) (h : c.seqs[k]? = some (u ++ m ++ v)) :
    ∃ w', w.eraseRange i k ((m ++ v).headD c.hd) (v.headD c.hd) = .ok (w', v.headD c.hd) ∧ Purged w w' i m ∧ Reach w' :=
  eraseRange_spec r hc h

/-- C44: `erase(key)` of an ordered or hashed index erases exactly the elements whose key is equivalent to it, from every index, and returns their
number. -/
theorem C44_erase_key {S : Spec V} {xs : List Id} {p : Probe V} (r : Reach w) (hc : w.cs[i]? = some c) (hS : c.asked[k]? = some S)
    (h : c.seqs[k]? = some xs) (po : p.Ok S) :
    ∃ w' m, m = xs.filter (fun x => p.hits (w.m.val x) S) ∧ w.eraseKey i k p false = .ok (w', m.length) ∧ Purged w w' i m ∧ Reach w' :=
  let ⟨w', h1, h2, h3⟩ := eraseKey_spec r hc hS h po
  ⟨w', _, rfl, h1, h2, h3⟩

/-- C44: when a user call of the lookup throws, `erase(key)` has erased nothing. -/
theorem C44_erase_key_throws {S : Spec V} {xs : List Id} {p : Probe V} (r : Reach w) (hc : w.cs[i]? = some c) (hS : c.asked[k]? = some S)
    (po : p.Ok S) : w.eraseKey i k p true = .threw (w, 0) := by
  unfold Container.asked at hS
  rw [List.getElem?_map] at hS
  cases hL : c.ls[k]? with
  | none => rw [hL] at hS; exact nomatch hS
  | some L =>
    rw [hL] at hS
    obtain rfl := Option.some.inj hS
    cases L with
    | seq => exact po.elim
    | rnd => exact po.elim
    | ord => simp only [World.eraseKey, hc, hL, if_true]
    | hash => simp only [World.eraseKey, hc, hL, if_true]

/-- C44: `extract(key)` of an ordered or hashed index takes out, from every index, the first element (in the order of that index) whose key
is equivalent; the handle returned owns it. If there is none, the handle is empty and nothing changes. -/
theorem C44_extract_key {S : Spec V} {xs : List Id} {p : Probe V} (r : Reach w) (hc : w.cs[i]? = some c) (hS : c.asked[k]? = some S)
    (h : c.seqs[k]? = some xs) (po : p.Ok S) :
    (∀ x, xs.find? (fun x => p.hits (w.m.val x) S) = some x →
      ∃ w', w.extractKey i k p false = .ok (w', some x) ∧ Lost w w' i x ∧ w'.m = w.m ∧ w'.hs = w.hs ++ [some x] ∧ Reach w') ∧
    ((∀ x ∈ xs, p.hits (w.m.val x) S = false) → w.extractKey i k p false = .ok ({ w with hs := w.hs ++ [none] }, none)) := by
  obtain ⟨h1, h2⟩ := extractKey_spec r hc hS h po
  refine ⟨h2, fun hn => h1 (List.find?_eq_none.2 fun x hx => by simp [hn x hx])⟩

section
open Ex
/-- The elements with second component 7, of a hashed index; those less than 4 and not less than 2, as one class, of an ordered index. -/
def Ex.p7 : Probe Val := ⟨fun _ => false, fun _ => false, fun v => v.2 == 7, 7⟩
def Ex.pr : Probe Val := ⟨fun v => v.1 < 2, fun v => 4 < v.1, fun _ => false, 0⟩

theorem Ex.p7_ok : p7.Ok (.hash .multi (fun a b : Val => a.2 == b.2) (fun a => a.2)) :=
  ⟨fun {_ a b} h k => by simp only [p7, beq_iff_eq] at *; omega, fun {_ a b} h k => by simp only [p7, beq_iff_eq] at *; omega,
    fun {_ a} h => by simp only [p7, beq_iff_eq] at *; omega⟩

theorem Ex.pr_ok : pr.Ok (.ord true (fun a b : Val => decide (a.1 < b.1))) :=
  ⟨fun _ a h => by simp [pr] at *; omega, fun _ a b h k => by simp [pr] at *; omega, fun _ a b h k => by simp [pr] at *; omega⟩

theorem Ex.d0_asked : d0.asked = [.ord true (fun a b => a.1 < b.1), .hash .multi (fun a b => a.2 == b.2) (fun a => a.2), .seq, .rnd] := rfl
theorem Ex.d0_seqs : d0.seqs = [[12, 11, 22, 23], [22, 11, 12, 23], [11, 12, 22, 23], [11, 12, 22, 23]] := by decide +kernel
theorem Ex.d1_seqs : d1.seqs = [[16, 21, 17], [16, 17, 21], [16, 17, 21], [16, 17, 21]] := by decide +kernel

example : ∃ w', w4.eraseIt 0 1 11 = .ok (w', 12) ∧ Purged w4 w' 0 [11] :=
  C09_erase_returns_next (k := 1) (u := [22]) (v := [12, 23]) w4_reach hd0 (by rw [d0_seqs]; rfl)
example : ∃ w', w4.eraseRange 0 3 12 23 = .ok (w', 23) ∧ Purged w4 w' 0 [12, 22] ∧ Reach w' :=
  C44_erase_range (k := 3) (u := [11]) (m := [12, 22]) (v := [23]) w4_reach hd0 (by rw [d0_seqs]; rfl)
example : ∃ w' m, m = [22, 11, 12, 23].filter (fun x => p7.hits (w4.m.val x) (.hash .multi (fun a b => a.2 == b.2) (fun a => a.2))) ∧ w4.eraseKey 0 1 p7 false = .ok (w', m.length) ∧ Purged w4 w' 0 m ∧ Reach w' :=
  C44_erase_key (k := 1) w4_reach hd0 (by rw [d0_asked]; rfl) (by rw [d0_seqs]; rfl) p7_ok
example : ∃ w' m, m = [12, 11, 22, 23].filter (fun x => pr.hits (w4.m.val x) (.ord true (fun a b => a.1 < b.1))) ∧ w4.eraseKey 0 0 pr false = .ok (w', m.length) ∧ Purged w4 w' 0 m ∧ Reach w' :=
  C44_erase_key (k := 0) w4_reach hd0 (by rw [d0_asked]; rfl) (by rw [d0_seqs]; rfl) pr_ok
example : [12, 11, 22, 23].filter (fun x => pr.hits (w4.m.val x) (.ord true (fun a b => a.1 < b.1))) = [11, 22] := by decide +kernel
example : (leavesN (w4.extractKey 0 1 p7 false)).map (·.2.2) = some ([some 13, some 22], some 22) := by decide +kernel
example : (leavesN (w4.extractKey 0 0 ⟨fun v => v.1 < 7, fun v => 7 < v.1, fun _ => false, 0⟩ false)).map (·.2.2) = some ([some 13, none], none) := by decide +kernel
end

/-! ## C11: merging -/

/-- C11: `merge` of a range `m` of index `k` of container `j` into another container `i`. `done` are the elements of the range considered before
the operation ended: all of them if it returns. Of these, in turn, exactly the ones no unique index of the destination forbids (`Takes`) have
left the source and joined the destination (`Shifted`); no element has been created, copied, changed or destroyed. If it throws, a user
call or an allocation did, while the element `x` was being transferred, and `x` is still in the source. -/
theorem C11_merge {u m v : List Id} {d : Container V} (ok : H.Ok) (r : Reach w) (ne : i ≠ j) (hc : w.cs[i]? = some c) (hd : w.cs[j]? = some d)
    (h : d.seqs[k]? = some (u ++ m ++ v)) :
    ∃ w' done took, Takes c.asked w.m.val c.elems done took ∧ Shifted w w' i j took ∧ Reach w' ∧
      ((w.merge H i j k ((m ++ v).headD d.hd) (v.headD d.hd) = .ok w' ∧ done = m) ∨
       (w.merge H i j k ((m ++ v).headD d.hd) (v.headD d.hd) = .threw w' ∧ ¬ H.Calm ∧ ∃ x rest, m = done ++ x :: rest ∧ x ∉ took)) := by
  have I := r.inv
  obtain ⟨-, -, -, -, hb, -⟩ := I.seq hd h
  have hne : d.hd ≠ c.hd := by
    intro e
    have hm : c ∈ w.cs.eraseIdx j := by
      rw [List.mem_eraseIdx_iff_getElem?]
      exact ⟨i, ne, hc⟩
    exact I.disj hd hm (List.mem_cons_self ..) (by rw [e]; exact List.mem_cons_self ..)
  have := transferLoop_spec (k := k) (u := u) (m := m) (v := v) (n := d.budget) ok ne 0 r hc hd h (by simp only [List.length_append] at hb; omega) rfl
  simpa only [World.merge, hc, hd, if_pos hne] using this

/-- C11: merging a container into itself does nothing. -/
theorem C11_merge_self (hc : w.cs[i]? = some c) (first last : Id) : w.merge H i i k first last = .ok w := by
  simp only [World.merge, hc, ne_eq, not_true_eq_false, if_false]

/-- C11: after a merge, returned or not, each element is where it was or in the destination: no element is in both containers or in none. -/
theorem C11_conserved {took : List Id} {d : Container V} (r : Reach w) (r' : Reach w') (ne : i ≠ j) (s : Shifted w w' i j took) (hc : w.cs[i]? = some c)
    (hd : w.cs[j]? = some d) : ∃ c' d', w'.cs[i]? = some c' ∧ w'.cs[j]? = some d' ∧ (c'.elems ++ d'.elems).Perm (c.elems ++ d.elems) ∧
      (c'.elems ++ d'.elems).Nodup := by
  have I := r.inv
  have I' := r'.inv
  obtain ⟨hm, hh, c0, c1, d0, d1, q1, q2, q3, q4, q5, q6, q7, q8, q9, q10, q11, q12, q13⟩ := s
  obtain rfl := Option.some.inj (q1.symm.trans hc)
  obtain rfl := Option.some.inj (q2.symm.trans hd)
  have hi1 : w'.cs[i]? = some c1 := by
    rw [q3, List.getElem?_set_ne ne.symm, List.getElem?_set_self (List.getElem?_eq_some_iff.1 hc).1]
  have hj1 : w'.cs[j]? = some d1 := by
    rw [q3, List.getElem?_set_self]
    rw [List.length_set]; exact (List.getElem?_eq_some_iff.1 hd).1
  have el : d1.elems = d0.elems.filter (· ∉ took) := by
    unfold Container.elems
    rw [q13]
    cases d0.seqs <;> rfl
  have ndd : d0.elems.Nodup := (List.nodup_cons.1 (I.seq_nodup hd (seqs_head I hd))).2
  have gr : ∀ {S : Spec V} {t xs ys : List Id}, Grown w.m.val (· = none) S t xs ys → ys.Perm (t ++ xs) := by
    intro S t xs ys g
    induction g with
    | same s => exact Same.perm s
    | add _ a _ ih => exact ih.trans ((a.perm.append_left _).trans List.perm_middle)
    | rehash s _ ih => exact ih.trans ((Same.perm s).append_left _)
  obtain ⟨S0, -, e0⟩ := each_head q12 (asked_ne' I hc)
  have hp : c1.elems.Perm (took ++ c0.elems) := gr e0
  have hsub : (took ++ d0.elems.filter (· ∉ took)).Perm d0.elems := by
    refine (List.perm_ext_iff_of_nodup ?_ ndd).2 fun z => ?_
    · rw [List.nodup_append]
      refine ⟨q8, ndd.filter _, fun a ha b hb => ?_⟩
      rintro rfl
      simp [ha] at hb
    · simp only [List.mem_append, List.mem_filter, decide_eq_true_eq]
      constructor
      · rintro (h | h)
        · exact q9 z h
        · exact h.1
      · intro h
        by_cases hz : z ∈ took
        · exact Or.inl hz
        · exact Or.inr ⟨h, hz⟩
  refine ⟨c1, d1, hi1, hj1, ?_, ?_⟩
  · rw [el]
    refine (hp.append_right _).trans ?_
    refine (List.perm_append_comm.append_right _).trans ?_
    rw [List.append_assoc]
    exact hsub.append_left _
  · rw [List.nodup_append]
    refine ⟨(List.nodup_cons.1 (I'.seq_nodup hi1 (seqs_head I' hi1))).2, (List.nodup_cons.1 (I'.seq_nodup hj1 (seqs_head I' hj1))).2, fun a ha b hb => ?_⟩
    rintro rfl
    have hm : c1 ∈ w'.cs.eraseIdx j := by
      rw [List.mem_eraseIdx_iff_getElem?]
      exact ⟨i, ne, hi1⟩
    exact I'.disj hj1 hm (List.mem_cons_of_mem _ hb) (List.mem_cons_of_mem _ ha)

/-- C11: `merge(x,it)` moves one element exactly when no unique index of the destination forbids it; it returns the position of the element, or of
one that forbids it. -/
theorem C11_merge_one {x : Id} {d : Container V} (ok : H.Ok) (r : Reach w) (ne : i ≠ j) (hc : w.cs[i]? = some c) (hd : w.cs[j]? = some d) (hx : x ∈ d.elems) :
    (∃ w', w.mergeOne H i j x = .ok (w', ⟨x, true⟩) ∧ Handed w w' i j x ∧ ¬ c.Bans w.m.val [] (w.m.val x) ∧ Reach w') ∨
    (∃ w' y, w.mergeOne H i j x = .ok (w', ⟨y, false⟩) ∧ Unchanged w w' i ∧ w'.m = w.m ∧ y ∈ c.elems ∧ Clash c.asked (w.m.val x) (w.m.val y) ∧ Reach w') ∨
    (∃ w' ret, w.mergeOne H i j x = .threw (w', ret) ∧ Unchanged w w' i ∧ w'.m = w.m ∧ ¬ H.Calm ∧ Reach w') := by
  have I := r.inv
  have hne : ¬ d.hd = c.hd := by
    intro e
    have hm : c ∈ w.cs.eraseIdx j := by
      rw [List.mem_eraseIdx_iff_getElem?]
      exact ⟨i, ne, hc⟩
    exact I.disj hd hm (List.mem_cons_self ..) (by rw [e]; exact List.mem_cons_self ..)
  have l := hostLegal (t := 0) ok r ne hc hd hx
  have e : w.mergeOne H i j x = w.step (.transfer i j x (H.env w 0)) := by simp only [World.mergeOne, hc, hd, if_neg hne]
  rw [e]
  rcases eff_transfer I l with ⟨w1, k1, k2, k3⟩ | ⟨w1, y, k1, k2, k3, k4⟩ | ⟨w1, k1, k2, k3, q, k4⟩
  · exact Or.inl ⟨w1, k1, k2, k3 c hc, r.ok l k1⟩
  · exact Or.inr (Or.inl ⟨w1, y, k1, k2, k3, (k4 c hc).1, (k4 c hc).2, r.ok l k1⟩)
  · exact Or.inr (Or.inr ⟨w1, _, k1, k2, k3, fun h => k4 ((h w 0).2.2 q), r.threw l k1⟩)

section
open Ex
/-- Container 0 is merged into container 1: 11 is rejected, as 21 has an equivalent key. -/
example : leaves (w4.merge (Host.top fun _ => {}) 1 0 0 12 1) = some (true,
    [[[11], [11], [11], [11]], [[12, 16, 21, 22, 23, 17], [16, 22, 17, 21, 12, 23], [16, 17, 21, 12, 22, 23], [16, 17, 21, 12, 22, 23]]], [some 13]) := by
  decide +kernel
example : ∃ w' done took, Takes d1.asked w4.m.val d1.elems done took ∧ Shifted w4 w' 1 0 took ∧ Reach w' ∧
      ((w4.merge (Host.top fun _ => {}) 1 0 0 12 d0.hd = .ok w' ∧ done = [12, 11, 22, 23]) ∨
       (w4.merge (Host.top fun _ => {}) 1 0 0 12 d0.hd = .threw w' ∧ ¬ (Host.top fun _ => {} : Host Val).Calm ∧ ∃ x rest, [12, 11, 22, 23] = done ++ x :: rest ∧ x ∉ took)) :=
  C11_merge (k := 0) (u := []) (m := [12, 11, 22, 23]) (v := []) (Host.top_ok _) w4_reach (by decide) hd1 hd0 (by rw [d0_seqs]; rfl)
example : (Host.top fun _ => {} : Host Val).Calm := Host.top_calm
/-- A host whose calls throw at the second element. -/
def Ex.hostT : Host Val := { Host.top (fun _ => {}) with env := fun w t k => { base := w.top + 2, cpy := w.top + 1, point := t == 2 && k == 1 } }
example : leaves (w4.merge hostT 1 0 0 12 1) = some (false,
    [[[11, 22, 23], [22, 11, 23], [11, 22, 23], [11, 22, 23]], [[12, 16, 21, 17], [16, 17, 21, 12], [16, 17, 21, 12], [16, 17, 21, 12]]], [some 13]) := by
  decide +kernel
end

/-! ## C27, C30: rearrangements do not touch the other indices -/

/-- A rearrangement of a sequenced or random access index of a container (relocation of a range, `reverse`, `rearrange`, same-container `splice`, `sort`, `reserve`,
`shrink_to_fit`, and the steps by which random access indices perform `remove_if`, `unique` and `merge`) changes the order of that index only, as documented if it
returns, and to some permutation if a user function or the allocation throws, which is the only reason for an exception; all other indices, all other containers
and all elements are as they were. -/
theorem C27_only_that_index {a : Rearr V} {L : Layer V} {xs : List Id} (r : Reach w) (hc : w.cs[i]? = some c) (hL : c.ls[k]? = some L) (kd : L.keyed = false)
    (h : c.seqs[k]? = some xs) (ok : a.Ok c.hd xs L.spec) :
    ∃ w' c' xs', OnlyAt w w' i c c' ∧ w'.m = w.m ∧ w'.hs = w.hs ∧ c'.count = c.count ∧ c'.seqs = c.seqs.set k xs' ∧ xs'.Perm xs ∧ Reach w' ∧
      ((w.step (.rearrange i k a) = .ok (w', ⟨0, true⟩) ∧ a.Does c.hd w.m.val L.spec xs xs') ∨
        (w.step (.rearrange i k a) = .threw (w', ⟨0, true⟩) ∧ a.Fails c.hd w.m.val L.spec xs xs')) := by
  have l : w.Legal (.rearrange i k a) := ⟨c, L, xs, hc, hL, kd, h, ok⟩
  obtain ⟨w1, c0, c1, S, ys, ys', o, k1, k2, k3, k4, k5, k6, k7, k8, k9⟩ := eff_rearrange r.inv l
  obtain rfl := Option.some.inj (o.pre.symm.trans hc)
  obtain rfl := Option.some.inj (k5.symm.trans h)
  have : S = L.spec := by
    unfold Container.asked at k4
    rw [List.getElem?_map, hL] at k4
    exact (Option.some.inj k4).symm
  subst this
  refine ⟨w1, c1, ys', o, k1, k2, k3, k6, k7, ?_, k9⟩
  rcases k9 with k9 | k9
  · exact r.ok l k9.1
  · exact r.threw l k9.1

/-- `relocate(position,x)` moves the element `x` before `position` in that index; all other indices, containers and elements are as they were. -/
theorem C27_relocate_only_that_index {L : Layer V} {xs : List Id} {pos x : Id} (r : Reach w) (hc : w.cs[i]? = some c) (hL : c.ls[k]? = some L) (kd : L.keyed = false)
    (h : c.seqs[k]? = some xs) (hx : x ∈ c.elems) (hp : pos ∈ c.hd :: c.elems) :
    ∃ w' c' xs', w.step (.relocate i k pos x) = .ok (w', ⟨x, true⟩) ∧ OnlyAt w w' i c c' ∧ w'.m = w.m ∧ w'.hs = w.hs ∧ c'.count = c.count ∧
      c'.seqs = c.seqs.set k xs' ∧ PutBefore c.hd pos x xs xs' := by
  obtain ⟨w1, c0, c1, k1, o, k2, k3, k4, ys, ys', k5, k6, k7, k8, -⟩ := eff_relocate r.inv (show w.Legal (.relocate i k pos x) from ⟨c, L, hc, hL, kd, hx, hp⟩)
  obtain rfl := Option.some.inj (o.pre.symm.trans hc)
  obtain rfl := Option.some.inj (k5.symm.trans h)
  exact ⟨w1, c1, ys', k1, o, k2, k3, k4, k6, k8⟩

section
open Ex
example : (leavesN (w4.step (.rearrange 0 2 .reverse))).map (fun p => (p.1, p.2.1)) = some (true,
    [[[12, 11, 22, 23], [22, 11, 12, 23], [23, 22, 12, 11], [11, 12, 22, 23]], [[16, 21, 17], [16, 17, 21], [16, 17, 21], [16, 17, 21]]]) := by
  decide +kernel
example : (Rearr.splice 22 [23, 11] : Rearr Val).Ok d0.hd [11, 12, 22, 23] .seq := ⟨by simp, by simp, by simp, by simp⟩
end

/-! ## C46: insertion of a range; construction from a range -/

/-- C46: constructing a container from a range of values. If it returns, the container has exactly the values accepted when they are inserted one at a
time (`Keeps`); the indices have been filled by insertions whose hint is the position after the one inserted last, in the first index
(`Fed true`); nothing else in the program has changed. If it throws, a call or an allocation did, and nothing is left of the container:
memory, values, containers and handles are as before. -/
theorem C46_construct {em : Bool} {hd z : Id} {is : List (Init V)} (ok : H.Ok) (r : Reach w) (l : w.Legal (.new hd z is)) (vs : List V) :
    (∃ w' c took, w.construct H em hd z is vs = .ok w' ∧ Reach w' ∧ w'.cs = w.cs ++ [c] ∧ c.asked = is.map Init.spec ∧
      Keeps (is.map Init.spec) [] vs (took.map w'.m.val) ∧ c.elems.Perm took ∧ c.count = took.length ∧
      Fed true w'.m.val (is.map Init.spec) hd (some hd) vs (is.map fun _ => []) took c.seqs ∧
      w'.m.alloc = took.reverse ++ hd :: w.m.alloc ∧ w'.m.cons = took.reverse ++ w.m.cons ∧ w'.hs = w.hs ∧ ∀ x ∈ w.m.cons, w'.m.val x = w.m.val x) ∨
    (∃ w', w.construct H em hd z is vs = .threw w' ∧ Reach w' ∧ ¬ H.Calm ∧ w'.cs = w.cs ∧ w'.hs = w.hs ∧ w'.m.alloc.Perm w.m.alloc ∧ w'.m.cons.Perm w.m.cons ∧
      ∀ x ∈ w.m.cons, w'.m.val x = w.m.val x) := by
  have ne : is.map Init.spec ≠ [] := by simpa using l.2.1
  have h0 : ((is.map fun _ => ([] : List Id)).headD []) = [] := by cases is <;> rfl
  rcases construct_spec (em := em) ok r l vs with ⟨w1, c, took, h1, h2, h3, h4, h5, h6, h7, h8, h9, h10, h11⟩ | h
  · refine Or.inl ⟨w1, c, took, h1, h2, h3, h5, ?_, ?_, h6, h11, h7, h8, h9, h10⟩
    · have := h11.keeps ne
      rwa [h0] at this
    · have := h11.elems ne
      rwa [h0, List.append_nil] at this
  · exact Or.inr h

/-- C46: inserting a range of values into a container: the values accepted are those accepted one at a time. If it throws, the values before
the one that failed have been processed, and the rest of the program is as it was. -/
theorem C46_insert_range {em : Bool} (ok : H.Ok) (r : Reach w) (hc : w.cs[i]? = some c) (vs : List V) :
    ∃ w' c' done took yss, OnlyAt w w' i c c' ∧ Reach w' ∧ Keeps c.asked (c.elems.map w'.m.val) done (took.map w'.m.val) ∧ c'.elems.Perm (took ++ c.elems) ∧
      Fed false w'.m.val c.asked c.hd none done c.seqs took yss ∧ c'.count = c.count + took.length ∧
      w'.m.alloc = took.reverse ++ w.m.alloc ∧ w'.m.cons = took.reverse ++ w.m.cons ∧ w'.hs = w.hs ∧ (∀ x ∈ w.m.cons, w'.m.val x = w.m.val x) ∧
      ((World.insertRange H em i w vs 0 = .ok w' ∧ done = vs ∧ yss = c'.seqs) ∨
       (World.insertRange H em i w vs 0 = .threw w' ∧ ¬ H.Calm ∧ (∃ v rest, vs = done ++ v :: rest) ∧ Each (fun S xs ys => S.Same w'.m.val xs ys) c.asked yss c'.seqs)) := by
  have ne := asked_ne' r.inv hc
  obtain ⟨w1, c1, done, took, yss, f, r1, q⟩ := insertRange_spec (em := em) (vs := vs) ok 0 r hc
  refine ⟨w1, c1, done, took, yss, f.only, r1, f.fed.keeps ne, ?_, f.fed, f.count, f.alloc, f.cons, f.hs, f.val, q⟩
  have he := f.fed.elems ne
  rcases q with ⟨-, -, d⟩ | ⟨-, -, -, e⟩
  · rw [d] at he; exact he
  · obtain ⟨S0, -, e0⟩ := each_head e ne
    exact (Same.perm e0).trans he

/-- C46: which values are accepted does not depend on hints or on how they are constructed: it is determined by the index specifiers and the
values. -/
theorem C46_acceptance_determined {Ss : List (Spec V)} {xs vs a b : List V} (h : Keeps Ss xs vs a) (g : Keeps Ss xs vs b) : a = b := by
  induction h generalizing b with
  | nil => cases g; rfl
  | take n _ ih =>
    cases g with
    | take _ g => rw [ih g]
    | skip e g =>
      obtain ⟨v, hv, hc⟩ := e
      exact absurd hc (n v hv)
  | skip e _ ih =>
    cases g with
    | take n g =>
      obtain ⟨v, hv, hc⟩ := e
      exact absurd hc (n v hv)
    | skip _ g => exact ih g

section
open Ex
/-- (4,2) is rejected, as (4,1) is there. -/
example : leaves (w4.construct (Host.top fun _ => {}) false 100 7 (is1 3000) [(4, 1), (6, 1), (4, 2), (5, 1)]) = some (true,
    [d0.seqs, d1.seqs, [[3054, 3056, 3055], [3056, 3055, 3054], [3054, 3055, 3056], [3054, 3055, 3056]]], [some 13]) := by decide +kernel
example : w4.Legal (.new 100 7 (is1 3000)) := ⟨by decide +kernel, by simp [is1], init_ok _ (by decide) (by decide +kernel)⟩
/-- The third construction of a value throws. -/
example : leaves (w4.construct (Host.top fun t => if t = 2 then { construct := true } else {}) true 100 7 (is1 3000) [(4, 1), (6, 1), (5, 1)]) = some (false,
    [d0.seqs, d1.seqs], [some 13]) := by decide +kernel
end

end MI.Cont
