import Verif.Cont.SiftLemmas
import Verif.Props.ContList
/-!
# `remove_if`, `remove` and `unique` of sequenced and random access indices in containers with other indices: C61

`Purged w w' i m`: exactly the elements `m` have been erased from container `i`, from every index, and destroyed; all else is as before.
-/
set_option linter.unusedVariables false
namespace MI.Cont
open MI
variable {V : Type} {w w' : World V} {i j k l : Nat} {c c' d : Container V} {H : Host V}

/-- C61: `remove_if(pred)`, `remove(value)`, with a predicate that depends on its argument only and does not throw: exactly the elements that satisfy it are erased. -/
theorem C61_remove_if {S : Spec V} {p : V → Bool} {xs : List Id} (r : Reach w) (hc : w.cs[i]? = some c) (hS : c.asked[k]? = some S) (hl : S.list) (hk : c.seqs[k]? = some xs) :
    ∃ w' c', World.removeIf (fun _ v => some (p v)) i k w = .ok w' ∧ Purged w w' i (xs.filter fun x => p (w.m.val x)) ∧ Reach w' ∧
      w'.cs[i]? = some c' ∧ c'.seqs = c.seqs.map fun ys => ys.filter fun x => !p (w.m.val x) := by
  rcases removeIf_spec (pred := fun _ v => some (p v)) r hc hS hl hk with ⟨w', kept, gone, e, s, pu, r'⟩ | ⟨w', done, kept, gone, e, ⟨x, rest, -, -, s⟩, -⟩
  · have g := sift_gone s
    subst g
    obtain ⟨c0, c', o, -, -, q⟩ := pu.cont
    obtain rfl := Option.some.inj (o.pre.symm.trans hc)
    refine ⟨w', c', e, pu, r', o.post, ?_⟩
    rw [q]
    refine List.map_congr_left fun ys hy => List.filter_congr fun z hz => ?_
    have : z ∈ xs := by
      obtain ⟨n, hn⟩ := List.getElem?_of_mem hy
      exact seqs_mem r.inv hc hn hk hz
    simp [this]
  · exact nomatch s

/-- C61: `remove_if(pred)` with any predicate: call number `t` of it is for the element number `t` of the index. If no call throws, exactly the elements for
which the call returned `true` are erased. Otherwise the exception arrives, after the calls for `done`; see `Halfway`. -/
theorem C61_remove_if_throws {S : Spec V} {pred : Nat → V → Option Bool} {xs : List Id} (r : Reach w) (hc : w.cs[i]? = some c) (hS : c.asked[k]? = some S) (hl : S.list)
    (hk : c.seqs[k]? = some xs) :
    (∃ w' kept gone, World.removeIf pred i k w = .ok w' ∧ Sift (fun t _ x => pred t (w.m.val x)) 0 c.hd xs kept gone ∧ Purged w w' i gone ∧ Reach w') ∨
    (∃ w' done kept gone, World.removeIf pred i k w = .threw w' ∧ SiftStops (fun t _ x => pred t (w.m.val x)) 0 c.hd xs done kept gone ∧ Halfway S w w' i k c xs gone ∧ Reach w') :=
  removeIf_spec r hc hS hl hk

/-- C61: `unique(pred)` with a predicate that depends on its arguments only and does not throw: the index is left with the elements that differ from the
last one kept before them, and the others are erased. The predicate is given the element and the last one kept by sequenced indices,
and the other way round by random access indices (C31). -/
theorem C61_unique {S : Spec V} {p q : V → V → Bool} {xs : List Id} (r : Reach w) (hc : w.cs[i]? = some c) (hS : c.asked[k]? = some S) (hk : c.seqs[k]? = some xs)
    (hq : (S = .seq ∧ q = p) ∨ (S = .rnd ∧ q = fun x y => p y x)) :
    ∃ w' c', World.unique (fun _ x y => some (p x y)) i k w = .ok w' ∧ Reach w' ∧ w'.cs[i]? = some c' ∧
      c'.seqs[k]? = some (uniqueSpec (fun x y => q (w.m.val x) (w.m.val y)) xs) ∧
      Purged w w' i (xs.filter (· ∉ uniqueSpec (fun x y => q (w.m.val x) (w.m.val y)) xs)) := by
  have hl : S.list := by rcases hq with ⟨rfl, -⟩ | ⟨rfl, -⟩ <;> trivial
  cases xs with
  | nil =>
    obtain ⟨w', e, pu, r'⟩ := unique_nil (pred := fun _ x y => some (p x y)) r hc hS hl hk
    obtain ⟨c0, c', o, -, -, z⟩ := pu.cont
    obtain rfl := Option.some.inj (o.pre.symm.trans hc)
    exact ⟨w', c', e, r', o.post, by rw [z, List.getElem?_map, hk]; rfl, pu⟩
  | cons f xs =>
    have nd := (List.nodup_cons.1 (r.inv.seq_nodup hc hk)).2
    have n2 := List.nodup_cons.1 nd
    rcases unique_spec (pred := fun _ x y => some (p x y)) (ask := fun _ l x => some (q (w.m.val x) (w.m.val l))) r hc hS hl hk
      (by rintro rfl; rcases hq with ⟨-, rfl⟩ | ⟨h, -⟩ <;> first | rfl | exact nomatch h) (by rintro rfl; rcases hq with ⟨h, -⟩ | ⟨-, rfl⟩ <;> first | exact nomatch h | rfl) with
      ⟨w', kept, gone, e, s, pu, r'⟩ | ⟨w', done, kept, gone, e, ⟨x, rest, -, -, s⟩, -⟩
    · have s1 := sift_unique s
      have s2 := sift_kept s n2.2
      have hfg : f ∉ gone := fun g => n2.1 (s.perm.mem_iff.1 (by simp [g]))
      obtain ⟨c0, c', o, -, -, z⟩ := pu.cont
      obtain rfl := Option.some.inj (o.pre.symm.trans hc)
      refine ⟨w', c', e, r', o.post, ?_, pu.perm ?_⟩
      · rw [z, List.getElem?_map, hk, Option.map_some, List.filter_cons, if_pos (by simpa using hfg), ← s2, s1]; rfl
      · have : uniqueSpec (fun x y => q (w.m.val x) (w.m.val y)) (f :: xs) = f :: kept := by rw [s1]; rfl
        rw [this, List.filter_cons, if_neg (by simp)]
        conv => lhs; rw [sift_gone_filter s n2.2]
        refine .of_eq (List.filter_congr fun z hz => ?_)
        have : z ≠ f := by rintro rfl; exact n2.1 hz
        simp [this]
    · exact nomatch s

/-- C61: `unique(pred)` with any predicate, of an index whose first element is `f`: as `C61_remove_if_throws`; the calls are for the elements after `f` in turn. -/
theorem C61_unique_throws {S : Spec V} {pred : Nat → V → V → Option Bool} {f : Id} {xs : List Id} (r : Reach w) (hc : w.cs[i]? = some c) (hS : c.asked[k]? = some S) (hl : S.list)
    (hk : c.seqs[k]? = some (f :: xs)) {ask : Nat → Id → Id → Option Bool} (h1 : S = .seq → ask = fun t l x => pred t (w.m.val x) (w.m.val l))
    (h2 : S = .rnd → ask = fun t l x => pred t (w.m.val l) (w.m.val x)) :
    (∃ w' kept gone, World.unique pred i k w = .ok w' ∧ Sift ask 0 f xs kept gone ∧ Purged w w' i gone ∧ Reach w') ∨
    (∃ w' done kept gone, World.unique pred i k w = .threw w' ∧ SiftStops ask 0 f xs done kept gone ∧ Halfway S w w' i k c (f :: xs) gone ∧ Reach w') :=
  unique_spec r hc hS hl hk h1 h2

section
open Ex
/-- The elements of container 0 whose first component is 1 or 4 are removed through the sequenced index, or through the random access index. -/
example : leaves (World.removeIf (fun _ v => some (v.1 == 1 || v.1 == 4)) 0 2 w4) = some (true, [[[11, 23], [11, 23], [11, 23], [11, 23]], d1.seqs], [some 13]) := by decide +kernel
example : leaves (World.removeIf (fun _ v => some (v.1 == 1 || v.1 == 4)) 0 3 w4) = some (true, [[[11, 23], [11, 23], [11, 23], [11, 23]], d1.seqs], [some 13]) := by decide +kernel
example : ∃ w' c', World.removeIf (fun _ v => some (v.2 == 7)) 0 3 w4 = .ok w' ∧ Purged w4 w' 0 ([11, 12, 22, 23].filter fun x => (w4.m.val x).2 == 7) ∧ Reach w' ∧
    w'.cs[0]? = some c' ∧ c'.seqs = d0.seqs.map fun ys => ys.filter fun x => !((w4.m.val x).2 == 7) :=
  C61_remove_if (S := .rnd) (p := fun v => v.2 == 7) w4_reach hd0 (by rw [d0_asked]; rfl) trivial (by rw [d0_seqs]; rfl)
/-- The third call throws: 11 is gone if the index is sequenced; with a random access index all elements are there, in another order. -/
example : leaves (World.removeIf (fun t _ => if t = 2 then none else some (t == 0)) 0 2 w4) = some (false, [[[12, 22, 23], [22, 12, 23], [12, 22, 23], [12, 22, 23]], d1.seqs], [some 13]) := by
  decide +kernel
example : leaves (World.removeIf (fun t _ => if t = 2 then none else some (t == 0)) 0 3 w4) = some (false, [[[12, 11, 22, 23], [22, 11, 12, 23], [11, 12, 22, 23], [12, 11, 22, 23]], d1.seqs], [some 13]) := by
  decide +kernel
/-- 11, 12, 22, 23 have the second components 7, 5, 7, 6. Of every element, is it greater than the last one kept? Is it less? -/
example : leaves (World.unique (fun _ x y => some (decide (y.2 < x.2))) 0 2 w4) = some (true, [[[12, 11], [11, 12], [11, 12], [11, 12]], d1.seqs], [some 13]) := by decide +kernel
example : leaves (World.unique (fun _ x y => some (decide (y.2 < x.2))) 0 3 w4) = some (true, [[[11, 22], [22, 11], [11, 22], [11, 22]], d1.seqs], [some 13]) := by decide +kernel
example : ∃ w' c', World.unique (fun _ x y => some (decide (y.2 < x.2))) 0 2 w4 = .ok w' ∧ Reach w' ∧ w'.cs[0]? = some c' ∧
    c'.seqs[2]? = some (uniqueSpec (fun x y => decide ((w4.m.val y).2 < (w4.m.val x).2)) [11, 12, 22, 23]) ∧
    Purged w4 w' 0 ([11, 12, 22, 23].filter (· ∉ uniqueSpec (fun x y => decide ((w4.m.val y).2 < (w4.m.val x).2)) [11, 12, 22, 23])) :=
  C61_unique (S := .seq) (p := fun x y => decide (y.2 < x.2)) (q := fun x y => decide (y.2 < x.2)) w4_reach hd0 (by rw [d0_asked]; rfl) (by rw [d0_seqs]; rfl)
    (Or.inl ⟨rfl, rfl⟩)
example : leaves (World.unique (fun t _ _ => if t = 1 then none else some true) 0 2 w4) = some (false, [[[11, 22, 23], [22, 11, 23], [11, 22, 23], [11, 22, 23]], d1.seqs], [some 13]) := by
  decide +kernel
example := C61_unique_throws (k := 3) (pred := fun t _ _ => if t = 1 then none else some true) (S := .rnd) w4_reach hd0 (by rw [d0_asked]; rfl) trivial (by rw [d0_seqs]; rfl) nofun (fun _ => rfl)
example := C61_remove_if_throws (k := 2) (pred := fun t _ => if t = 2 then none else some (t == 0)) (S := .seq) w4_reach hd0 (by rw [d0_asked]; rfl) trivial (by rw [d0_seqs]; rfl)
end

end MI.Cont
