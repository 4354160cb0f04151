import Verif.Hash.Local
import Verif.Props.Hash
import Verif.Cont.EffectLemmas2
import Verif.Cont.Example
/-!
# C56: local iteration of hashed indices, and how many keys a lookup compares

`localWalk n c h a m` is what a loop from `begin(m)` to `end(m)` meets; `compared c p h n x` are the elements whose keys the lookup loop
compares with the key looked for.
-/
set_option linter.unusedVariables false
namespace MI.Hash
open MI
variable {K CK : Type} {c : Cat} {key : Id → K} {eqK : K → K → Bool} {hashK : K → Nat} {ceq : CK → K → Bool} {chash : CK → Nat}
variable {h : Heap} {a : Arr} {hd : Id} {xs : List Id} {n : Nat}

/-- C56: local iteration over bucket `m` visits exactly the elements whose key has bucket `m`, in the order of the index. -/
theorem C56_local (w : Index c key eqK hashK h a hd xs) (hn : xs.length ≤ n) {m : Nat} (hm : m < a.size) :
    localWalk n c h a m = some (xs.filter fun x => a.position (hashK (key x)) == m) := w.localWalk hn hm

/-- C56: `bucket(k)` is the number of a bucket, and the local iteration over it visits every element with a key equal to `k`, these in
their order. -/
theorem C56_bucket (eh : EqHash eqK hashK) (ce : CompatHash eqK hashK ceq chash) (w : Index c key eqK hashK h a hd xs) (hn : xs.length ≤ n) (k : CK) :
    a.position (chash k) < a.size ∧ ∃ ys, localWalk n c h a (a.position (chash k)) = some ys ∧
      ys.filter (fun y => ceq k (key y)) = xs.filter (fun y => ceq k (key y)) := by
  have hm : a.position (chash k) < a.size := Nat.mod_lt _ w.1
  refine ⟨hm, _, C56_local w hn hm, ?_⟩
  rw [List.filter_filter]
  refine List.filter_congr fun y _ => ?_
  cases e : ceq k (key y) with
  | false => simp
  | true => simp [ce.cons e]

/-- C56: the buckets are a partition: iterating over one bucket after the other visits every element exactly once. -/
theorem C56_partition (w : Index c key eqK hashK h a hd xs) (hn : xs.length ≤ n) :
    ∃ ls : Nat → List Id, (∀ m, m < a.size → localWalk n c h a m = some (ls m)) ∧ ((List.range a.size).flatMap ls).Perm xs := by
  refine ⟨fun m => xs.filter fun x => a.position (hashK (key x)) == m, fun m hm => C56_local w hn hm, ?_⟩
  have key : ∀ (f : Id → Nat) (N : Nat) (l : List Id), ((List.range N).flatMap fun m => l.filter fun x => f x == m).Perm (l.filter fun x => f x < N) := by
    intro f N l
    induction N with
    | zero => simp
    | succ N ih =>
      rw [List.range_succ, List.flatMap_append]
      simp only [List.flatMap_cons, List.flatMap_nil, List.append_nil]
      refine (ih.append_right _).trans ?_
      clear ih
      induction l with
      | nil => simp
      | cons y l ih =>
        by_cases h1 : f y < N
        · have h2 : ¬ f y = N := by omega
          have h3 : f y < N + 1 := by omega
          simp only [List.filter_cons, h1, h2, h3, decide_true, if_true, beq_iff_eq, if_false, List.cons_append]
          exact ih.cons y
        · by_cases h2 : f y = N
          · have h3 : f y < N + 1 := by omega
            simp only [List.filter_cons, h1, h2, decide_false, Bool.false_eq_true, if_false, beq_self_eq_true, if_true, Nat.lt_succ_self, decide_true, Nat.lt_irrefl]
            exact List.perm_middle.trans (ih.cons y)
          · have h3 : ¬ f y < N + 1 := by omega
            simp only [List.filter_cons, h1, h2, h3, decide_false, Bool.false_eq_true, if_false, beq_iff_eq]
            exact ih
  refine (key _ _ _).trans ?_
  rw [List.filter_eq_self.2]
  intro x _
  exact decide_eq_true (Nat.mod_lt _ w.1)

/-- C56: a lookup compares the key looked for only with elements of its bucket, with each at most once, and with at most two of any number
of elements with equal keys (one if the index is unique). -/
theorem C56_comparisons (eh : EqHash eqK hashK) (w : Index c key eqK hashK h a hd xs) (p : Id → Bool) (hk : Nat) :
    let l := compared c p h n (localBegin h a (a.position hk))
    l.Nodup ∧ (∀ y ∈ l, y ∈ xs ∧ a.position (hashK (key y)) = a.position hk) ∧
      ∀ x, l.countP (fun y => eqK (key x) (key y)) ≤ (if c = .uniq then 1 else 2) :=
  w.compared (eh.comap key) p hk n

/-- C56: these are all the comparisons that matter: an element that is found is the last one compared, and all before it differ. -/
theorem C56_found (w : Index c key eqK hashK h a hd xs) {p : Id → Bool} {hk : Nat} {y : Id} (h1 : find n c p hk h a hd = .ok y) (hy : y ≠ hd) :
    ∃ l, compared c p h n (localBegin h a (a.position hk)) = l ++ [y] ∧ p y = true ∧ ∀ z ∈ l, p z = false := by
  unfold find at h1
  split at h1
  · rename_i x hx
    cases h1
    exact findLoop_compared hx
  · cases h1; exact absurd rfl hy
  all_goals cases h1

/-! Examples: in the non-unique index of `exMem`, keys 3, 6 and 9 are in bucket 0; there are four elements with key 3. -/
example : localWalk 40 .multi (exMem .multi) exArr 0 = some [19, 16, 26, 53, 43, 33, 13] := by
  rw [C56_local (exMem_index .multi) (by decide) (by decide)]
  decide +kernel
example : ∃ ys, localWalk 40 .multi (exMem .multi) exArr (exArr.position (exHash 3)) = some ys ∧ ys.filter (fun y => exEq 3 (exKey y)) = [53, 43, 33, 13] := by
  obtain ⟨-, ys, h1, h2⟩ := C56_bucket exEqHash exEqHash.compat (exMem_index .multi) (n := 40) (by decide) 3
  exact ⟨ys, h1, h2.trans (by decide +kernel)⟩
example : ∃ ls : Nat → List Id, (∀ m, m < 7 → localWalk 40 .multi (exMem .multi) exArr m = some (ls m)) ∧ ((List.range 7).flatMap ls).Perm (exElems .multi) :=
  C56_partition (exMem_index .multi) (by decide)
/-- Key 0 is not there; its hash is that of 3: one element with key 9 is compared, two with key 6, one with key 3. -/
example : compared .multi (fun y => exEq 0 (exKey y)) (exMem .multi) 40 (localBegin (exMem .multi) exArr (exArr.position (exHash 0))) = [19, 16, 26, 53] := by
  decide +kernel
example : (compared .multi (fun y => exEq 0 (exKey y)) (exMem .multi) 40 (localBegin (exMem .multi) exArr (exArr.position (exHash 0)))).countP
    (fun y => exEq (exKey 33) (exKey y)) ≤ 2 := (C56_comparisons exEqHash (exMem_index .multi) _ _).2.2 33
example : find 40 .multi (fun y => exEq 3 (exKey y)) (exHash 3) (exMem .multi) exArr 1 = .ok 53 := by decide +kernel

end MI.Hash

namespace MI.Cont
open MI
variable {V : Type} {w : World V} {c : Container V}

/-- C56: in every reachable state, local iteration over any bucket of any hashed index of a container visits exactly the elements of the
container whose key has this bucket, each once. -/
theorem C56_container (r : Reach w) (hc : c ∈ w.cs) {cat : Hash.Cat} {eq : V → V → Bool} {hf : V → Nat} {pol : Pol} {ml : Nat} {h : Hash.Heap} {a : Hash.Arr}
    (hL : .hash cat eq hf pol ml h a ∈ c.ls) {m : Nat} (hm : m < a.size) :
    ∃ ys, Hash.localWalk c.budget cat h a m = some ys ∧ ys.Nodup ∧ ∀ z, z ∈ ys ↔ z ∈ c.elems ∧ hf (w.m.val z) % a.size = m := by
  have s := r.sound hc
  obtain ⟨k, hk⟩ := List.mem_iff_getElem?.1 hL
  obtain ⟨xs, h1, h2, h3⟩ := fit_get s.fit hk
  refine ⟨_, h2.2.localWalk (n := c.budget) (by have := s.budget; rw [h3.length_eq]; omega) hm, (List.nodup_cons.1 h2.nodup).2.filter _, fun z => ?_⟩
  rw [List.mem_filter, h3.mem_iff]
  simp

section
open Ex
example : ∃ eq hf pol ml h a, (Layer.hash .multi eq hf pol ml h a : Layer Val) ∈ c0.ls ∧ hf (3, 7) = 7 ∧ 0 < a.size ∧
    Hash.localWalk c0.budget .multi h a (7 % a.size) = some [11] := by
  have h : (match c0.ls[1]? with | some (Layer.hash .multi _ hf _ _ h a) => decide (hf (3, 7) = 7 ∧ 0 < a.size ∧ Hash.localWalk c0.budget .multi h a (7 % a.size) = some [11]) | _ => false) = true := by
    decide +kernel
  split at h
  · rename_i eq hf pol ml h' a e
    exact ⟨eq, hf, pol, ml, h', a, List.mem_of_getElem? e, of_decide_eq_true h⟩
  · cases h
end
end MI.Cont
