import Verif.Hash.History
import Verif.Hash.Sizes
import Verif.Hash.Float
/-!
# Properties of hashed indices (C20-C25, C49)

`Index c key eqK hashK h a hd xs` says that the hashed index with header `hd` and bucket array `a` in the memory `h` is well formed and
holds exactly the elements `xs` in traversal order: `begin()` and `++` visit exactly `xs` (`C20_traversal`). `c` is the category
(`.uniq`, `.multi`), `key`, `eqK` and `hashK` are key extraction, equality predicate and hash function. Every history of operations leads
to such a state (`C20_history`). `EqHash`, `CompatHash` (`Verif.Spec.Hash`) are the documented requirements on user functions; the latter
covers lookups with compatible keys. `n` bounds the number of iterations of each loop; theorems hold as soon as `n` is at least the size.
-/
namespace MI.Hash
open MI

/-- A well-formed hashed index and its elements in traversal order. -/
abbrev Index {K : Type} (c : Cat) (key : Id → K) (eqK : K → K → Bool) (hashK : K → Nat) (h : Heap) (a : Arr) (hd : Id) (xs : List Id) : Prop :=
  Holds c (fun x y => eqK (key x) (key y)) (fun x => hashK (key x)) h a hd xs

/-! ## Examples: indices with header 1 and keys that collide -/

/-- Keys: `x % 10`. -/
def exKey (x : Id) : Nat := x % 10

def exEq (k k' : Nat) : Bool := k == k'

/-- A poor hash function: keys 3, 6 and 9 collide, and so on. -/
def exHash (k : Nat) : Nat := k % 3

theorem exEqHash : EqHash exEq exHash := by
  refine ⟨by simp [exEq], ?_, ?_, ?_⟩ <;> simp only [exEq, beq_iff_eq] <;> intros <;> simp_all

/-- Fresh memory with one array of four buckets. -/
def exHeap : Heap := clear ⟨fun _ => 77, fun _ => 78⟩ ⟨100, 4⟩ 1

/-- A history: insertions with equal and colliding keys, erasures, a rehash, and a rehash during which the hash function throws. -/
def exOps : Cat → List Op
  | .multi =>
    [.insert 13, .insert 26, .insert 23, .insert 39, .insert 33, .insert 16, .insert 12, .insert 43, .insert 19, .erase 23,
     .rehash ⟨200, 7⟩ 2 none, .insert 53, .insert 22, .rehash ⟨300, 5⟩ 2 (some 2), .erase 39]
  | .uniq =>
    [.insert 13, .insert 26, .insert 23, .insert 39, .insert 33, .insert 16, .insert 12, .insert 40, .insert 18, .erase 26,
     .rehash ⟨200, 7⟩ 2 none, .insert 53, .insert 22, .rehash ⟨300, 5⟩ 2 (some 2), .insert 36]

/-- The elements in the end, in traversal order. -/
def exElems : Cat → List Id
  | .multi => [22, 12, 19, 16, 26, 53, 43, 33, 13]
  | .uniq => [18, 12, 36, 40, 39, 13]

def exEqI (x y : Id) : Bool := exEq (exKey x) (exKey y)

def exHashI (x : Id) : Nat := exHash (exKey x)

def exRun (c : Cat) : Out State := run 40 c exEqI exHashI 1 (exOps c) ⟨exHeap, ⟨100, 4⟩, 0⟩

/-- The memory after the history. -/
def exMem (c : Cat) : Heap :=
  match exRun c with
  | .ok s => s.h
  | _ => exHeap

def exArr : Arr := ⟨200, 7⟩

theorem exHeap_index (c : Cat) : Index c exKey exEq exHash exHeap ⟨100, 4⟩ 1 [] :=
  holds_clear c _ _ _ (by decide) (by decide) (by decide) (by decide)

theorem exOps_valid (c : Cat) : Valid 40 c exEqI exHashI 1 (exOps c) ⟨exHeap, ⟨100, 4⟩, 0⟩ [] := by
  apply valid_of
  cases c <;> decide +kernel

/-- The outcome of the history: the array, and the elements as a traversal visits them. -/
theorem exRun_facts (c : Cat) : (match exRun c with
    | .ok s => decide (s.a = exArr ∧ walk c s.h 1 40 (begin s.h 1) = .ok (exElems c))
    | _ => false) = true := by
  cases c <;> decide +kernel

/-! ## C20: traversal, histories and lookup -/

section Lookup
variable {K CK : Type} {c : Cat} {key : Id → K} {eqK : K → K → Bool} {hashK : K → Nat} {ceq : CK → K → Bool} {chash : CK → Nat}
variable {h : Heap} {a : Arr} {hd : Id} {xs : List Id} {n : Nat}

/-- C20: `begin()`, then `++` until `end()`, visits exactly `xs`. -/
theorem C20_traversal (w : Index c key eqK hashK h a hd xs) (hn : xs.length ≤ n) : walk c h hd n (begin h hd) = .ok xs := by
  have := w.walk (post := []) xs [] n (by simp) hn
  simpa [w.begin] using this

/-- C20: every history of insertions, erasures, rehashes (with hash functions that throw or not) and clearings of a hashed index runs to
completion, ends in a well-formed index, and its elements are those inserted and not erased. -/
theorem C20_history (eh : EqHash eqK hashK) (w : Index c key eqK hashK h a hd []) (ops : List Op) (hn : ops.length ≤ n)
    (hv : Valid n c (fun x y => eqK (key x) (key y)) (fun x => hashK (key x)) hd ops ⟨h, a, 0⟩ []) :
    ∃ s xs, run n c (fun x y => eqK (key x) (key y)) (fun x => hashK (key x)) hd ops ⟨h, a, 0⟩ = .ok s ∧
      Index c key eqK hashK s.h s.a hd xs ∧ s.size = xs.length ∧
      xs.Perm (ops.foldl (effect c (fun x y => eqK (key x) (key y))) []) :=
  run_effects (eh.comap key) ops (s := ⟨h, a, 0⟩) w rfl (List.Perm.refl _) (by simpa using hn) hv

/-- C20: `find(k)` is the first element with a key equal to `k`, or `end()`. -/
theorem C20_find (eh : EqHash eqK hashK) (ce : CompatHash eqK hashK ceq chash) (w : Index c key eqK hashK h a hd xs) (hn : xs.length ≤ n) (k : CK) :
    find n c (fun y => ceq k (key y)) (chash k) h a hd = .ok ((xs.find? (fun y => ceq k (key y))).getD hd) :=
  w.find (eh.comap key) hn (fun _ _ p q => ce.ext p q) (fun _ _ p q => ce.one p q) (fun _ p => ce.cons p)

/-- C20: `count(k)` is the number of elements with a key equal to `k`. -/
theorem C20_count (eh : EqHash eqK hashK) (ce : CompatHash eqK hashK ceq chash) (w : Index c key eqK hashK h a hd xs) (hn : xs.length ≤ n) (k : CK) :
    count n c (fun x y => eqK (key x) (key y)) (fun y => ceq k (key y)) (chash k) h a = .ok (xs.countP (fun y => ceq k (key y))) :=
  w.count (eh.comap key) hn (fun _ _ p q => ce.ext p q) (fun _ _ p q => ce.one p q) (fun _ p => ce.cons p)

/-- C20, C21: `equal_range(k)` delimits exactly the elements with a key equal to `k`: it is `(f,l)` where the elements from `f` up to `l`
have such a key and no other element has; it is `(end(),end())` if there are none. -/
theorem C20_equal_range (eh : EqHash eqK hashK) (ce : CompatHash eqK hashK ceq chash) (w : Index c key eqK hashK h a hd xs) (hn : xs.length ≤ n) (k : CK) :
    ∃ u m v, xs = u ++ m ++ v ∧ (∀ y ∈ m, ceq k (key y) = true) ∧ (∀ y ∈ u ++ v, ceq k (key y) = false) ∧
      equalRange n c (fun x y => eqK (key x) (key y)) (fun y => ceq k (key y)) (chash k) h a hd =
        .ok (if m = [] then (hd, hd) else (m.headD hd, v.headD hd)) := by
  rcases w.equalRange (eh.comap key) hn (p := fun y => ceq k (key y)) (hk := chash k) (fun _ _ p q => ce.ext p q) (fun _ _ p q => ce.one p q) (fun _ p => ce.cons p) with
    ⟨k1, k2⟩ | ⟨u, f, m, v, k1, k2, k3, k4⟩
  · exact ⟨xs, [], [], by simp, by simp, by simpa using k2, by simpa using k1⟩
  · exact ⟨u, f :: m, v, k2, k3, k4, by simpa using k1⟩

/-- C20: `++` of local iterators and `bucket_size`: bucket `m` holds the elements whose hash leads to it. -/
theorem C20_bucket_size (w : Index c key eqK hashK h a hd xs) (hn : xs.length ≤ n) {m : Nat} (hm : m < a.size) :
    bucketSize n c h a m = .ok (xs.countP (fun x => a.position (hashK (key x)) == m)) :=
  w.bucketSize hn hm

/-- C20: an element is found by its own key: not finding it, or counting it twice, is impossible. -/
theorem C20_find_self (eh : EqHash eqK hashK) (w : Index c key eqK hashK h a hd xs) (hn : xs.length ≤ n) {x : Id} (hx : x ∈ xs) :
    ∃ y ∈ xs, find n c (fun y => eqK (key x) (key y)) (hashK (key x)) h a hd = .ok y ∧ eqK (key x) (key y) = true := by
  rw [C20_find eh eh.compat w hn (key x)]
  cases e : xs.find? (fun y => eqK (key x) (key y)) with
  | none =>
    have := List.find?_eq_none.1 e x hx
    exact absurd (eh.refl _) this
  | some y => exact ⟨y, List.mem_of_find?_eq_some e, rfl, by simpa using List.find?_some e⟩

/-- C20: what an insertion decides. In a unique index it is rejected because of an element with an equal key, exactly if there is one;
otherwise the new element is added and the others keep their order. -/
theorem C20_insert (eh : EqHash eqK hashK) (w : Index c key eqK hashK h a hd xs) (hn : xs.length ≤ n) {x : Id}
    (fr : x ≠ 0 ∧ x ∉ hd :: xs ∧ (x < a.base ∨ a.endB < x)) :
    (∃ y ∈ xs, c = .uniq ∧ eqK (key x) (key y) = true ∧
      linkPoint n c (fun x y => eqK (key x) (key y)) (fun y => eqK (key x) (key y)) (hashK (key x)) h a = .ok (.reject y)) ∨
    (¬ (c = .uniq ∧ ∃ y ∈ xs, eqK (key x) (key y) = true) ∧
      ∃ pos u v, linkPoint n c (fun x y => eqK (key x) (key y)) (fun y => eqK (key x) (key y)) (hashK (key x)) h a = .ok (.accept pos) ∧
        xs = u ++ v ∧ Index c key eqK hashK (link c h x pos hd) a hd (u ++ x :: v)) := by
  rcases w.linkPoint (eh.comap key) hn x with k | ⟨pos, k1, k2, u, v, k3, -, k5⟩
  · exact Or.inl k
  · refine Or.inr ⟨fun ⟨cu, y, ym, ye⟩ => ?_, pos, u, v, k1, k3, k5 fr⟩
    rw [k2 cu y ym] at ye
    cases ye

/-- C20: erasing an element removes exactly that element and keeps the order of the others. -/
theorem C20_erase (w : Index c key eqK hashK h a hd xs) {x : Id} (hx : x ∈ xs) :
    Index c key eqK hashK (unlink c h x) a hd (xs.erase x) :=
  w.unlink hx

/-- C20: clearing. -/
theorem C20_clear (w : Index c key eqK hashK h a hd xs) : Index c key eqK hashK (clear h a hd) a hd [] :=
  w.clear _ _

/-- C20: when the value of an element changes, `in_place` tells exactly if the index remains well formed as it is: that is, if lookups
remain exact and equal elements adjacent without moving anything. -/
theorem C20_modify_in_place (eh : EqHash eqK hashK) (w : Index c key eqK hashK h a hd xs) {x : Id} (hx : x ∈ xs) (hn : xs.length ≤ n)
    {key' : Id → K} (hk : ∀ y, y ≠ x → key' y = key y) :
    ∃ b, inPlace n c (fun y => eqK (key' x) (key' y)) (hashK (key' x)) h a x = .ok b ∧ (b = true ↔ Index c key' eqK hashK h a hd xs) := by
  have ch : Chg (fun x y => eqK (key x) (key y)) (fun x y => eqK (key' x) (key' y)) (fun x => hashK (key x)) (fun x => hashK (key' x)) x :=
    ⟨fun y z h1 h2 => by rw [hk y h1, hk z h2], fun y h1 => by rw [hk y h1]⟩
  exact w.inPlace (eh.comap key') ch hx hn

/-- C20: an element whose value has changed can be taken out: what remains is well formed, and the element can be linked anew. -/
theorem C20_modify_unlink (w : Index c key eqK hashK h a hd xs) {x : Id} (hx : x ∈ xs)
    {key' : Id → K} (hk : ∀ y, y ≠ x → key' y = key y) :
    Index c key' eqK hashK (unlink c h x) a hd (xs.erase x) ∧ (x ≠ 0 ∧ x ∉ hd :: xs.erase x ∧ (x < a.base ∨ a.endB < x)) := by
  have ch : Chg (fun x y => eqK (key x) (key y)) (fun x y => eqK (key' x) (key' y)) (fun x => hashK (key x)) (fun x => hashK (key' x)) x :=
    ⟨fun y z h1 h2 => by rw [hk y h1, hk z h2], fun y h1 => by rw [hk y h1]⟩
  exact ⟨w.unlink' ch hx, FreshId.erase w hx⟩

end Lookup

/-- The hypotheses of `C20_history` are met by the example. -/
theorem exMem_index (c : Cat) : Index c exKey exEq exHash (exMem c) exArr 1 (exElems c) := by
  obtain ⟨s, xs, e, w, -, p⟩ := C20_history exEqHash (exHeap_index c) (exOps c) (n := 40) (by cases c <;> decide) (exOps_valid c)
  have e' : exRun c = .ok s := e
  have fa := exRun_facts c
  rw [e'] at fa
  simp only [decide_eq_true_eq] at fa
  have pl := p.length_eq
  have l40 : ((exOps c).foldl (effect c (fun x y => exEq (exKey x) (exKey y))) []).length ≤ 40 := by cases c <;> decide +kernel
  have tr := C20_traversal w (n := 40) (by omega)
  rw [fa.2] at tr
  unfold exMem
  rw [e', Out.ok.inj tr, ← fa.1]
  exact w

example : find 40 .multi (fun y => exEq 3 (exKey y)) (exHash 3) (exMem .multi) exArr 1 = .ok 53 := by
  rw [C20_find exEqHash exEqHash.compat (exMem_index .multi) (by decide)]
  decide
example : count 40 .multi exEqI (fun y => exEq 3 (exKey y)) (exHash 3) (exMem .multi) exArr = .ok 4 := by
  have := C20_count exEqHash exEqHash.compat (exMem_index .multi) (n := 40) (by decide) 3
  exact this.trans (by decide)
example : equalRange 40 .multi exEqI (fun y => exEq 3 (exKey y)) (exHash 3) (exMem .multi) exArr 1 = .ok (53, 1) := by decide +kernel
example : find 40 .uniq (fun y => exEq 5 (exKey y)) (exHash 5) (exMem .uniq) exArr 1 = .ok 1 := by
  rw [C20_find exEqHash exEqHash.compat (exMem_index .uniq) (by decide)]
  decide
example : bucketSize 40 .multi (exMem .multi) exArr 0 = .ok 7 := by
  rw [C20_bucket_size (exMem_index .multi) (by decide) (by decide)]
  decide +kernel
/-- A new element with key 3 is rejected by the unique index because of 13, and accepted by the other. -/
example : linkPoint 40 .uniq exEqI (exEqI 63) (exHashI 63) (exMem .uniq) exArr = .ok (.reject 13) := by decide +kernel
example : linkPoint 40 .multi exEqI (exEqI 63) (exHashI 63) (exMem .multi) exArr = .ok (.accept (.group 53 13)) := by decide +kernel
example : (63 : Id) ≠ 0 ∧ (63 : Id) ∉ 1 :: exElems .multi ∧ ((63 : Id) < exArr.base ∨ exArr.endB < 63) := by decide
/-- Changing the key of 53 to 2 requires moving it, changing that of 22 to 4 does not. -/
example : inPlace 40 .multi (fun y => exEq 2 (upd exKey 53 2 y)) (exHash 2) (exMem .multi) exArr 53 = .ok false := by decide +kernel
example : inPlace 40 .multi (fun y => exEq 5 (upd exKey 22 5 y)) (exHash 5) (exMem .multi) exArr 22 = .ok true := by decide +kernel

/-! ## C21: equal elements stay together -/

section Groups
variable {K : Type} {c : Cat} {key : Id → K} {eqK : K → K → Bool} {hashK : K → Nat}
variable {h : Heap} {a : Arr} {hd : Id} {xs : List Id} {n : Nat}

/-- C21: elements with equal keys are adjacent in every index, hence (`C20_history`) after every history. -/
theorem C21_adjacent (eh : EqHash eqK hashK) (w : Index c key eqK hashK h a hd xs) : Grouped (fun x y => eqK (key x) (key y)) xs :=
  w.grouped (eh.comap key)

/-- C21: in a unique index no two elements have equal keys. -/
theorem C21_unique (eh : EqHash eqK hashK) (w : Index .uniq key eqK hashK h a hd xs) : xs.Pairwise (fun x y => eqK (key x) (key y) = false) :=
  w.unique (eh.comap key)

/-- C21: an element linked into a non-unique index comes before the elements with an equal key, which keep their order, next to the first. -/
theorem C21_insert (eh : EqHash eqK hashK) (w : Index .multi key eqK hashK h a hd xs) (hn : xs.length ≤ n) {x : Id}
    (fr : x ≠ 0 ∧ x ∉ hd :: xs ∧ (x < a.base ∨ a.endB < x)) :
    ∃ pos ys, linkPoint n .multi (fun x y => eqK (key x) (key y)) (fun y => eqK (key x) (key y)) (hashK (key x)) h a = .ok (.accept pos) ∧
      Index .multi key eqK hashK (link .multi h x pos hd) a hd ys ∧ ys.erase x = xs ∧
      ys.filter (fun y => eqK (key x) (key y)) = x :: xs.filter (fun y => eqK (key x) (key y)) := by
  rcases w.linkPoint (eh.comap key) hn x with ⟨_, _, k, _⟩ | ⟨pos, k1, -, u, v, k3, k4, k5⟩
  · cases k
  · refine ⟨pos, u ++ x :: v, k1, k5 fr, ?_, ?_⟩
    · have : x ∉ u := fun k => fr.2.1 (by rw [k3]; simp [k])
      rw [List.erase_append_right _ this, List.erase_cons_head, k3]
    · have e : u.filter (fun y => eqK (key x) (key y)) = [] := List.filter_eq_nil_iff.2 (by intro y hy; simp [k4 y hy])
      rw [k3, List.filter_append, List.filter_append, e, List.filter_cons, if_pos (eh.refl _)]
      rfl

end Groups

example : exElems .multi = [22, 12, 19, 16, 26] ++ 53 :: [43] ++ 33 :: [13] ∧ exEqI 53 33 = true := by decide
example : Grouped (fun x y => exEq (exKey x) (exKey y)) (exElems .multi) := C21_adjacent exEqHash (exMem_index .multi)
example : (exElems .uniq).Pairwise (fun x y => exEq (exKey x) (exKey y) = false) := C21_unique exEqHash (exMem_index .uniq)

/-! ## C22: rehashing -/

section Rehash
variable {K : Type} {c : Cat} {key : Id → K} {eqK : K → K → Bool} {hashK : K → Nat}
variable {h : Heap} {a na : Arr} {hd cpy : Id} {xs : List Id}

theorem groups_kept {xs' : List Id} (eh : EqHash eqK hashK) (k2 : xs'.Perm xs)
    (k3 : ∀ y, xs'.filter (fun z => eqK (key y) (key z)) = xs.filter (fun z => eqK (key y) (key z))) (k : K) :
    xs'.filter (fun y => eqK k (key y)) = xs.filter (fun y => eqK k (key y)) := by
  by_cases q : ∃ y ∈ xs, eqK k (key y) = true
  · obtain ⟨y, -, hy⟩ := q
    have : (fun z => eqK k (key z)) = (fun z => eqK (key y) (key z)) := by
      funext z
      exact eh.congr hy _
    rw [this]
    exact k3 y
  · have e1 : xs.filter (fun y => eqK k (key y)) = [] := List.filter_eq_nil_iff.2 (fun y hy t => q ⟨y, hy, t⟩)
    have e2 : xs'.filter (fun y => eqK k (key y)) = [] := List.filter_eq_nil_iff.2 (fun y hy t => q ⟨y, k2.mem_iff.1 hy, t⟩)
    rw [e1, e2]

/-- C22: rehashing with a hash function that does not throw gives a well-formed index on the new bucket array with exactly the same elements;
elements with equal keys keep their relative order. `NewMem` says that the new array and the temporary node are new memory. -/
theorem C22_rehash (eh : EqHash eqK hashK) (w : Index c key eqK hashK h a hd xs) (ns : 0 < na.size) (nm : NewMem a na hd cpy xs) :
    ∃ h' xs', rehash c (fun x => hashK (key x)) xs.length none h a na hd cpy = .ok (h', false) ∧ Index c key eqK hashK h' na hd xs' ∧
      xs'.Perm xs ∧ ∀ k, xs'.filter (fun y => eqK k (key y)) = xs.filter (fun y => eqK k (key y)) := by
  obtain ⟨h', b, e1, e2, -, e4⟩ := w.rehash (t := none) (eh.comap key) ns nm
  have := e2 rfl
  subst this
  obtain ⟨xs', k1, k2, k3⟩ := e4 rfl
  exact ⟨h', xs', e1, k1, k2, groups_kept eh k2 k3⟩

/-- C22: if the hash function throws at any call (`t` is the number of calls that succeed), the index is as before: same bucket array, same
elements in the same order, well formed; otherwise it is rehashed as above. -/
theorem C22_rehash_throw (eh : EqHash eqK hashK) (w : Index c key eqK hashK h a hd xs) (ns : 0 < na.size) (nm : NewMem a na hd cpy xs) (t : Nat) :
    ∃ h' b, rehash c (fun x => hashK (key x)) xs.length (some t) h a na hd cpy = .ok (h', b) ∧
      (b = true → Index c key eqK hashK h' a hd xs) ∧
      (b = false → ∃ xs', Index c key eqK hashK h' na hd xs' ∧ xs'.Perm xs ∧ ∀ k, xs'.filter (fun y => eqK k (key y)) = xs.filter (fun y => eqK k (key y))) := by
  obtain ⟨h', b, e1, -, e3, e4⟩ := w.rehash (t := some t) (eh.comap key) ns nm
  refine ⟨h', b, e1, e3, fun k => ?_⟩
  obtain ⟨xs', k1, k2, k3⟩ := e4 k
  exact ⟨xs', k1, k2, groups_kept eh k2 k3⟩

end Rehash

theorem exNew : NewMem exArr ⟨400, 11⟩ 1 2 (exElems .multi) :=
  ⟨by decide, by decide, by decide, by decide, by decide, by decide, by decide⟩

example : ∃ h' xs', rehash .multi exHashI 9 none (exMem .multi) exArr ⟨400, 11⟩ 1 2 = .ok (h', false) ∧
    Index .multi exKey exEq exHash h' ⟨400, 11⟩ 1 xs' ∧ xs'.Perm (exElems .multi) ∧
      ∀ k, xs'.filter (fun y => exEq k (exKey y)) = (exElems .multi).filter (fun y => exEq k (exKey y)) :=
  C22_rehash exEqHash (exMem_index .multi) (by decide) exNew

/-- The hash function throws at the third call: the elements are found in the same order. -/
example : (match rehash .multi exHashI 9 (some 2) (exMem .multi) exArr ⟨400, 11⟩ 1 2 with
    | .ok (h', b) => b && decide (walk .multi h' 1 40 (begin h' 1) = .ok (exElems .multi))
    | _ => false) = true := by decide +kernel

/-! ## C23: unlinking can be undone -/

/-- C23: `unlink(x,undo)` does what `unlink(x)` does, its log fits in the fixed space reserved for it, and undoing it restores
every link of the memory: the memory is the same as before, whatever it was. -/
theorem C23_undo (c : Cat) (h : Heap) (x : Id) :
    (unlinkA c h x).h = unlink c h x ∧ (unlinkA c h x).log.fits ∧ (unlinkA c h x).undo = h :=
  ⟨unlinkA_h c h x, unlinkA_fits c h x, unlinkA_undo c h x⟩

/-- C23: in particular an index from which an element was unlinked is an index with the same elements in the same order after undoing. -/
theorem C23_undo_index {K : Type} {c : Cat} {key : Id → K} {eqK : K → K → Bool} {hashK : K → Nat} {h : Heap} {a : Arr} {hd : Id} {xs : List Id}
    (w : Index c key eqK hashK h a hd xs) {x : Id} (hx : x ∈ xs) :
    Index c key eqK hashK (unlinkA c h x).h a hd (xs.erase x) ∧ Index c key eqK hashK (unlinkA c h x).undo a hd xs := by
  rw [unlinkA_h, unlinkA_undo]
  exact ⟨w.unlink hx, w⟩

/-- The undo is not trivial: unlinking changes links. -/
example : (unlinkA .multi (exMem .multi) 43).h.next 53 ≠ (exMem .multi).next 53 ∧
    (unlinkA .multi (exMem .multi) 43).undo.next 53 = (exMem .multi).next 53 := by decide +kernel

/-! ## C24: bucket arrays -/

/-- C24: the bucket count for a request is from the table; it is the least entry not below the request, or the largest entry if all are below. -/
theorem C24_size {l : List Nat} (hl : l = sizes ∨ l = sizes32) (n : Nat) :
    sizeFor l n ∈ l ∧ l.Pairwise (· < ·) ∧
      ((∃ s ∈ l, n ≤ s) → n ≤ sizeFor l n ∧ ∀ s ∈ l, n ≤ s → sizeFor l n ≤ s) ∧
      ((∀ s ∈ l, s < n) → ∀ s ∈ l, s ≤ sizeFor l n) := by
  rcases hl with rfl | rfl
  · have sp := sizeFor_spec sizes_sorted sizes_ne n
    exact ⟨sp.1, sizes_sorted, sp.2.1, sp.2.2⟩
  · have sp := sizeFor_spec sizes32_sorted sizes32_ne n
    exact ⟨sp.1, sizes32_sorted, sp.2.1, sp.2.2⟩

/-- C24: every hash value selects a bucket of the array, and equal hash values the same one. -/
theorem C24_position {n base : Nat} (hash : Nat) : (⟨base, sizeFor sizes n⟩ : Arr).position hash < sizeFor sizes n :=
  Nat.mod_lt _ (sizeFor_pos n)

example : sizeFor sizes 0 = 53 ∧ sizeFor sizes 53 = 53 ∧ sizeFor sizes 54 = 97 ∧ sizeFor sizes (2 ^ 64 - 1) = 18446744073709551557 := by decide +kernel

/-! ## C25: comparison -/

/-- C25: `operator==` of two hashed indices tells if they have the same elements up to order. `veq` is `operator==` of values, an equivalence
that respects the keys; the indices may be in different memories, with different bucket arrays. -/
theorem C25_equals {V K : Type} {c : Cat} {key : V → K} {eqK : K → K → Bool} {hashK : K → Nat} {veq : V → V → Bool} {h1 h2 : Heap} {a1 a2 : Arr}
    {hd1 hd2 : Id} {v1 v2 : Id → V} {xs ys : List Id} {n : Nat} (eh : EqHash eqK hashK) (er : EqRel veq)
    (hv : ∀ v w, veq v w = true → eqK (key v) (key w) = true)
    (w1 : Index c (fun x => key (v1 x)) eqK hashK h1 a1 hd1 xs) (w2 : Index c (fun x => key (v2 x)) eqK hashK h2 a2 hd2 ys)
    (hn : xs.length ≤ n ∧ ys.length ≤ n) :
    ∃ b, equals key eqK hashK veq n c xs.length h1 hd1 v1 ys.length h2 a2 hd2 v2 = .ok b ∧ (b = true ↔ SameUpTo veq (xs.map v1) (ys.map v2)) :=
  equals_spec eh er hv w1 w2 hn.2 hn.1

/-- The index of the example rehashed into another array is equal to it, although its elements are in another order, and an
index with one value changed is not. Values are the identities here, keys their last digits. -/
def exMem2 : Heap :=
  match rehash .multi exHashI 9 none (exMem .multi) exArr ⟨400, 2⟩ 1 2 with
  | .ok (h, _) => h
  | _ => exMem .multi

example : equals exKey exEq exHash (fun v w => v == w) 40 .multi 9 (exMem .multi) 1 id 9 exMem2 ⟨400, 2⟩ 1 id = .ok true := by decide +kernel
example : equals exKey exEq exHash (fun v w => v == w) 40 .multi 9 (exMem .multi) 1 id 9 exMem2 ⟨400, 2⟩ 1 (upd id 53 63) = .ok false := by decide +kernel
example : EqRel (fun v w : Nat => v == w) := ⟨by simp, by simp only [beq_iff_eq]; intros; simp_all, by simp only [beq_iff_eq]; intros; simp_all⟩

/-! ## C49: load factor -/

/-- What C49 says of an insertion making `n` elements, for a given policy state: afterwards `n` does not exceed the maximum load, or the
largest bucket array is in use. Bucket counts are from the table. -/
def LoadOk (mlf : ℚ) (p : Policy) (n : Nat) : Prop :=
  n ≤ (p.reserveForInsert fl32 mlf n).ml ∨ (p.reserveForInsert fl32 mlf n).bc = sizeTop

/-- C49 in full: for all positive maximum load factors, all states of the policy that computes `max_load` from the bucket count, and all sizes. -/
def C49Full : Prop :=
  ∀ (mlf : ℚ) (b n : Nat), 0 < mlf → n ≤ sizeMax → LoadOk mlf (Policy.unchecked fl32 mlf b) n

/-- C49, as far as sizes and bucket counts up to 2^24 are concerned (the integers that `float` represents exactly): after `reserve_for_insert(n)` the
maximum load is at least `n`, unless the largest array is in use. The full claim is refuted below. -/
theorem C49_insert_partial {mlf : ℚ} {n : Nat} (m0 : 0 < mlf) (hn : n ≤ 2 ^ 24) (hy : (n : ℚ) / mlf + 2 ≤ 2 ^ 24) (p : Policy) : LoadOk mlf p n :=
  reserveForInsert_load rounding32 m0 hn (Nat.le_trans hn (by decide)) (by exact_mod_cast hy) p

/-- C49: the same for `rehash(b)` with `n` elements: at least `b` buckets, and enough for the elements. -/
theorem C49_rehash_partial {mlf : ℚ} {n : Nat} (m0 : 0 < mlf) (hn : n ≤ 2 ^ 24) (hy : (n : ℚ) / mlf + 2 ≤ 2 ^ 24) (p : Policy) (b : Nat) :
    (b ≤ (p.rehash fl32 mlf n b).bc ∧ n ≤ (p.rehash fl32 mlf n b).ml) ∨ (p.rehash fl32 mlf n b).bc = sizeTop :=
  rehash_load rounding32 m0 hn (Nat.le_trans hn (by decide)) (by exact_mod_cast hy) p b

example : LoadOk 1 ⟨53, 53⟩ 54 := C49_insert_partial (by norm_num) (by norm_num) (by norm_num) _

theorem fl32_402653184 : fl32 ((402653184 : Nat) : ℚ) = 402653184 := by
  rw [fl32_nat (e := 5) (by norm_num) (by norm_num)]
  norm_num [rne]

theorem fl32_402653185 : fl32 ((402653185 : Nat) : ℚ) = 402653184 := by
  rw [fl32_nat (e := 5) (by norm_num) (by norm_num)]
  norm_num [rne]

theorem fl32_402653189 : fl32 ((402653189 : Nat) : ℚ) = 402653184 := by
  rw [fl32_nat (e := 5) (by norm_num) (by norm_num)]
  norm_num [rne]

theorem fl32_sizeMax : (402653184 : ℚ) < fl32 (sizeMax : ℚ) := by
  have h1 : fl32 ((1073741824 : Nat) : ℚ) = 1073741824 := by
    rw [fl32_nat (e := 7) (by norm_num) (by norm_num)]
    norm_num [rne]
  have h2 : fl32 ((1073741824 : Nat) : ℚ) ≤ fl32 (sizeMax : ℚ) := fl32_mono (by unfold sizeMax; norm_num)
  rw [h1] at h2
  linarith

/-- C49 in full is false of the code: in `float` arithmetic 402653185 elements with a maximum load factor of 1 lead to an array of 402653189 buckets,
for which `max_load` is computed as 402653184. (Every further insertion rehashes to the same bucket count.) -/
theorem C49_full_false : ¬ C49Full := by
  intro h
  have k := h 1 402653189 402653185 (by norm_num) (by decide)
  have s1 : sizeFor sizes 402653189 = 402653189 := by decide +kernel
  have s2 : sizeFor sizes 402653184 = 402653189 := by decide +kernel
  have ml : maxLoad fl32 1 402653189 = 402653184 := by
    unfold maxLoad toSize
    rw [fl32_402653189, one_mul]
    have : fl32 (402653184 : ℚ) = 402653184 := by simpa using fl32_402653184
    rw [this, if_pos fl32_sizeMax]
    norm_num
  have bc : bcFor fl32 1 402653185 = 402653184 := by
    unfold bcFor toSize
    rw [fl32_402653185, div_one]
    have h1 : fl32 (402653184 : ℚ) = 402653184 := by simpa using fl32_402653184
    have h2 : fl32 (1 + 402653184 : ℚ) = 402653184 := by
      have := fl32_402653185
      push_cast at this
      norm_num at this ⊢
      exact this
    rw [h1, h2, if_pos fl32_sizeMax]
    norm_num
  unfold LoadOk Policy.reserveForInsert Policy.unchecked at k
  simp only [s1, ml, bc, s2] at k
  revert k
  decide

end MI.Hash
