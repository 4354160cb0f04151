import Verif.Hash.StepsLemmas
import Verif.Props.HashCosts
/-!
# C74: how long operations on hashed indices take

The complexity signature of hashed indices (doc/reference/hash_indices.html:414-439) is, at worst, the number of non-equivalent elements for insertion, for
replacement and for modification, and a constant for deletion; lookups are similar. C66 is about calls of user functions. Here: about the time taken, as the number of rounds of all loops that
run (`Verif/Hash/Steps.lean`, the twin of the model that counts them). `allowed` (`Verif/Props/HashCosts.lean`) is at most the number of elements in the bucket, and at most twice that of
the keys in it.

Proved: lookups and insertion keep to the documentation, and so does modification in unique indices; `count` takes one round more for each element it counts; deletion assigns
at most five links, without any loop. Refuted: modification of an element of a non-unique index does not keep to it. To see if the element
may stay where it is, the elements with the same key are passed one by one (hashed_index.hpp:1612-1616), so that it takes, at worst, time proportional to the number of equivalent elements, even
if there is but one key.
-/
namespace MI.Hash
open MI

section
variable {K CK : Type} {c : Cat} {key : Id → K} {eqK : K → K → Bool} {hashK : K → Nat} {ceq : CK → K → Bool} {chash : CK → Nat}
variable {h : Heap} {a : Arr} {hd : Id} {xs : List Id} {n : Nat}

theorem findLoop_rounds (w : Index c key eqK hashK h a hd xs) (p : Id → Bool) (hk : Nat) :
    (findLoopS c p h n (h.prior (a.at (a.position hk)))).2 ≤ allowed key eqK hashK a xs hk := by
  obtain ⟨s0, T, r, gd, rfl⟩ := w
  have r' := rep_parts.2 r
  unfold Arr.at Arr.position
  rw [r'.bucketFirst (Nat.mod_lt hk s0)]
  exact Nat.le_trans (findLoopS_le r' gd.cat.parts (fun i g hg => parts_solid T i g hg) p _ [] n rfl) (parts_bound r gd _)

/-- C74: `find(k)` is the first element with a key equal to `k`, or `end()`. -/
theorem C74_find (eh : EqHash eqK hashK) (ce : CompatHash eqK hashK ceq chash) (w : Index c key eqK hashK h a hd xs) (hn : xs.length ≤ n) (k : CK) :
    (findS n c (fun y => ceq k (key y)) (chash k) h a hd).1 = .ok ((xs.find? (fun y => ceq k (key y))).getD hd) ∧
      (findS n c (fun y => ceq k (key y)) (chash k) h a hd).2 ≤ allowed key eqK hashK a xs (chash k) := by
  refine ⟨by rw [findS_fst]; exact C20_find eh ce w hn k, ?_⟩
  have := findLoop_rounds (n := n) w (fun y => ceq k (key y)) (chash k)
  unfold findS
  generalize findLoopS c (fun y => ceq k (key y)) h n (h.prior (a.at (a.position (chash k)))) = o at this
  rcases o with ⟨(_ | _) | _ | _ | _, m⟩ <;> exact this

/-- C74: `count(k)` takes a round more for each element it counts. -/
theorem C74_count (eh : EqHash eqK hashK) (ce : CompatHash eqK hashK ceq chash) (w : Index c key eqK hashK h a hd xs) (hn : xs.length ≤ n) (k : CK) :
    (countS n c (fun x y => eqK (key x) (key y)) (fun y => ceq k (key y)) (chash k) h a).1 = .ok (xs.countP (fun y => ceq k (key y))) ∧
      (countS n c (fun x y => eqK (key x) (key y)) (fun y => ceq k (key y)) (chash k) h a).2 ≤
        allowed key eqK hashK a xs (chash k) + xs.countP (fun y => ceq k (key y)) := by
  have e : (countS n c (fun x y => eqK (key x) (key y)) (fun y => ceq k (key y)) (chash k) h a).1 = .ok (xs.countP (fun y => ceq k (key y))) := by
    rw [countS_fst]; exact C20_count eh ce w hn k
  refine ⟨e, ?_⟩
  have := findLoop_rounds (n := n) w (fun y => ceq k (key y)) (chash k)
  unfold countS at e ⊢
  generalize findLoopS c (fun y => ceq k (key y)) h n (h.prior (a.at (a.position (chash k)))) = o at this e
  rcases o with ⟨(_ | x) | _ | _ | _, m⟩ <;> simp only at this e ⊢ <;> try omega
  rw [countLoopS_fst] at e
  have := countLoopS_le _ _ _ _ _ _ _ e
  omega

/-- C74: `equal_range(k)` does not depend on the number of elements in the range: the result is that of C20, after as many rounds as for `find`. -/
theorem C74_equal_range (w : Index c key eqK hashK h a hd xs) (k : CK) :
    (equalRangeS n c (fun x y => eqK (key x) (key y)) (fun y => ceq k (key y)) (chash k) h a hd).1 =
      equalRange n c (fun x y => eqK (key x) (key y)) (fun y => ceq k (key y)) (chash k) h a hd ∧
    (equalRangeS n c (fun x y => eqK (key x) (key y)) (fun y => ceq k (key y)) (chash k) h a hd).2 ≤ allowed key eqK hashK a xs (chash k) := by
  refine ⟨equalRangeS_fst .., ?_⟩
  have := findLoop_rounds (n := n) w (fun y => ceq k (key y)) (chash k)
  unfold equalRangeS
  generalize findLoopS c (fun y => ceq k (key y)) h n (h.prior (a.at (a.position (chash k)))) = o at this
  rcases o with ⟨(_ | _) | _ | _ | _, m⟩ <;> exact this

/-- C74: the search an insertion or replacement makes, whatever the number of equivalent elements. -/
theorem C74_insert (w : Index c key eqK hashK h a hd xs) (x : K) (hv : Nat) :
    (linkPointS n c (fun x y => eqK (key x) (key y)) (fun y => eqK x (key y)) hv h a).1 = linkPoint n c (fun x y => eqK (key x) (key y)) (fun y => eqK x (key y)) hv h a ∧
      (linkPointS n c (fun x y => eqK (key x) (key y)) (fun y => eqK x (key y)) hv h a).2 ≤ allowed key eqK hashK a xs hv := by
  refine ⟨linkPointS_fst .., ?_⟩
  cases c with
  | uniq =>
    have := findLoop_rounds (n := n) w (fun y => eqK x (key y)) hv
    rw [← linkPointUS_eq] at this
    unfold linkPointS
    simp only
    generalize linkPointUS (fun y => eqK x (key y)) h n (h.prior (a.at (a.position hv))) = o at this
    rcases o with ⟨(_ | _) | _ | _ | _, m⟩ <;> exact this
  | multi =>
    obtain ⟨s0, T, r, gd, rfl⟩ := w
    have r' := rep_parts.2 r
    have := linkPointNS_le r' gd.cat.parts (fun i g hg => parts_solid T i g hg) (fun x y => eqK (key x) (key y)) (fun y => eqK x (key y)) (i := hv % a.size) (T.parts.B (hv % a.size)) [] n rfl
    rw [← r'.bucketFirst (Nat.mod_lt hv s0)] at this
    have := Nat.le_trans this (parts_bound r gd _)
    unfold linkPointS Arr.at Arr.position
    simp only
    generalize linkPointNS (fun x y => eqK (key x) (key y)) (fun y => eqK x (key y)) h n (h.prior (a.base + hv % a.size)) = o at this
    rcases o with ⟨(_ | ⟨_, _⟩) | _ | _ | _, m⟩ <;> exact this

/-- C74: deletion takes the element out with at most five assignments of links, wherever it is. -/
theorem C74_erase (w : Index c key eqK hashK h a hd xs) {x : Id} (hx : x ∈ xs) :
    Index c key eqK hashK (unlinkA c h x).h a hd (xs.erase x) ∧ (unlinkA c h x).log.ptrs.length + (unlinkA c h x).log.bptrs.length ≤ 5 := by
  refine ⟨by have := w.unlink hx; cases c <;> exact this, ?_⟩
  have := unlinkA_fits c h x
  unfold Log.fits at this
  omega

/-- C74: the check a modification makes in a unique index, where `key'` are the keys after the modification of `x` and `w` is about those before. -/
theorem C74_modify_unique (w : Index .uniq key eqK hashK h a hd xs) {K' : Type} {key' : Id → K'} {eqK' : K' → K' → Bool} (k : K') (x : Id) (hk : Nat) :
    (inPlaceS n .uniq (fun y => eqK' k (key' y)) hk h a x).1 = inPlace n .uniq (fun y => eqK' k (key' y)) hk h a x ∧
      (inPlaceS n .uniq (fun y => eqK' k (key' y)) hk h a x).2 ≤ (mates key hashK a xs hk).length := by
  refine ⟨inPlaceS_fst .., ?_⟩
  obtain ⟨s0, T, r, gd, rfl⟩ := w
  have b : mates key hashK a T.nodes hk = gnodes (T.B (hk % a.size)) := bucket_filter r gd _
  unfold inPlaceS Arr.at Arr.position
  simp only
  rw [r.bucketFirst (Nat.mod_lt hk s0), b]
  exact inPlaceUS_le r gd.cat _ x _ [] n false rfl

/-- C74: the check a modification makes when the key of the element `x` has become `k`: the rounds of a lookup, and one for each element that has this key now. -/
theorem C74_modify_partial (eh : EqHash eqK hashK) (w : Index c key eqK hashK h a hd xs) (x : Id) (k : K) :
    (inPlaceS n c (fun y => eqK k (upd key x k y)) (hashK k) h a x).1 = inPlace n c (fun y => eqK k (upd key x k y)) (hashK k) h a x ∧
      (inPlaceS n c (fun y => eqK k (upd key x k y)) (hashK k) h a x).2 ≤
        allowed key eqK hashK a xs (hashK k) + xs.countP (fun y => eqK k (upd key x k y)) := by
  refine ⟨inPlaceS_fst .., ?_⟩
  cases c with
  | uniq =>
    have := (C74_modify_unique (n := n) w (key' := upd key x k) (eqK' := eqK) k x (hashK k)).2
    rw [C66_unique eh w]
    omega
  | multi =>
    obtain ⟨s0, T, r, gd, rfl⟩ := w
    have r' := rep_parts.2 r
    unfold inPlaceS Arr.at Arr.position
    simp only
    rw [r'.bucketFirst (Nat.mod_lt (hashK k) s0)]
    refine Nat.le_trans (inPlaceNS_le r' gd.cat.parts (fun i g hg => parts_solid T i g hg) _ x
      (M := T.nodes.countP (fun y => eqK k (upd key x k y))) _ [] n false 0 rfl ?_) (Nat.add_le_add_right (parts_bound r gd _) _)
    intro g hg fx fp
    have all : ∀ y ∈ g.toList, eqK k (upd key x k y) = true := by
      intro y hy
      by_cases q : y = x
      · rw [q, upd_same]; exact eh.refl k
      · rw [upd_other _ _ q]
        rw [upd_other _ _ fx] at fp
        exact eh.trans fp (gd.same_parts _ g hg _ g.first_mem y hy)
    have sub : g.toList.Sublist T.nodes := by
      have s1 : g.toList.Sublist (gnodes (T.parts.B (hashK k % a.size))) := by
        obtain ⟨l1, l2, e⟩ := List.append_of_mem hg
        rw [e]
        simp [gnodes]
      have s2 : gnodes (T.parts.B (hashK k % a.size)) = gnodes (T.B (hashK k % a.size)) := gnodes_parts _
      rw [s2, ← bucket_filter r gd] at s1
      exact s1.trans List.filter_sublist
    have := sub.countP_le (p := fun y => eqK k (upd key x k y))
    rwa [List.countP_eq_length.2 all] at this

end

/-- What the documentation says: the time a modification takes is, at worst, proportional to the number of non-equivalent elements. Already for one that leaves the key as it was. -/
def ModifyDistinct : Prop :=
  ∃ C, ∀ (K : Type) (key : Id → K) (eqK : K → K → Bool) (hashK : K → Nat) (h : Heap) (a : Arr) (hd : Id) (xs : List Id) (x : Id) (n : Nat),
    EqHash eqK hashK → Index .multi key eqK hashK h a hd xs → x ∈ xs → xs.length ≤ n →
    (inPlaceS n .multi (fun y => eqK (key x) (key y)) (hashK (key x)) h a x).2 ≤ C * distinct (fun x y => eqK (key x) (key y)) xs

theorem C74_modify_full_false : ¬ ModifyDistinct := by
  rintro ⟨C, H⟩
  obtain ⟨h, xs, w, l, -⟩ := same_key (C + 3)
  obtain ⟨x, hx, e⟩ := same_key_rounds w (by omega)
  have := H Unit (fun _ => ()) (fun _ _ => true) (fun _ => 0) h ⟨2, 1⟩ 1 xs x xs.length ⟨fun _ => rfl, fun _ => rfl, fun _ _ => rfl, fun _ => rfl⟩ w hx (Nat.le_refl _)
  have d : distinct (fun _ _ : Id => true) xs ≤ 1 := by
    clear * -
    induction xs with
    | nil => exact Nat.zero_le _
    | cons x xs ih =>
      cases xs with
      | nil => simp [distinct]
      | cons y ys => rw [distinct, if_pos (by simp)]; omega
  have := Nat.le_trans this (Nat.mul_le_mul_left C d)
  omega

/-! ## Examples: the indices of `Verif/Props/Hash.lean` -/

theorem exCompat : CompatHash exEq exHash exEq exHash :=
  ⟨fun h1 h2 => exEqHash.trans h1 h2, fun h1 h2 => exEqHash.trans (exEqHash.symm h1) h2, fun h1 => exEqHash.cons h1⟩

example : (findS 40 .multi (fun y => exEq 3 (exKey y)) (exHash 3) (exMem .multi) exArr 1).2 ≤ 6 :=
  Nat.le_trans (C74_find exEqHash exCompat (exMem_index .multi) (by decide) 3).2 (by decide +kernel)
example : findS 40 .multi (fun y => exEq 3 (exKey y)) (exHash 3) (exMem .multi) exArr 1 = (.ok 53, 4) := by decide +kernel
example : countS 40 .multi exEqI (fun y => exEq 3 (exKey y)) (exHash 3) (exMem .multi) exArr = (.ok 4, 8) := by decide +kernel
example : (countS 40 .multi exEqI (fun y => exEq 3 (exKey y)) (exHash 3) (exMem .multi) exArr).2 ≤ 6 + 4 :=
  Nat.le_trans (C74_count exEqHash exCompat (exMem_index .multi) (by decide) 3).2 (by decide +kernel)
example : (equalRangeS 40 .multi exEqI (fun y => exEq 3 (exKey y)) (exHash 3) (exMem .multi) exArr 1).2 ≤ 6 :=
  Nat.le_trans (C74_equal_range (exMem_index .multi) 3).2 (by decide +kernel)
example : (linkPointS 40 .uniq exEqI (fun y => exEq 6 (exKey y)) (exHash 6) (exMem .uniq) exArr).2 ≤ 4 :=
  Nat.le_trans (C74_insert (exMem_index .uniq) 6 (exHash 6)).2 (by decide +kernel)
example : (unlinkA .multi (exMem .multi) 43).log.ptrs.length + (unlinkA .multi (exMem .multi) 43).log.bptrs.length ≤ 5 :=
  (C74_erase (exMem_index .multi) (by decide +kernel)).2

/-- Element 13, the last of the four with key 3, stays where it is: three rounds for other keys, one for the group and four in it. -/
example : inPlaceS 40 .multi (fun y => exEq 3 (upd exKey 13 3 y)) (exHash 3) (exMem .multi) exArr 13 = (.ok true, 8) := by decide +kernel
example : (inPlaceS 40 .multi (fun y => exEq 3 (upd exKey 13 3 y)) (exHash 3) (exMem .multi) exArr 13).2 ≤ 6 + 4 :=
  Nat.le_trans (C74_modify_partial exEqHash (exMem_index .multi) 13 3).2 (by decide +kernel)

end MI.Hash
