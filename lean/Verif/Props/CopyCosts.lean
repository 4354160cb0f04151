import Verif.Cont.CopyStepsLemmas
import Verif.Props.CopyMove
import Verif.Props.Hash
/-!
# C75: how long copying takes

The documentation says that the copy constructor takes time `n*log(n)+C(n)` (doc/reference/multi_index_container.html:771), `C(n)` being the sum of what the indices take, each of which
is documented as `n*log(n)` (doc/reference/ord_indices.html:444, rnk_indices.html:463, seq_indices.html:406, rnd_indices.html:423, hash_indices.html:422).

Here: the rounds of all loops (`Verif/Cont/CopySteps.lean`, the twin of the model that counts them). Proved: all but the bucket arrays take such a time, whether or not something throws.
Refuted: hashed indices do not keep to it, as all the buckets of the new array are initialized, and there may be any number of them.
-/
namespace MI.Cont
open MI
variable {V : Type} {w : World V} {c : Container V} {i : Nat}

/-- C75: the search for the clone of a node, in a map of `n` entries. -/
theorem C75_find (m : CopyMap) (x : Id) : (m.findS x).1 = m.find x ∧ (m.findS x).2 ≤ Nat.log2 m.entries.length + 1 := ⟨m.findS_fst x, m.findS_le x⟩

/-- C75: copying a container of `n` elements takes, apart from `std::sort`, which is called with `n` entries once, `2*n` rounds for the clones and at most `(n+4)*(3*log2(n)+4)`
for each index, and a round for each bucket. This computes the step that C36 is about; if something throws, it takes no longer. -/
theorem C75_copy_partial (S : Nat → Nat) {hd z : Id} {ns : List Id} {e : Nat → Env} {F : CopyFault} (r : Reach w) (hc : w.cs[i]? = some c) :
    w.step (.copy i hd z ns e F) = w.add (c.copyS S w.m hd z ns e F).1 ∧
      (c.copyS S w.m hd z ns e F).2 ≤
        2 * c.count + S c.count + c.ls.length * ((c.count + 4) * (3 * Nat.log2 c.count + 4)) + (c.ls.map Layer.buckets).sum := by
  refine ⟨?_, c.copyS_le S (r.inv.sound c (List.mem_of_getElem? hc)) ..⟩
  rw [c.copyS_fst]
  simp only [World.step, hc]

/-- What the documentation says of hashed indices: copying one of `n` elements takes time proportional to `n*log(n)` (and constant time if it is empty), when the search for a clone takes
time `log(n)`. The new bucket array is as large as that of the original (hashed_index.hpp:773). -/
def HashedCopyNLogN : Prop :=
  ∃ C, ∀ (K : Type) (ct : Hash.Cat) (key : Id → K) (eqK : K → K → Bool) (hashK : K → Nat) (h : Hash.Heap) (a : Hash.Arr) (hd : Id) (xs : List Id) (m : CopyMap) (n : Nat)
    (c : Hash.Heap) (b : Hash.Arr) (hd' : Id),
    EqHash eqK hashK → Hash.Index ct key eqK hashK h a hd xs → xs.length + 4 ≤ n → m.entries.length = xs.length → b.size = a.size →
    (Hash.copyS ct m.findS n h a xs.length hd c b hd').2 ≤ C * (xs.length * Nat.log2 xs.length + 1)

theorem C75_hashed_full_false : ¬ HashedCopyNLogN := by
  rintro ⟨C, H⟩
  let h : Hash.Heap := ⟨fun _ => 0, fun _ => 0⟩
  have := H Unit .uniq (fun _ => ()) (fun _ _ => true) (fun _ => 0) (Hash.clear h ⟨2, C + 1⟩ 1) ⟨2, C + 1⟩ 1 [] ⟨[], 1, 1⟩ 4 h ⟨2, C + 1⟩ 1
    ⟨fun _ => rfl, fun _ => rfl, fun _ _ => rfl, fun _ => rfl⟩
    (Hash.holds_clear _ _ _ h (Nat.succ_pos C) (Nat.succ_pos 1) (by decide) (Or.inl (Nat.lt_succ_self 1))) (Nat.le_refl _) rfl rfl
  simp only [Hash.copyS, Hash.clearS_eq, List.length_nil, ne_eq, not_true_eq_false, if_false] at this
  omega

/-! ## Examples -/

section
open Ex
/-- A copy of a container with two elements and four indices. -/
example : w3.step (.copy 0 30 7 [31, 32] cenv {}) = w3.add (c0.copyS (fun _ => 0) w3.m 30 7 [31, 32] cenv {}).1 := (C75_copy_partial _ w3_reach hc0).1
example : (c0.copyS (fun _ => 0) w3.m 30 7 [31, 32] cenv {}).2 ≤ 4 + 4 * (6 * 7) + 53 :=
  Nat.le_trans (C75_copy_partial _ w3_reach hc0).2 (by decide +kernel)
example : (CopyMap.findS ⟨[(5, 50), (7, 70), (11, 110), (12, 120)], 1, 2⟩ 11) = (some 110, 2) := by decide +kernel
end

end MI.Cont
