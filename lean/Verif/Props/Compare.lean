import Verif.Cont.CompareLemmas
import Verif.Cont.HostExample
/-!
# Comparison of indices and containers (C41, C25)

`w` is any program state reached by operations on containers and node handles; `c` and `d` are its containers `i` and `j` (which may be the same),
`xs` and `ys` what traversals of index `k` of `c` and of index `l` of `d` meet, `w.m.val` the values of the elements, `eq` and `lt` the operators `==`
and `<` of values. `SeqLess` (Verif/Cont/Compare.lean) is the lexicographic order of sequences, `SameUpTo` equality up to order. `c.asked` has the
index specifiers of `c`.
-/
namespace MI.Cont
open MI
variable {V : Type} {w : World V} {i j k l : Nat} {c d : Container V} {xs ys : List Id}

/-- C41: `operator==` of ordered, sequenced and random access indices: the traversals have the same length and equal values at every
position. -/
theorem C41_equal (r : Reach w) (hi : w.cs[i]? = some c) (hj : w.cs[j]? = some d) (hx : c.seqs[k]? = some xs) (hy : d.seqs[l]? = some ys)
    {S : Spec V} (hS : c.asked[k]? = some S) (hh : ∀ g e hf, S ≠ .hash g e hf) (eq : V → V → Bool) :
    ∃ b, w.indexEq eq i k j l = some b ∧ (b = true ↔ List.Forall₂ (fun a b => eq a b = true) (xs.map w.m.val) (ys.map w.m.val)) :=
  indexEq_spec r.inv hi hj hx hy hS hh eq

/-- C41: `operator<` is the lexicographic comparison of the values met by the traversals. -/
theorem C41_less (r : Reach w) (hi : w.cs[i]? = some c) (hj : w.cs[j]? = some d) (hx : c.seqs[k]? = some xs) (hy : d.seqs[l]? = some ys)
    (lt : V → V → Bool) :
    ∃ b, w.indexLt lt i k j l = some b ∧ (b = true ↔ SeqLess lt (xs.map w.m.val) (ys.map w.m.val)) :=
  indexLt_spec r.inv hi hj hx hy lt

/-- C41: `!=`, `>`, `>=`, `<=`. -/
theorem C41_operators (r : Reach w) (hi : w.cs[i]? = some c) (hj : w.cs[j]? = some d) (hx : c.seqs[k]? = some xs) (hy : d.seqs[l]? = some ys)
    {S : Spec V} (hS : c.asked[k]? = some S) (hh : ∀ g e hf, S ≠ .hash g e hf) (eq lt : V → V → Bool) :
    ∃ o, w.indexRels eq lt i k j l = some o ∧
      (o.ne = true ↔ ¬ List.Forall₂ (fun a b => eq a b = true) (xs.map w.m.val) (ys.map w.m.val)) ∧
      (o.gt = true ↔ SeqLess lt (ys.map w.m.val) (xs.map w.m.val)) ∧
      (o.ge = true ↔ ¬ SeqLess lt (xs.map w.m.val) (ys.map w.m.val)) ∧
      (o.le = true ↔ ¬ SeqLess lt (ys.map w.m.val) (xs.map w.m.val)) := by
  obtain ⟨e, he, he'⟩ := C41_equal r hi hj hx hy hS hh eq
  obtain ⟨a, ha, ha'⟩ := C41_less r hi hj hx hy lt
  obtain ⟨b, hb, hb'⟩ := C41_less r hj hi hy hx lt
  refine ⟨⟨!e, b, !a, !b⟩, by unfold World.indexRels; simp only [he, ha, hb], ?_, hb', ?_, ?_⟩
  · show (!e) = true ↔ _
    rw [← he']; simp
  · show (!a) = true ↔ _
    rw [← ha']; simp
  · show (!b) = true ↔ _
    rw [← hb']; simp

/-- C41: containers compare as their first indices do. -/
theorem C41_containers (r : Reach w) (hi : w.cs[i]? = some c) (hj : w.cs[j]? = some d) {S : Spec V} (hS : c.asked[0]? = some S)
    (hh : ∀ g e hf, S ≠ .hash g e hf) (eq lt : V → V → Bool) :
    (∃ b, w.contEq eq i j = some b ∧ (b = true ↔ List.Forall₂ (fun a b => eq a b = true) (c.elems.map w.m.val) (d.elems.map w.m.val))) ∧
    (∃ b, w.contLt lt i j = some b ∧ (b = true ↔ SeqLess lt (c.elems.map w.m.val) (d.elems.map w.m.val))) :=
  ⟨C41_equal r hi hj (seqs_head r.inv hi) (seqs_head r.inv hj) hS hh eq, C41_less r hi hj (seqs_head r.inv hi) (seqs_head r.inv hj) lt⟩

/-- C25: `operator==` of hashed indices with the same functions: the values are the same up to order. `eq`, the equality of values, is an
equivalence that respects the keys. -/
theorem C25_containers_equal (r : Reach w) (hi : w.cs[i]? = some c) (hj : w.cs[j]? = some d) (hx : c.seqs[k]? = some xs) (hy : d.seqs[l]? = some ys)
    {g : Hash.Cat} {e : V → V → Bool} {hf : V → Nat} (hS : c.asked[k]? = some (.hash g e hf)) (hS' : d.asked[l]? = some (.hash g e hf)) {eq : V → V → Bool}
    (er : EqRel eq) (hv : ∀ v w, eq v w = true → e v w = true) :
    ∃ b, w.indexEq eq i k j l = some b ∧ (b = true ↔ SameUpTo eq (xs.map w.m.val) (ys.map w.m.val)) :=
  indexEq_hash_spec r.inv hi hj hx hy hS hS' er hv

/-! ## Examples

The state `w4` (Verif/Cont/HostExample.lean) has two containers with four indices each, ordered, hashed, sequenced and random access. -/
section
open Ex

/-- Index 0 of the first container has the values (1,5), (3,7), (4,7), (5,6), its index 2 (3,7), (1,5), (4,7), (5,6), and index 0 of the second (2,2), (3,1),
(9,7). The first is less than the others by the first components. -/
example : w4.cs[0]? = some d0 ∧ w4.cs[1]? = some d1 ∧
    w4.indexLt (fun a b => decide (a.1 < b.1)) 0 0 1 0 = some true ∧ w4.indexLt (fun a b => decide (a.1 < b.1)) 1 0 0 0 = some false ∧
    w4.indexLt (fun a b => decide (a.1 < b.1)) 0 2 1 0 = some false ∧
    w4.indexEq (fun a b => a == b) 0 0 0 2 = some false ∧ w4.indexEq (fun a b => a == b) 0 2 0 3 = some true ∧
    w4.indexEq (fun a b => a == b) 0 1 0 1 = some true ∧
    w4.indexRels (fun a b => a == b) (fun a b => decide (a.1 < b.1)) 0 0 1 0 = some ⟨true, false, false, true⟩ :=
  ⟨hd0, hd1, by decide +kernel, by decide +kernel, by decide +kernel, by decide +kernel, by decide +kernel, by decide +kernel, by decide +kernel⟩

end
end MI.Cont
