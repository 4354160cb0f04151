import Verif.Ser.LoadCostLemmas
import Verif.Props.SerLoad
/-!
C89: the size of an archive and the time of saving a container. The time (`Verif/Ser/SaveCost.lean`) is the number of rounds of loops and pointers written; `S n` is what `std::sort` takes for
`n` entries.
-/
namespace MI.Ser
open MI MI.Cont
variable {V : Type} {i : Nat} {w : World V} {c : Container V}

/-- Saving a container of `n` elements sorts once, whatever the number of indices, and otherwise takes time proportional to `n log n` for each index whose order is saved. -/
theorem C89_time (r : Reach w) (hi : w.cs[i]? = some c) (S : Nat → Nat) (junk : Alg) :
    saveTime S w i junk ≤ c.count + 1 + S c.count + (c.asked.filter Rearranged).length * (c.count * (3 * Nat.log2 c.count + 12) + 6) :=
  saveTime_le S r hi junk

/-- The searches and walks whose rounds are counted are those of the model of `save`. -/
theorem C89_same (a : Alg) (x : Id) (m : Nat) (nx : Id → Option Id) (lt : Id → Id → Bool) (hd first : Id) (n : Nat) :
    (a.localizeC x).1 = a.localize x ∧ (a.pileForC m).1 = a.pileFor m ∧ (dupWalkC nx lt hd first n).map (·.1) = dupWalk nx lt hd first n :=
  ⟨lowerBoundC_fst _ _ _ _, lowerBoundC_fst _ _ _ _, dupWalkC_fst nx lt hd first n⟩

/-- The archive has at most three pointers for each element that has to be moved, and one for each index whose order is saved; the number of elements moved is the least possible for each. -/
theorem C89_size (r : Reach w) (hi : w.cs[i]? = some c) (junk : Alg) :
    ∃ A ds, save w i junk = some A ∧ List.Forall₂ (Fewest c.elems) (orders w.m.val c.asked c.seqs) ds ∧ A.ptrs.length ≤ (ds.map fun d => 3 * d + 1).sum :=
  save_size r hi junk

/-- In particular: if all indices are in the order of the first, there is just a null pointer for each. -/
theorem C89_in_order (r : Reach w) (hi : w.cs[i]? = some c) (junk : Alg) (h : ∀ l ∈ orders w.m.val c.asked c.seqs, l.Sublist c.elems) :
    ∃ A, save w i junk = some A ∧ A.ptrs = List.replicate (c.asked.filter Rearranged).length none := by
  obtain ⟨A, ds, h1, h2, h3⟩ := C89_size r hi junk
  have key : ∀ {ls : List (List Id)} {ds : List Nat}, List.Forall₂ (Fewest c.elems) ls ds → (∀ l ∈ ls, l.Sublist c.elems) → (ds.map fun d => 3 * d + 1).sum = ls.length := by
    intro ls ds f
    induction f with
    | nil => intro _; rfl
    | cons a _ ih =>
      intro hl
      have := a.2 _ (.refl _) (hl _ (by simp))
      have := ih fun l hm => hl l (by simp [hm])
      simp only [List.map_cons, List.sum_cons, List.length_cons]
      omega
  rw [key h2 h] at h3
  have zip : ∀ (Ss : List (Spec V)) (xss : List (List Id)), ((Ss.zip xss).filter fun p => Rearranged p.1).length ≤ (Ss.filter Rearranged).length := by
    intro Ss
    induction Ss with
    | nil => intro xss; simp
    | cons S Ss ih =>
      intro xss
      cases xss with
      | nil => simp
      | cons xs xss =>
        have := ih xss
        simp only [List.zip_cons_cons, List.filter_cons]
        split <;> simp <;> omega
  have h4 : A.ptrs.length ≤ (c.asked.filter Rearranged).length := Nat.le_trans h3 (by simpa [orders] using zip c.asked c.seqs)
  obtain ⟨ts, e1, e2⟩ := save_spec r hi junk
  obtain rfl := Option.some.inj (e1.symm.trans h1)
  rw [List.length_map] at h4
  refine ⟨_, h1, ?_⟩
  dsimp only
  rw [(streams_nulls e2).2 h4]
  simp

/-- Reading the pointers of any archive for `k` indices into a container with elements `es`: the nodes are sorted once at most, and otherwise the time is proportional to `log n` for each pointer. -/
theorem C89_read (S : Nat → Nat) (es : List Id) (k : Nat) (ts : List (Option Id)) :
    readTime S (sortEntries es) k false ts ≤ S es.length + ts.length * (Nat.log2 es.length + 3) + k := by
  have := readTime_le S (sortEntries es) k false ts
  rwa [show (sortEntries es).length = es.length from (List.perm_insertionSort _ es).length_eq] at this

/-- If all indices were in the order of the first, nothing is sorted and the time does not depend on the number of elements. -/
theorem C89_read_in_order (S : Nat → Nat) (es : List Id) (k : Nat) : readTime S (sortEntries es) k false (List.replicate k none) = k := by
  have := readTime_order S (sortEntries es) k []
  rwa [List.append_nil] at this


namespace Ex
open MI.Cont.Ex

/-- Three elements inserted in order; the last two are equivalent for the ordered non-unique index. -/
def ops5 : List (Op Val) := [.insert 0 (1, 1) 11 {} none env, .insert 0 (2, 2) 12 {} none env, .insert 0 (2, 3) 13 {} none env]

def v5 : World Val := (runs v2 ops5).getD w0

theorem v5_reach : Reach v5 := by
  obtain ⟨w', h⟩ := Option.isSome_iff_exists.1 (by decide +kernel : (runs v2 ops5).isSome = true)
  have : v5 = w' := by unfold v5; rw [h]; rfl
  rw [this]
  exact runs_reach v2_reach h

def g0 : Container Val := v5.cs[0]?.getD ⟨0, [], 0⟩

theorem hg0 : v5.cs[0]? = some g0 := by
  obtain ⟨c, e⟩ := Option.isSome_iff_exists.1 (by decide +kernel : (v5.cs[0]?).isSome = true)
  unfold g0
  rw [e]; rfl

end Ex
open Ex MI.Cont.Ex

/-- The container with five elements and five indices of which three have their order saved. -/
example : saveTime (fun n => n * n) v3 0 junk = 229 ∧ e0.count = 5 ∧ (e0.asked.filter Rearranged).length = 3 := by decide +kernel

example : saveTime (fun n => n * n) v3 0 junk ≤ 5 + 1 + 25 + 3 * (5 * (3 * 2 + 12) + 6) := by
  have := C89_time v3_reach he0 (fun n => n * n) junk
  have h : e0.count = 5 ∧ (e0.asked.filter Rearranged).length = 3 := by decide +kernel
  rw [h.1, h.2] at this
  exact this

/-- The orders to be saved, and the pointers of the archive. -/
example : orders v3.m.val e0.asked e0.seqs = [[15, 11, 12, 13, 14], [12, 14, 11, 13, 15], [14, 11, 12, 13, 15]] ∧ (save v3 0 junk).map (·.ptrs.length) = some 16 := by decide +kernel

/-- The hypothesis of `C89_in_order` can be met. -/
example : g0.count = 3 ∧ ∃ A, save v5 0 junk = some A ∧ A.ptrs = [none, none, none] := by
  have h : g0.count = 3 ∧ (g0.asked.filter Rearranged).length = 3 ∧ orders v5.m.val g0.asked g0.seqs = [[11, 12, 13], [12, 13], [11, 12, 13]] ∧ g0.elems = [11, 12, 13] := by decide +kernel
  refine ⟨h.1, ?_⟩
  have := C89_in_order v5_reach hg0 junk (by
    rw [h.2.2.1, h.2.2.2]
    decide)
  rw [h.2.1] at this
  exact this

/-- Reading the pointers of the archive of the first container, and of one in order. -/
example : ((save v3 0 junk).map fun A => readTime (fun n => n * n) (sortEntries [21, 25, 23, 22, 24]) 3 false (A.ptrs.map (Option.map fun n => [21, 25, 23, 22, 24].getD n 0))) = some 75 ∧
    readTime (fun n => n * n) (sortEntries [21, 25, 23, 22, 24]) 3 false [none, none, none] = 3 := by decide +kernel

end MI.Ser
