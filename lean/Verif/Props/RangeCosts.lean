import Verif.Ord.Fill
import Verif.Cont.FillTime
import Verif.Cont.HostExample
import Verif.Props.OrdCosts
/-!
# C85: how long it takes to fill an ordered index with sorted data

The constructor from a range is documented to take O(m*H(m)) (doc/reference/multi_index_container.html, constructor from a range), `H` the complexity of insertion with a hint, which is amortized
constant for ordered indices if the hint is right (ord_indices.html:448): linear for data in the order of the index, as `std::set` is. `fill` (`Verif/Ord/Fill.lean`) is the loop
of the constructor, with rounds of loops counted as in C69 and C70.

Proved: for any range, what is in the index afterwards, and that the time is O(m*log m). For a sorted range, the elements end up in the order given, no insertion searches for its place, and rebalancing takes at most five rounds for each element. Refuted: the whole is linear. The constructor does `++hint` after each insertion, which goes from the last element up to the root. Insertion with the hint `end()` written by hand is linear
(C70).
-/
namespace MI.Ord
open MI
variable {K : Type} {lt : K → K → Bool} {u : Bool} {hd : Id}

/-- A range of new elements, given by nodes and keys, that is in the order of the index. -/
structure SortedRange (lt : K → K → Bool) (u : Bool) (hd : Id) (l : List (Id × K)) : Prop where
  fresh : (hd :: l.map Prod.fst).Nodup
  nonnull : ∀ p ∈ l, p.1 ≠ 0
  sorted : (l.map Prod.snd).Pairwise (mayPrecede lt u)

/-- C85: filling an index with a sorted range. -/
theorem C85_sorted_partial (sw : StrictWeak lt) (h0 : hd ≠ 0) (key : Id → K) (h : Heap) {l : List (Id × K)} (hl : SortedRange lt u hd l) :
    ∃ s r, fill lt u hd (Idx.empty hd key h) hd l = some (s, hd, r) ∧ s.Holds lt u hd (l.map Prod.fst) ∧ (∀ p ∈ l, s.key p.1 = p.2) ∧
      r.fix ≤ 5 * l.length ∧ r.walk ≤ l.length * (2 * Nat.log2 (l.length + 1)) := by
  obtain ⟨hr, ho, hc⟩ := empty_holds (lt := lt) (u := u) h0 key h
  obtain ⟨P, hP⟩ := hr.pot
  have hP0 : P = 0 := by
    obtain ⟨t, -, -, -, e, rfl⟩ := hP
    have := pot_le t
    rw [e] at this; simpa using this
  subst hP0
  obtain ⟨s, r, P', e, h1, h2, h3, -, h5, h6, h7, -⟩ := fill_sorted sw l hP ho hc (by simpa using hl.fresh) hl.nonnull (by simp) hl.sorted
  refine ⟨s, r, e, ⟨by simpa using h1.rep, by simpa using h2, by simpa using h3⟩, h5, by omega, by simpa using h7⟩

/-- C85: filling an index with any range, sorted or not. An element of the range is left out only from an index with unique keys, against an equivalent element that is in; the last hint directly
follows the element inserted last, or the one it was rejected for; the time is O(m*log m). -/
theorem C85_any_range (sw : StrictWeak lt) (h0 : hd ≠ 0) (key : Id → K) (h : Heap) {l : List (Id × K)} (fresh : (hd :: l.map Prod.fst).Nodup) (nonnull : ∀ p ∈ l, p.1 ≠ 0)
    :
    ∃ s q r xs, fill lt u hd (Idx.empty hd key h) hd l = some (s, q, r) ∧ s.Holds lt u hd xs ∧ (∀ x ∈ xs, x ∈ l.map Prod.fst) ∧
      (∀ p ∈ l, p.1 ∈ xs → s.key p.1 = p.2) ∧ (∀ p ∈ l, p.1 ∉ xs → u = true ∧ ∃ z ∈ xs, equivOf lt (s.key z) p.2 = true) ∧
      (∀ p, l.getLast? = some p → ∃ a z b, xs = a ++ z :: b ∧ q = (b ++ [hd]).head (by simp) ∧ equivOf lt (s.key z) p.2 = true) ∧
      r.fix ≤ 5 * l.length ∧ r.walk ≤ l.length * (8 * Nat.log2 (l.length + 1)) := by
  obtain ⟨hr, ho, hc⟩ := empty_holds (lt := lt) (u := u) h0 key h
  obtain ⟨P, hP⟩ := hr.pot
  have hP0 : P = 0 := by
    obtain ⟨t, -, -, -, e, rfl⟩ := hP
    have := pot_le t
    rw [e] at this; simpa using this
  subst hP0
  obtain ⟨s, r, P', ys, q, e, h1, h2, h3, h4, -, -, h7, h8, -, h10, h11, h12⟩ := fill_any sw l (q := hd) hP ho hc (by simpa using fresh) nonnull (by simp)
  refine ⟨s, q, r, ys, e, ⟨h1.rep, h2, h3⟩, by simpa using h4, h7, h8, fun p hp => ?_, by omega, by simpa using h12⟩
  obtain ⟨a, z, b, e1, e2, e3⟩ := h10 p hp
  refine ⟨a, z, b, e1, ?_, e3⟩
  rw [e2]
  cases b <;> rfl

/-- As documented, filling an index with a sorted range takes linear time. -/
def SortedRangeLinear : Prop :=
  ∃ C, ∀ (K : Type) (lt : K → K → Bool) (u : Bool) (hd : Id) (key : Id → K) (h : Heap) (l : List (Id × K)), StrictWeak lt → hd ≠ 0 →
    SortedRange lt u hd l → ∀ s q r, fill lt u hd (Idx.empty hd key h) hd l = some (s, q, r) → r.walk + r.fix ≤ C * l.length + C

/-- The range `0, 1, …, m-1`. -/
def upTo (m : Nat) : List (Id × Nat) := (List.range m).map fun i => (i + 2, i)

theorem upTo_sorted (u : Bool) (m : Nat) : SortedRange (fun a b : Nat => decide (a < b)) u 1 (upTo m) where
  fresh := by
    have e : (upTo m).map Prod.fst = (List.range m).map (fun i => i + 2) := by simp [upTo, Function.comp_def]
    rw [e, List.nodup_cons]
    refine ⟨?_, ?_⟩
    · simp only [List.mem_map, not_exists, not_and]
      intro x _ (h : x + 2 = 1)
      omega
    · exact (List.nodup_map_iff (fun a b (h : a + 2 = b + 2) => Nat.add_right_cancel h)).2 List.nodup_range
  nonnull := by
    simp only [upTo, List.mem_map, forall_exists_index, and_imp]
    rintro p i _ rfl
    exact Nat.succ_ne_zero _
  sorted := by
    have e : (upTo m).map Prod.snd = List.range m := by simp [upTo, Function.comp_def]
    rw [e]
    refine List.pairwise_lt_range.imp fun h => ?_
    cases u <;> simp [mayPrecede] <;> omega

/-- C85: it does not. -/
theorem C85_linear_full_false : ¬ SortedRangeLinear := by
  rintro ⟨C, H⟩
  generalize eb : 4 * C + 1 = b
  generalize eN : 4 ^ b = N
  have hN : 0 < N := by rw [← eN]; exact Nat.pow_pos (by omega)
  let h : Heap := ⟨fun _ => 0, fun _ => 0, fun _ => 0, fun _ => .black, fun _ => 0⟩
  obtain ⟨hr, ho, hc⟩ := empty_holds (lt := fun a b : Nat => decide (a < b)) (u := true) (hd := 1) (by decide) (fun _ => 0) h
  obtain ⟨P, hP⟩ := hr.pot
  have hl := upTo_sorted true (2 * N)
  have len : (upTo (2 * N)).length = 2 * N := by simp [upTo]
  obtain ⟨s, r, P', e, -, -, -, -, -, -, -, h8⟩ := fill_sorted natLt_sw (upTo (2 * N)) hP ho hc (by simpa using hl.fresh) hl.nonnull (by simp) hl.sorted
  have h1 := H Nat _ true 1 (fun _ => 0) h (upTo (2 * N)) natLt_sw (by decide) hl s 1 r e
  have h2 := h8 b
  rw [len] at h1 h2
  simp only [List.length_nil, Nat.sub_zero, eN] at h2
  have h3 : b * N ≤ C * (2 * N) + C := by
    have : b * (2 * N) = b * N + b * N := by rw [Nat.two_mul, Nat.mul_add]
    omega
  have h4 : b * N = 4 * (C * N) + N := by rw [← eb, Nat.add_mul, Nat.one_mul, Nat.mul_assoc]
  have h5 : C * (2 * N) = 2 * (C * N) := by rw [Nat.mul_left_comm]
  have h6 : C ≤ C * N := Nat.le_mul_of_pos_right C hN
  omega

/-- Five elements: what is counted is what the theorem says. -/
example : ∃ s r, fill (fun a b : Nat => decide (a < b)) true 1 (Idx.empty 1 (fun _ => 0) exHeap) 1 (upTo 5) = some (s, 1, r) ∧
    s.Holds (fun a b : Nat => decide (a < b)) true 1 [2, 3, 4, 5, 6] ∧ (∀ p ∈ upTo 5, s.key p.1 = p.2) ∧ r.fix ≤ 25 ∧ r.walk ≤ 5 * (2 * Nat.log2 6) :=
  C85_sorted_partial natLt_sw (by decide) _ _ (upTo_sorted true 5)

example : (fill (fun a b : Nat => decide (a < b)) true 1 (Idx.empty 1 (fun _ => 0) exHeap) 1 (upTo 5)).map (fun z => (z.2.2.walk, z.2.2.fix)) = some (7, 3) := by
  decide +kernel

/-- An element that is rejected: the next hint follows the element that stands against it. -/
example : (fill (fun a b : Nat => decide (a < b)) true 1 (Idx.empty 1 (fun _ => 0) exHeap) 1 [(2, 5), (3, 7), (4, 5), (5, 6)]).map (fun z => (z.1.count, z.2.1)) = some (3, 3) := by
  decide +kernel

/-- The same range meets the hypotheses of the theorem on any range. -/
example : ∃ s q r xs, fill (fun a b : Nat => decide (a < b)) true 1 (Idx.empty 1 (fun _ => 0) exHeap) 1 [(2, 5), (3, 7), (4, 5), (5, 6)] = some (s, q, r) ∧
    s.Holds (fun a b : Nat => decide (a < b)) true 1 xs ∧ r.fix ≤ 20 := by
  obtain ⟨s, q, r, xs, e, hs, -, -, -, -, hf, -⟩ := C85_any_range (u := true) (hd := 1) (l := [(2, 5), (3, 7), (4, 5), (5, 6)]) natLt_sw (by decide) (fun _ => 0) exHeap (by decide)
    (by decide)
  exact ⟨s, q, r, xs, e, hs, hf⟩

end MI.Ord

namespace MI.Cont
open MI
variable {V : Type} {lt : V → V → Bool} {u : Bool} {H : Host V} {w : World V}

/-- C85: the constructor from a range of a container with one ordered index does what `fill` does, and takes O(m*log m), with at most five rounds of rebalancing for each element of the range.
`l`: the nodes that allocation offers, and the values of the range. -/
theorem C85_construct {hd z : Id} (ok : H.Ok) (calm : H.Calm) (r : Reach w) (L : w.Legal (.new hd z [.ord u lt])) (vs : List V) :
    ∃ w' l s q rd, World.construct H false w hd z [.ord u lt] vs = .ok w' ∧ w'.cs[w.cs.length]? = some (Container.ofIdx lt u hd s) ∧ s.key = w'.m.val ∧ l.map Prod.snd = vs ∧
      Ord.fill lt u hd (Ord.Idx.empty hd w.m.val ⟨fun _ => z, fun _ => z, fun _ => z, fun _ => .red, fun _ => z⟩) hd l = some (s, q, rd) ∧
      rd.fix ≤ 5 * vs.length ∧ rd.walk ≤ vs.length * (8 * Nat.log2 (vs.length + 1)) := by
  have sw : StrictWeak lt := L.2.2 (.ord u lt) (by simp)
  let h : Ord.Heap := ⟨fun _ => z, fun _ => z, fun _ => z, fun _ => .red, fun _ => z⟩
  obtain ⟨hr, ho, hc⟩ := Ord.empty_holds (lt := lt) (u := u) L.1.1 w.m.val h
  obtain ⟨P, hP⟩ := hr.pot
  have hP0 : P = 0 := by
    obtain ⟨t, -, -, -, e, rfl⟩ := hP
    have := Ord.pot_le t
    rw [e] at this; simpa using this
  subst hP0
  have st : w.step (.new hd z [.ord u lt]) = .ok ({ w with m := w.m.allocate hd, cs := w.cs ++ [Container.new hd z [.ord u lt]] }, ⟨0, true⟩) := rfl
  have hi : ({ w with m := w.m.allocate hd, cs := w.cs ++ [Container.new hd z [.ord u lt]] } : World V).cs[w.cs.length]? =
      some (Container.ofIdx lt u hd ⟨w.m.val, Ord.emptyInit h hd, 0⟩) := by
    simp [Container.new, Container.ofIdx, Init.layer, h]
  obtain ⟨w', l, s, q, rd, P', ys, k1, k2, k3, k4, k5, -, -, -, k6, k7⟩ := hinted_fill (i := w.cs.length) (t := 0) sw ok calm vs (r.ok L st) hi hP ho hc (hint := hd) (by simp)
  refine ⟨w', l, s, q, rd, ?_, k4, k5.symm, k2, k3, by omega, by simpa using k7⟩
  simp only [World.construct, st]
  rw [k1]

/-- Construction from the range `5, 7, 5, 6`, in a world with nothing else. -/
example : ∃ w' l s q rd, World.construct (Host.top fun _ => {}) false ⟨⟨fun _ => 0, [], []⟩, [], []⟩ 1 7 [.ord true (fun a b : Nat => decide (a < b))] [5, 7, 5, 6] = .ok w' ∧
    w'.cs[0]? = some (Container.ofIdx (fun a b : Nat => decide (a < b)) true 1 s) ∧ s.key = w'.m.val ∧ l.map Prod.snd = [5, 7, 5, 6] ∧
    Ord.fill (fun a b : Nat => decide (a < b)) true 1 (Ord.Idx.empty 1 (fun _ => 0) ⟨fun _ => 7, fun _ => 7, fun _ => 7, fun _ => .red, fun _ => 7⟩) 1 l = some (s, q, rd) ∧
    rd.fix ≤ 20 ∧ rd.walk ≤ 4 * (8 * Nat.log2 5) :=
  C85_construct (Host.top_ok _) Host.top_calm (.init _) ⟨⟨by decide, by simp, by simp⟩, by simp, fun a ha => by obtain rfl := List.mem_singleton.1 ha; exact Ord.natLt_sw⟩ _

end MI.Cont
