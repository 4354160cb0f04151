import Verif.Cont.Compare
import Verif.Cont.ApiLemmas4
/-! Comparison operators compute what they should. -/
set_option linter.unusedVariables false
namespace MI.Cont
open MI
variable {V : Type} {val : Id → V}

theorem seqLess_nil_left {α : Type} {lt : α → α → Bool} {ys : List α} : SeqLess lt [] ys ↔ ys ≠ [] := by
  constructor
  · rintro ⟨k, h1, h2⟩
    rcases h2 with ⟨_, h⟩ | ⟨a, b, h, _⟩
    · rintro rfl; exact h (by simp)
    · simp at h
  · intro h
    refine ⟨0, fun j hj => absurd hj (Nat.not_lt_zero _), Or.inl ⟨rfl, ?_⟩⟩
    cases ys with
    | nil => exact absurd rfl h
    | cons y ys => simp

theorem seqLess_nil_right {α : Type} {lt : α → α → Bool} {xs : List α} : ¬ SeqLess lt xs [] := by
  rintro ⟨k, h1, h2⟩
  rcases h2 with ⟨_, h⟩ | ⟨a, b, _, h, _⟩
  · exact h (by simp)
  · simp at h

theorem seqLess_cons {α : Type} {lt : α → α → Bool} {x y : α} {xs ys : List α} :
    SeqLess lt (x :: xs) (y :: ys) ↔ lt x y = true ∨ (lt x y = false ∧ lt y x = false ∧ SeqLess lt xs ys) := by
  constructor
  · rintro ⟨k, h1, h2⟩
    cases k with
    | zero =>
      rcases h2 with ⟨h, _⟩ | ⟨a, b, ha, hb, h⟩
      · simp at h
      · simp at ha hb; subst ha; subst hb; exact Or.inl h
    | succ k =>
      obtain ⟨a, b, ha, hb, e1, e2⟩ := h1 0 (Nat.succ_pos _)
      simp at ha hb; subst ha; subst hb
      exact Or.inr ⟨e1, e2, k, fun j hj => by simpa using h1 (j + 1) (Nat.succ_lt_succ hj), by simpa using h2⟩
  · rintro (h | ⟨e1, e2, k, h1, h2⟩)
    · exact ⟨0, fun j hj => absurd hj (Nat.not_lt_zero _), Or.inr ⟨x, y, rfl, rfl, h⟩⟩
    · refine ⟨k + 1, fun j hj => ?_, by simpa using h2⟩
      cases j with
      | zero => exact ⟨x, y, rfl, rfl, e1, e2⟩
      | succ j => simpa using h1 j (Nat.lt_of_succ_lt_succ hj)

section
variable {n1 n2 : Nat} {hd1 hd2 : Id} {L1 L2 : Layer V}

theorem hd_ne {hd x : Id} {L : Layer V} {u v : List Id} (w : L.Holds val hd (u ++ x :: v)) : x ≠ hd := by
  have := w.nodup
  rw [List.nodup_cons] at this
  rintro rfl
  exact this.1 (by simp)

theorem stdEqual_spec {eq : V → V → Bool} : ∀ {xs ys u v : List Id} {n : Nat}, L1.Holds val hd1 (u ++ xs) → L2.Holds val hd2 (v ++ ys) →
    (u ++ xs).length + 3 ≤ n1 → (v ++ ys).length + 3 ≤ n2 → xs.length ≤ n → xs.length = ys.length →
    ∃ b, stdEqual val n1 hd1 L1 n2 L2 eq n (hdOr hd1 xs) (hdOr hd2 ys) = some b ∧ (b = true ↔ List.Forall₂ (fun a b => eq a b = true) (xs.map val) (ys.map val))
  | [], [], _, _, n, _, _, _, _, _, _ => by
      refine ⟨true, ?_, by simp⟩
      unfold stdEqual
      simp [hdOr]
  | [], y :: ys, _, _, _, _, _, _, _, _, hl => by simp at hl
  | x :: xs, [], _, _, _, _, _, _, _, _, hl => by simp at hl
  | x :: xs, y :: ys, u, v, n, w1, w2, b1, b2, hn, hl => by
      cases n with
      | zero => simp at hn
      | succ n =>
        unfold stdEqual
        have e1 : hdOr hd1 (x :: xs) = x := rfl
        have e2 : hdOr hd2 (y :: ys) = y := rfl
        rw [e1, e2, if_neg (hd_ne w1)]
        cases he : eq (val x) (val y) with
        | false => exact ⟨false, by simp [he], by simp [he]⟩
        | true =>
          obtain ⟨b, h1, h2⟩ := stdEqual_spec (eq := eq) (xs := xs) (ys := ys) (u := u ++ [x]) (v := v ++ [y]) (n := n)
            (by simpa using w1) (by simpa using w2) (by simpa using b1) (by simpa using b2) (by simpa using hn) (by simpa using hl)
          refine ⟨b, ?_, ?_⟩
          · simp only [he, Layer.next_spec w1 b1, Layer.next_spec w2 b2]
            simpa using h1
          · rw [h2]; simp [he]

theorem stdLess_spec {lt : V → V → Bool} : ∀ {xs ys u v : List Id} {n : Nat}, L1.Holds val hd1 (u ++ xs) → L2.Holds val hd2 (v ++ ys) →
    (u ++ xs).length + 3 ≤ n1 → (v ++ ys).length + 3 ≤ n2 → xs.length ≤ n →
    ∃ b, stdLess val n1 hd1 L1 n2 hd2 L2 lt n (hdOr hd1 xs) (hdOr hd2 ys) = some b ∧ (b = true ↔ SeqLess lt (xs.map val) (ys.map val))
  | [], ys, _, v, n, _, w2, _, _, _ => by
      refine ⟨decide (hdOr hd2 ys ≠ hd2), ?_, ?_⟩
      · unfold stdLess
        simp [hdOr]
      · rw [List.map_nil, seqLess_nil_left]
        cases ys with
        | nil => simp [hdOr]
        | cons y ys =>
          have : hdOr hd2 (y :: ys) = y := rfl
          simp [this, hd_ne w2]
  | x :: xs, [], _, _, n, w1, _, _, _, _ => by
      refine ⟨false, ?_, ?_⟩
      · unfold stdLess
        have e1 : hdOr hd1 (x :: xs) = x := rfl
        simp [e1, hdOr, hd_ne w1]
      · simp [seqLess_nil_right]
  | x :: xs, y :: ys, u, v, n, w1, w2, b1, b2, hn => by
      cases n with
      | zero => simp at hn
      | succ n =>
        unfold stdLess
        have e1 : hdOr hd1 (x :: xs) = x := rfl
        have e2 : hdOr hd2 (y :: ys) = y := rfl
        rw [e1, e2, if_neg (by simp [hd_ne w1, hd_ne w2]), List.map_cons, List.map_cons, seqLess_cons]
        cases h : lt (val x) (val y) with
        | true => exact ⟨true, by simp [h], by simp⟩
        | false =>
          cases h' : lt (val y) (val x) with
          | true => exact ⟨false, by simp [h, h'], by simp⟩
          | false =>
            obtain ⟨b, g1, g2⟩ := stdLess_spec (lt := lt) (xs := xs) (ys := ys) (u := u ++ [x]) (v := v ++ [y]) (n := n)
              (by simpa using w1) (by simpa using w2) (by simpa using b1) (by simpa using b2) (by simpa using hn)
            refine ⟨b, ?_, ?_⟩
            · simp only [h, h', Layer.next_spec w1 b1, Layer.next_spec w2 b2]
              simpa using g1
            · rw [g2]; simp

end

variable {w : World V} {i j k l : Nat} {c d : Container V} {xs ys : List Id}

theorem Inv.len (I : Inv w) (hi : w.cs[i]? = some c) (h : c.seqs[k]? = some xs) : xs.length = c.count := by
  obtain ⟨L, -, -, p, -⟩ := I.seq hi h
  rw [p.length_eq, (I.facts hi).2.1.count]

theorem indexEq_spec (I : Inv w) (hi : w.cs[i]? = some c) (hj : w.cs[j]? = some d) (hx : c.seqs[k]? = some xs) (hy : d.seqs[l]? = some ys)
    {S : Spec V} (hS : c.asked[k]? = some S) (hh : ∀ g e hf, S ≠ .hash g e hf) (eq : V → V → Bool) :
    ∃ b, w.indexEq eq i k j l = some b ∧ (b = true ↔ List.Forall₂ (fun a b => eq a b = true) (xs.map w.m.val) (ys.map w.m.val)) := by
  obtain ⟨L1, hL1, w1, bb1, e1, -⟩ := I.seq' hi hS hx
  obtain ⟨L2, hL2, w2, -, b2, -⟩ := I.seq hj hy
  have b1 : xs.length + 3 ≤ c.budget := by omega
  have hnh : ∀ g e hf p m h a, L1 ≠ .hash g e hf p m h a := by
    rintro g e hf p m h a rfl
    exact hh g e hf e1.symm
  have hred : w.indexEq eq i k j l = (if c.count = d.count then stdEqual w.m.val c.budget c.hd L1 d.budget L2 eq c.budget (L1.first c.hd) (L2.first d.hd) else some false) := by
    unfold World.indexEq
    simp only [hi, hj, hL1, hL2]
    cases L1 with
    | hash g e hf p m h a => exact (hnh _ _ _ _ _ _ _ rfl).elim
    | _ => rfl
  rw [hred]
  by_cases hc : c.count = d.count
  · rw [if_pos hc, Layer.first_spec w1, Layer.first_spec w2]
    exact stdEqual_spec (u := []) (v := []) w1 w2 b1 b2 (by omega) (by rw [I.len hi hx, I.len hj hy, hc])
  · rw [if_neg hc]
    refine ⟨false, rfl, ⟨(fun h => nomatch h), fun h => ?_⟩⟩
    have := h.length_eq
    rw [List.length_map, List.length_map, I.len hi hx, I.len hj hy] at this
    exact absurd this hc

theorem indexLt_spec (I : Inv w) (hi : w.cs[i]? = some c) (hj : w.cs[j]? = some d) (hx : c.seqs[k]? = some xs) (hy : d.seqs[l]? = some ys)
    (lt : V → V → Bool) :
    ∃ b, w.indexLt lt i k j l = some b ∧ (b = true ↔ SeqLess lt (xs.map w.m.val) (ys.map w.m.val)) := by
  obtain ⟨L1, hL1, w1, -, b1, -⟩ := I.seq hi hx
  obtain ⟨L2, hL2, w2, -, b2, -⟩ := I.seq hj hy
  unfold World.indexLt
  simp only [hi, hj, hL1, hL2, Layer.first_spec w1, Layer.first_spec w2]
  exact stdLess_spec (u := []) (v := []) w1 w2 b1 b2 (by omega)

theorem indexEq_hash_spec (I : Inv w) (hi : w.cs[i]? = some c) (hj : w.cs[j]? = some d) (hx : c.seqs[k]? = some xs) (hy : d.seqs[l]? = some ys)
    {g : Hash.Cat} {e : V → V → Bool} {hf : V → Nat} (hS : c.asked[k]? = some (.hash g e hf)) (hS' : d.asked[l]? = some (.hash g e hf)) {eq : V → V → Bool}
    (er : EqRel eq) (hv : ∀ v w, eq v w = true → e v w = true) :
    ∃ b, w.indexEq eq i k j l = some b ∧ (b = true ↔ SameUpTo eq (xs.map w.m.val) (ys.map w.m.val)) := by
  obtain ⟨L1, hL1, w1, b1, e1, ok⟩ := I.seq' hi hS hx
  obtain ⟨L2, hL2, w2, b2, e2, -⟩ := I.seq' hj hS' hy
  cases L1 with
  | hash g1 e1' hf1 p1 m1 h1 a1 =>
    cases L2 with
    | hash g2 e2' hf2 p2 m2 h2 a2 =>
      injection e1 with q1 q2 q3
      injection e2 with r1 r2 r3
      subst q1 q2 q3 r1 r2 r3
      obtain ⟨b, k1, k2⟩ := Hash.equals_spec (n := c.budget + d.budget) (key := id) ok er hv w1.2 w2.2 (by omega) (by omega)
      refine ⟨b, ?_, k2⟩
      unfold World.indexEq
      simp only [hi, hj, hL1, hL2]
      rw [← I.len hi hx, ← I.len hj hy]
      simp only [k1]
    | _ => exact nomatch e2
  | _ => exact nomatch e1

end MI.Cont
