import Verif.Ser.SaveCost
import Verif.Ser.LoadLemmas
import Verif.Ser.SaveSpec
import Mathlib.Data.List.Forall2
import Mathlib.Tactic.Ring
/-! Bounds of the time of saving. -/
namespace MI.Ser
open MI MI.Cont
variable {V : Type} {i : Nat} {w : World V} {c : Container V}

theorem lowerBoundC_fst (p : Nat → Bool) : ∀ fuel first len, (lowerBoundC p fuel first len).1 = lowerBound p fuel first len
  | 0, _, _ => rfl
  | fuel + 1, first, len => by
    unfold lowerBoundC lowerBound
    by_cases h : len = 0
    · simp [h]
    · simp only [h, if_false]
      split <;> exact lowerBoundC_fst p _ _ _

theorem lowerBoundC_rounds (p : Nat → Bool) : ∀ k fuel first len, len < 2 ^ k → (lowerBoundC p fuel first len).2 ≤ k
  | _, 0, _, _, _ => Nat.zero_le _
  | 0, fuel + 1, first, len, h => by
    have : len = 0 := by simpa using h
    simp [lowerBoundC, this]
  | k + 1, fuel + 1, first, len, h => by
    unfold lowerBoundC
    by_cases h0 : len = 0
    · simp [h0]
    · simp only [h0, if_false]
      rw [Nat.pow_succ] at h
      have h1 := lowerBoundC_rounds p k fuel (first + len / 2 + 1) (len - len / 2 - 1) (by omega)
      have h2 := lowerBoundC_rounds p k fuel first (len / 2) (by omega)
      split <;> omega

theorem lowerBoundC_log (p : Nat → Bool) {fuel first len n : Nat} (h : len ≤ n) : (lowerBoundC p fuel first len).2 ≤ Nat.log2 n + 1 :=
  lowerBoundC_rounds p _ _ _ _ (Nat.lt_of_le_of_lt h Nat.lt_log2_self)

theorem addNode_keeps {a a' : Alg} {x : Id} (h : a.addNode x = some a') (hp : a.numPiles ≤ a.size) : a'.size = a.size ∧ a'.sorted = a.sorted ∧ a'.numPiles ≤ a'.size := by
  unfold Alg.addNode at h
  dsimp only at h
  split at h
  · rename_i hc
    cases h
    refine ⟨rfl, rfl, ?_⟩
    dsimp only
    split <;> omega
  · cases h

theorem addNodes_cost : ∀ (xs : List Id) {a : Alg}, a.numPiles ≤ a.size → a.addNodesCost xs ≤ xs.length * (2 * Nat.log2 a.size + 3) ∧
    ∀ a', a.addNodes xs = some a' → a'.size = a.size ∧ a'.sorted = a.sorted ∧ a'.numPiles ≤ a'.size
  | [], a, h => ⟨by simp [Alg.addNodesCost], fun a' e => by cases e; exact ⟨rfl, rfl, h⟩⟩
  | x :: xs, a, h => by
    have c1 : a.addNodeCost x ≤ 2 * Nat.log2 a.size + 3 := by
      have h1 := lowerBoundC_log (fun k => decide (a.node k < x)) (fuel := a.size) (first := 0) (Nat.le_refl a.size)
      have h2 := lowerBoundC_log (fun k => decide (a.pileTop k < a.pos (a.localizeC x).1)) (fuel := a.numPiles) (first := 0) h
      unfold Alg.addNodeCost Alg.pileForC
      unfold Alg.localizeC at h2 ⊢
      omega
    cases e : a.addNode x with
    | none =>
      simp only [Alg.addNodesCost, Alg.addNodes, e, List.length_cons, Nat.succ_mul xs.length]
      exact ⟨by omega, fun a' e => by cases e⟩
    | some a1 =>
      obtain ⟨k1, k2, k3⟩ := addNode_keeps e h
      obtain ⟨q1, q2⟩ := addNodes_cost xs k3
      rw [k1, k2] at q2
      rw [k1] at q1
      simp only [Alg.addNodesCost, Alg.addNodes, e, List.length_cons, Nat.succ_mul xs.length]
      exact ⟨by rw [Nat.add_comm]; exact Nat.add_le_add q1 c1, q2⟩

theorem begin_size (a : Alg) : a.begin.size = a.size := by
  unfold Alg.begin
  split <;> rfl

theorem begin_sorted (a : Alg) : a.begin.sorted = true := by
  unfold Alg.begin
  split
  · assumption
  · rfl

theorem begin_piles (a : Alg) : a.begin.numPiles = 0 := by
  unfold Alg.begin
  split <;> rfl

theorem execute_cost (S : Nat → Nat) (a : Alg) (xs : List Id) :
    a.executeCost S xs ≤ (if a.sorted then 0 else S a.size) + xs.length * (2 * Nat.log2 a.size + 3) + a.size ∧
    ∀ a', a.execute xs = some a' → a'.size = a.size ∧ a'.sorted = true := by
  obtain ⟨h1, h2⟩ := addNodes_cost xs (a := a.begin) (by rw [begin_piles]; exact Nat.zero_le _)
  rw [begin_size] at h1
  unfold Alg.executeCost Alg.execute
  cases e : a.begin.addNodes xs with
  | none => exact ⟨by dsimp only; omega, fun _ h => by cases h⟩
  | some a1 =>
    obtain ⟨k1, k2, k3⟩ := h2 a1 e
    rw [begin_size] at k1
    rw [begin_sorted] at k2
    refine ⟨by dsimp only; omega, fun a' h => ?_⟩
    cases h
    unfold Alg.finish
    split <;> exact ⟨k1, k2⟩

theorem saveLoop_length (o : Id → Bool) : ∀ (xs : List Id) (prev : Id) (ls : Nat), (saveLoop o prev ls xs).1.length ≤ 2 * xs.length
  | [], _, _ => by simp [saveLoop]
  | x :: xs, prev, ls => by
    unfold saveLoop
    cases o x with
    | false =>
      have := saveLoop_length o xs x 1
      simp only [if_true, List.length_append, List.length_cons]
      split <;> simp <;> omega
    | true =>
      have := saveLoop_length o xs x (ls + 1)
      simp only [Bool.true_eq_false, if_false, List.length_append, List.length_cons]
      split <;> simp <;> omega

theorem saveFrom_length (o : Id → Bool) (xs : List Id) (prev : Id) (ls : Nat) : (saveFrom o prev ls xs).length ≤ 2 * xs.length + 2 := by
  have := saveLoop_length o xs prev ls
  unfold saveFrom
  simp only [List.length_append, List.length_singleton]
  split <;> simp <;> omega

theorem sum_le (f : Id → Nat) (B : Nat) : ∀ xs : List Id, (∀ x ∈ xs, f x ≤ B) → (xs.map f).sum ≤ xs.length * B
  | [], _ => by simp
  | x :: xs, h => by
    have h1 := h x (by simp)
    have h2 := sum_le f B xs fun y hy => h y (by simp [hy])
    simp only [List.map_cons, List.sum_cons, List.length_cons, Nat.succ_mul xs.length]
    omega

theorem save_cost (S : Nat → Nat) (a : Alg) (xs : List Id) :
    a.saveCost S xs ≤ (if a.sorted then 0 else S a.size) + xs.length * (3 * Nat.log2 a.size + 7) + a.size + 2 ∧
    ∀ a' ts, a.save xs = some (a', ts) → a'.size = a.size ∧ a'.sorted = true := by
  obtain ⟨h1, h2⟩ := execute_cost S a xs
  have e0 : xs.length * (3 * Nat.log2 a.size + 7) = xs.length * (2 * Nat.log2 a.size + 3) + xs.length * (Nat.log2 a.size + 2) + 2 * xs.length := by
    ring
  unfold Alg.saveCost Alg.save
  cases e : a.execute xs with
  | none => exact ⟨by dsimp only; omega, fun _ _ h => by cases h⟩
  | some a1 =>
    obtain ⟨k1, k2⟩ := h2 a1 e
    dsimp only
    by_cases hall : ∀ x ∈ xs, a1.isOrdered x ≠ none
    · rw [if_pos hall]
      have l := saveFrom_length (fun x => a1.isOrdered x == some true) xs (xs.headD 0) 3
      have s := sum_le (fun x => (a1.localizeC x).2 + 1) (Nat.log2 a.size + 2) xs fun x _ => by
        have := lowerBoundC_log (fun k => decide (a1.node k < x)) (fuel := a1.size) (first := 0) (Nat.le_of_eq k1)
        unfold Alg.localizeC
        omega
      exact ⟨Nat.le_trans (Nat.add_le_add h1 (Nat.add_le_add s l)) (by omega), fun a' ts h => by cases h; exact ⟨k1, k2⟩⟩
    · rw [if_neg hall]
      exact ⟨by dsimp only; omega, fun _ _ h => by cases h⟩

section
variable {nx : Id → Option Id} {lt : Id → Id → Bool} {hd : Id} {X : List Id}

theorem dupAdvanceC_fst (nx : Id → Option Id) (lt : Id → Id → Bool) (hd : Id) : ∀ n x, (dupAdvanceC nx lt hd n x).map (·.1) = dupAdvance nx lt hd n x
  | 0, _ => rfl
  | n + 1, x => by
    unfold dupAdvanceC dupAdvance
    by_cases h : x = hd
    · simp [h]
    · simp only [h, if_false]
      cases nx x with
      | none => rfl
      | some y =>
        dsimp only
        split
        · rfl
        · rw [← dupAdvanceC_fst nx lt hd n y]
          cases dupAdvanceC nx lt hd n y <;> rfl

theorem dupFromC_fst (nx : Id → Option Id) (lt : Id → Id → Bool) (hd : Id) : ∀ n x k, (dupFromC nx lt hd n x k).map (·.1) = dupFrom nx lt hd n x k
  | 0, _, _ => rfl
  | n + 1, x, k => by
    unfold dupFromC dupFrom
    by_cases h : x = hd
    · simp [h]
    · simp only [h, if_false]
      cases nx x with
      | none => rfl
      | some y =>
        dsimp only
        split
        · rw [← dupAdvanceC_fst nx lt hd (n + 1) y]
          cases dupAdvanceC nx lt hd (n + 1) y with
          | none => rfl
          | some d =>
            simp only [Option.map_some]
            rw [← dupFromC_fst nx lt hd n d.1 d.1]
            cases dupFromC nx lt hd n d.1 d.1 <;> rfl
        · rw [← dupFromC_fst nx lt hd n y k]
          cases dupFromC nx lt hd n y k <;> rfl

theorem dupWalkC_fst (nx : Id → Option Id) (lt : Id → Id → Bool) (hd first : Id) (n : Nat) : (dupWalkC nx lt hd first n).map (·.1) = dupWalk nx lt hd first n := by
  unfold dupWalkC dupWalk
  rw [← dupAdvanceC_fst nx lt hd n first]
  cases dupAdvanceC nx lt hd n first with
  | none => rfl
  | some d =>
    simp only [Option.map_some]
    rw [← dupFromC_fst nx lt hd n d.1 d.1]
    cases dupFromC nx lt hd n d.1 d.1 <;> rfl

theorem advance_rounds (hhd : hd ∉ X) (hnx : ∀ u x v, X = u ++ x :: v → nx x = some (hdOr hd v)) :
    ∀ (n : Nat) (u Y : List Id), X = u ++ Y → ∀ r, dupAdvanceC nx lt hd n (hdOr hd Y) = some r → ∃ m Z, Y = m ++ Z ∧ r = (hdOr hd Z, m.length + 1)
  | 0, _, _, _, r, h => by cases h
  | n + 1, u, [], e, r, h => by
    simp only [dupAdvanceC, hdOr, List.headD_nil, if_true] at h
    cases h
    exact ⟨[], [], rfl, rfl⟩
  | n + 1, u, x :: Y, e, r, h => by
    have hx : x ≠ hd := by rintro rfl; exact hhd (by simp [e])
    have h1 := hnx u x Y e
    have eh : hdOr hd (x :: Y) = x := rfl
    rw [eh] at h
    simp only [dupAdvanceC, hx, if_false, h1] at h
    split at h
    · cases h
      exact ⟨[], x :: Y, rfl, rfl⟩
    · cases e2 : dupAdvanceC nx lt hd n (hdOr hd Y) with
      | none => rw [e2] at h; cases h
      | some r2 =>
        rw [e2] at h
        cases h
        obtain ⟨m, Z, k1, k2⟩ := advance_rounds hhd hnx n (u ++ [x]) Y (by simp [e]) r2 e2
        exact ⟨x :: m, Z, by simp [k1], by simp [k2]⟩

theorem dupFrom_rounds (hhd : hd ∉ X) (hnx : ∀ u x v, X = u ++ x :: v → nx x = some (hdOr hd v)) :
    ∀ (n : Nat) (chunk : Id) (u Z : List Id), X = u ++ Z → ∀ r, dupFromC nx lt hd n (hdOr hd Z) chunk = some r → r.2 ≤ 2 * Z.length + 1
  | 0, _, _, _, _, r, h => by cases h
  | n + 1, chunk, u, [], e, r, h => by
    simp only [dupFromC, hdOr, List.headD_nil, if_true] at h
    cases h
    simp
  | n + 1, chunk, u, x :: Y, e, r, h => by
    have hx : x ≠ hd := by rintro rfl; exact hhd (by simp [e])
    have h1 := hnx u x Y e
    have e' : X = (u ++ [x]) ++ Y := by simp [e]
    have eh : hdOr hd (x :: Y) = x := rfl
    rw [eh] at h
    simp only [dupFromC, hx, if_false, h1] at h
    split at h
    · cases e2 : dupAdvanceC nx lt hd (n + 1) (hdOr hd Y) with
      | none => rw [e2] at h; cases h
      | some d =>
        rw [e2] at h
        obtain ⟨m, Z, k1, rfl⟩ := advance_rounds hhd hnx (n + 1) (u ++ [x]) Y e' d e2
        dsimp only at h
        cases e3 : dupFromC nx lt hd n (hdOr hd Z) (hdOr hd Z) with
        | none => rw [e3] at h; cases h
        | some l =>
          rw [e3] at h
          cases h
          have := dupFrom_rounds hhd hnx n (hdOr hd Z) (u ++ [x] ++ m) Z (by rw [e', k1]; simp) l e3
          have len := congrArg List.length k1
          simp only [List.length_append] at len
          simp only [List.length_cons]
          omega
    · cases e3 : dupFromC nx lt hd n (hdOr hd Y) chunk with
      | none => rw [e3] at h; cases h
      | some l =>
        rw [e3] at h
        cases h
        have := dupFrom_rounds hhd hnx n chunk (u ++ [x]) Y e' l e3
        simp only [List.length_cons]
        omega

theorem dupWalk_rounds (hhd : hd ∉ X) (hnx : ∀ u x v, X = u ++ x :: v → nx x = some (hdOr hd v)) {n : Nat} {r : List Id × Nat}
    (h : dupWalkC nx lt hd (hdOr hd X) n = some r) : r.2 ≤ 2 * X.length + 2 := by
  unfold dupWalkC at h
  cases e2 : dupAdvanceC nx lt hd n (hdOr hd X) with
  | none => rw [e2] at h; cases h
  | some d =>
    rw [e2] at h
    obtain ⟨m, Z, k1, rfl⟩ := advance_rounds hhd hnx n [] X rfl d e2
    dsimp only at h
    cases e3 : dupFromC nx lt hd n (hdOr hd Z) (hdOr hd Z) with
    | none => rw [e3] at h; cases h
    | some l =>
      rw [e3] at h
      cases h
      have := dupFrom_rounds hhd hnx n (hdOr hd Z) m Z k1 l e3
      have len := congrArg List.length k1
      simp only [List.length_append] at len
      dsimp only
      omega

end

theorem listing_cost {L : Layer V} {val : Id → V} {hd : Id} {xs : List Id} {n : Nat} (w : L.Holds val hd xs) (hn : xs.length + 3 ≤ n) :
    listingCost n hd val L ≤ 2 * xs.length + 2 := by
  have nd := w.nodup
  have wk := Layer.walk_spec w hn
  cases L with
  | ord u lt h =>
    obtain ⟨n1, n2⟩ := List.nodup_cons.1 nd
    simp only [listingCost]
    rw [Layer.first_spec w]
    cases e : dupWalkC (fun x => (Layer.ord u lt h).next n x) (fun a b => lt (val a) (val b)) hd (hdOr hd xs) n with
    | none => simp
    | some r =>
      exact dupWalk_rounds n1 (fun u x v e => Layer.next_spec (by rw [← e]; exact w) (by rw [← e]; exact hn)) e
  | hash c eq hf pol ml h a => simp only [listingCost, wk, Option.map_some, Option.getD_some]; omega
  | seq h => simp only [listingCost, wk, Option.map_some, Option.getD_some]; omega
  | rnd s => simp only [listingCost, wk, Option.map_some, Option.getD_some]; omega

theorem saveIndices_cost (S : Nat → Nat) {val : Id → V} {hd : Id} {b : List Id} {n : Nat} (hn : b.length + 3 ≤ n) :
    ∀ {Ls : List (Layer V)} {xss : List (List Id)} {a : Alg}, OkAll (specs Ls) → Fit val hd b Ls xss → a.size = b.length →
      saveIndicesCost S n hd val a Ls ≤ (if a.sorted then 0 else S b.length) + ((specs Ls).filter Rearranged).length * (b.length * (3 * Nat.log2 b.length + 12) + 6)
  | [], xss, a, _, f, _ => by simp [saveIndicesCost]
  | L :: Ls, xss, a, ok, f, hz => by
    obtain ⟨xs, yss, rfl, h, p, f2⟩ := f.cases
    show _ ≤ _ + ((L.spec :: specs Ls).filter Rearranged).length * _
    simp only [saveIndicesCost]
    rw [hasStream_spec]
    cases hs : Rearranged L.spec with
    | false =>
      simp only [Bool.false_eq_true, if_false, List.filter_cons, hs]
      exact saveIndices_cost S hn ok.tail f2 hz
    | true =>
      simp only [if_true, List.filter_cons, hs, List.length_cons, Nat.succ_mul ((specs Ls).filter Rearranged).length]
      have hl := listing_spec (n := n) ok.head h (by rw [p.length_eq]; exact hn) (by rw [hasStream_spec, hs])
      have lc := listing_cost (n := n) h (by rw [p.length_eq]; exact hn)
      have sub := (listed_sublist val xs L.spec).length_le
      obtain ⟨s1, s2⟩ := save_cost S a (listed val xs L.spec)
      rw [p.length_eq] at lc sub
      rw [hz] at s1
      have m := Nat.mul_le_mul_right (3 * Nat.log2 b.length + 7) sub
      have e0 : b.length * (3 * Nat.log2 b.length + 12) = b.length * (3 * Nat.log2 b.length + 7) + 5 * b.length := by
        rw [Nat.mul_comm 5, ← Nat.mul_add]
      rw [hl]
      dsimp only
      cases e : a.save (listed val xs L.spec) with
      | none => dsimp only; omega
      | some r =>
        obtain ⟨a', ts⟩ := r
        obtain ⟨k1, k2⟩ := s2 a' ts e
        have ih := saveIndices_cost S hn ok.tail f2 (k1.trans hz)
        rw [k2] at ih
        simp only [if_true] at ih
        dsimp only
        generalize b.length * (3 * Nat.log2 b.length + 12) = P at *
        generalize ((specs Ls).filter Rearranged).length * (P + 6) = Q at *
        generalize (listed val xs L.spec).length * (3 * Nat.log2 b.length + 7) = R at *
        generalize b.length * (3 * Nat.log2 b.length + 7) = T at *
        omega

/-- The time of saving a container. -/
theorem saveTime_le (S : Nat → Nat) (r : Reach w) (hi : w.cs[i]? = some c) (junk : Alg) :
    saveTime S w i junk ≤ c.count + 1 + S c.count + (c.asked.filter Rearranged).length * (c.count * (3 * Nat.log2 c.count + 12) + 6) := by
  have I := r.inv
  obtain ⟨hc, s, -⟩ := I.facts hi
  have h0 := seqs_head I hi
  obtain ⟨L, hL, h2, h3, h4, h5⟩ := I.seq hi h0
  have nd := (List.nodup_cons.1 (I.seq_nodup hi h0)).2
  obtain ⟨a, e1, e2⟩ := new_spec nd junk
  have hz : a.size = c.elems.length := by rw [← begin_size]; exact e2.size
  have hcost := saveIndices_cost S (n := c.budget) h4 s.ok s.fit hz
  unfold saveTime
  simp only [hi]
  cases hls : c.ls with
  | nil => exact absurd hls s.ne
  | cons M ls =>
    rw [hls] at hL
    obtain rfl : M = L := by simpa using hL
    simp only [Layer.walk_spec h2 h4, s.count, e1]
    rw [hls] at hcost
    have ea : c.asked = specs (M :: ls) := by rw [← hls]; rfl
    rw [ea]
    have : (if a.sorted = true then 0 else S c.elems.length) ≤ S c.elems.length := by split <;> omega
    omega

/-! ## The size of the archive -/

theorem saveFrom_size (o : Id → Bool) : ∀ (xs : List Id) (prev : Id) (ls : Nat),
    (saveFrom o prev ls xs).length ≤ 3 * (xs.filter fun x => !o x).length + 1 + (if ls ≤ 2 then 1 else 0)
  | [], prev, ls => by
    simp only [saveFrom, saveLoop]
    by_cases h : ls ≤ 2 <;> simp [h]
  | x :: xs, prev, ls => by
    cases h : o x with
    | false =>
      have := saveFrom_size o xs x 1
      rw [saveFrom_disp h]
      simp only [List.length_append, List.length_cons, List.filter_cons, h, Bool.not_false, if_true]
      simp only [Nat.one_le_ofNat, if_true] at this
      split <;> split <;> simp <;> omega
    | true =>
      have := saveFrom_size o xs x (ls + 1)
      rw [saveFrom_ord h]
      simp only [List.length_append, List.filter_cons, h, Bool.not_true, Bool.false_eq_true, if_false]
      by_cases h2 : ls = 2
      · subst h2
        simp at this ⊢
        omega
      · by_cases h3 : ls ≤ 1
        · have h4 : ls + 1 ≤ 2 := by omega
          have h5 : ls ≤ 2 := by omega
          simp only [h2, h4, h5, if_true, if_false, List.length_nil] at this ⊢
          omega
        · have h4 : ¬ ls + 1 ≤ 2 := by omega
          have h5 : ¬ ls ≤ 2 := by omega
          simp only [h2, h4, h5, if_false, List.length_nil] at this ⊢
          omega

theorem filter_not_length (o : Id → Bool) (xs : List Id) : (xs.filter o).length + (xs.filter fun x => !o x).length = xs.length := by
  induction xs with
  | nil => rfl
  | cons x xs ih =>
    simp only [List.filter_cons]
    cases o x <;> simp <;> omega

theorem saveIndices_size {val : Id → V} {hd : Id} {b : List Id} {n : Nat} (hb : b.Nodup) (hn : b.length + 3 ≤ n) :
    ∀ {Ls : List (Layer V)} {xss : List (List Id)} {a : Alg}, OkAll (specs Ls) → Fit val hd b Ls xss → Ready a.begin b →
      ∃ ts ds, saveIndices n hd val a Ls = some ts ∧ List.Forall₂ (Fewest b) (orders val (specs Ls) xss) ds ∧ ts.length ≤ (ds.map fun d => 3 * d + 1).sum
  | [], xss, a, _, f, _ => by rw [f.nil']; exact ⟨[], [], rfl, .nil, Nat.le_refl _⟩
  | L :: Ls, xss, a, ok, f, hr => by
    obtain ⟨xs, yss, rfl, h, p, f2⟩ := f.cases
    show ∃ ts ds, _ ∧ List.Forall₂ (Fewest b) (orders val (L.spec :: specs Ls) (xs :: yss)) ds ∧ _
    simp only [saveIndices]
    rw [hasStream_spec]
    cases hs : Rearranged L.spec with
    | false =>
      simp only [Bool.false_eq_true, if_false, orders, List.zip_cons_cons, List.filter_cons, hs]
      exact saveIndices_size hb hn ok.tail f2 hr
    | true =>
      simp only [if_true]
      have hl := listing_spec (n := n) ok.head h (by rw [p.length_eq]; exact hn) (by rw [hasStream_spec, hs])
      have sub := listed_sublist val xs L.spec
      obtain ⟨a', e1, e2, e3, e4, e7⟩ := execute_spec (xs := listed val xs L.spec) hr hb (fun x hx => p.mem_iff.1 (sub.subset hx))
        ((p.nodup_iff.2 hb).sublist sub)
      obtain ⟨us, ds, e5, e6, e8⟩ := saveIndices_size hb hn ok.tail f2 (begin_of_ready e2)
      have hall : ∀ x ∈ listed val xs L.spec, a'.isOrdered x ≠ none := by
        intro x hx
        obtain ⟨o, ho⟩ := e3 x (p.mem_iff.1 (sub.subset hx))
        rw [ho]
        exact fun h => nomatch h
      have ho : (fun x => a'.isOrdered x == some true) = fun x => decide (a'.isOrdered x = some true) := by
        funext x
        cases a'.isOrdered x with
        | none => rfl
        | some o => cases o <;> rfl
      simp only [hl, Alg.save, e1, if_pos hall, e5]
      have l1 := saveFrom_size (fun x => a'.isOrdered x == some true) (listed val xs L.spec) ((listed val xs L.spec).headD 0) 3
      have l2 := filter_not_length (fun x => a'.isOrdered x == some true) (listed val xs L.spec)
      rw [← ho] at e4 e7
      refine ⟨_, ((listed val xs L.spec).filter fun x => !(a'.isOrdered x == some true)).length :: ds, rfl, ?_, ?_⟩
      · simp only [orders, List.zip_cons_cons, List.filter_cons, hs, if_true, List.map_cons]
        exact .cons ⟨⟨_, List.filter_sublist, e4, l2⟩, fun T t1 t2 => by have := e7 T t1 t2; omega⟩ e6
      · simp only [List.length_append, List.map_cons, List.sum_cons]
        rw [if_neg (by decide)] at l1
        omega

/-- The number of pointers in an archive. -/
theorem save_size (r : Reach w) (hi : w.cs[i]? = some c) (junk : Alg) :
    ∃ A ds, save w i junk = some A ∧ List.Forall₂ (Fewest c.elems) (orders w.m.val c.asked c.seqs) ds ∧ A.ptrs.length ≤ (ds.map fun d => 3 * d + 1).sum := by
  have I := r.inv
  obtain ⟨hc, s, -⟩ := I.facts hi
  have h0 := seqs_head I hi
  obtain ⟨L, hL, h2, h3, h4, h5⟩ := I.seq hi h0
  have nd := (List.nodup_cons.1 (I.seq_nodup hi h0)).2
  obtain ⟨a, e1, e2⟩ := new_spec nd junk
  obtain ⟨ts, ds, e3, e4, e5⟩ := saveIndices_size (n := c.budget) nd h4 s.ok s.fit e2
  refine ⟨⟨c.count, c.elems.map w.m.val, ts.map (Option.map fun x => c.elems.idxOf x)⟩, ds, ?_, e4, by simpa using e5⟩
  unfold save
  simp only [hi]
  cases hls : c.ls with
  | nil => exact absurd hls s.ne
  | cons M ls =>
    rw [hls] at hL
    obtain rfl : M = L := by simpa using hL
    simp only [Layer.walk_spec h2 h4, s.count, e1]
    rw [hls] at e3
    simp only [e3]

/-- There is a null pointer at the end of what is written for an index. -/
theorem streams_nulls {val : Id → V} {b : List Id} : ∀ {Ss : List (Spec V)} {xss : List (List Id)} {ts : List (Option Id)}, Streams val b Ss xss ts →
    (Ss.filter Rearranged).length ≤ ts.length ∧ (ts.length ≤ (Ss.filter Rearranged).length → ts = List.replicate (Ss.filter Rearranged).length none)
  | [], [], ts, h => by
    obtain rfl : ts = [] := h
    exact ⟨Nat.le_refl _, fun _ => rfl⟩
  | S :: Ss, xs :: xss, ts, h => by
    simp only [Streams] at h
    cases hs : Rearranged S with
    | false =>
      simp only [hs, Bool.false_eq_true, if_false] at h
      simp only [List.filter_cons, hs, Bool.false_eq_true, if_false]
      exact streams_nulls h
    | true =>
      simp only [hs, if_true] at h
      obtain ⟨o, us, e, -, h2⟩ := h
      obtain ⟨k1, k2⟩ := streams_nulls h2
      simp only [List.filter_cons, hs, if_true, List.length_cons]
      subst e
      unfold saveFrom
      simp only [List.length_append, List.length_singleton]
      refine ⟨by omega, fun hle => ?_⟩
      have z1 : (saveLoop o ((listed val xs S).headD 0) 3 (listed val xs S)).1 = [] := List.length_eq_zero_iff.1 (by omega)
      have z2 : (if (saveLoop o ((listed val xs S).headD 0) 3 (listed val xs S)).2 ≤ 2 then [(none : Option Id)] else []) = [] := List.length_eq_zero_iff.1 (by omega)
      rw [z1, z2, k2 (by omega)]
      rfl
  | [], _ :: _, _, h => h.elim
  | _ :: _, [], _, h => h.elim

end MI.Ser
