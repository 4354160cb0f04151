import Verif.Seq.Sort
import Verif.Seq.Prims
import Verif.Spec.Order
import Mathlib.Tactic.Ring
/-! Correctness of the pointer level sort (helper lemmas). -/
namespace MI.Seq
open MI

/-- List level collate: success flag, list left at `x`, list left at `y`, number of comparisons. -/
def collateL (cmp : Cmp) : Nat → List Id → List Id → Bool × List Id × List Id × Nat
  | k, [], ys => (true, ys, [], k)
  | k, x :: xs, [] => (true, x :: xs, [], k)
  | k, x :: xs, y :: ys =>
    match cmp k y x with
    | none => (false, x :: xs, y :: ys, k + 1)
    | some true => let r := collateL cmp (k + 1) (x :: xs) ys; (r.1, y :: r.2.1, r.2.2)
    | some false => let r := collateL cmp (k + 1) xs (y :: ys); (r.1, x :: r.2.1, r.2.2)
  termination_by _ xs ys => xs.length + ys.length

/-- Turn a success flag into an outcome. -/
def mkOut {α : Type _} (b : Bool) (s : α) : Out α := if b then .ok s else .threw s

theorem hdOr_eq_iff {h : Heap} {a : Id} {xs : List Id} (hc : Circ h a (xs)) : hdOr a xs = a ↔ xs = [] := by
  cases xs with
  | nil => simp [hdOr]
  | cons x r =>
    simp only [hdOr, List.headD_cons, reduceCtorEq, iff_false]
    rintro rfl; exact (List.nodup_cons.1 hc.1).1 (by simp)

theorem hdOr_eq_iff' {a : Id} {xs : List Id} (hc : a ∉ xs) : hdOr a xs = a ↔ xs = [] := by
  cases xs with
  | nil => simp [hdOr]
  | cons x r =>
    simp only [hdOr, List.headD_cons, reduceCtorEq, iff_false]
    rintro rfl; exact hc (by simp)

theorem Fam.swap {h : Heap} {A B : Id × List Id} {R : List (Id × List Id)} (hf : Fam h (A :: B :: R)) :
    Fam h (B :: A :: R) := hf.perm (List.Perm.swap _ _ _)

theorem collateGo_spec (cmp : Cmp) {a c : Id} {R : List (Id × List Id)} :
    ∀ (n : Nat) (h : Heap) (k : Nat) (dn xs ys : List Id),
    Fam h ((a, dn ++ xs) :: (c, ys) :: R) → xs.length + ys.length ≤ n →
    ∃ h', collateGo cmp a c n h k (hdOr a xs) (hdOr c ys) =
        mkOut (collateL cmp k xs ys).1 (h', (collateL cmp k xs ys).2.2.2) ∧
      Fam h' ((a, dn ++ (collateL cmp k xs ys).2.1) :: (c, (collateL cmp k xs ys).2.2.1) :: R) := by
  intro n
  induction n with
  | zero =>
    intro h k dn xs ys hf hn
    obtain ⟨rfl, rfl⟩ : xs = [] ∧ ys = [] := by
      cases xs <;> cases ys <;> simp at hn ⊢
    unfold collateGo
    simp only [hdOr, List.headD_nil, ne_eq, not_true_eq_false, false_and, if_false]
    refine ⟨_, by simp [collateL, mkOut]; rfl, ?_⟩
    simp only [collateL, Heap.relinkRange, ne_eq, not_true_eq_false, if_false]
    exact hf
  | succ n ih =>
    intro h k dn xs ys hf hn
    have hca : Circ h a (dn ++ xs) := hf.circ (by simp)
    have hcc : Circ h c ys := hf.circ (by simp)
    have hax : a ∉ xs := by have := hca.1; simp at this; tauto
    have hcy : c ∉ ys := by have := hcc.1; simp at this; tauto
    unfold collateGo
    cases xs with
    | nil =>
      rw [if_neg (by simp [hdOr])]
      refine ⟨_, by simp [collateL, mkOut]; rfl, ?_⟩
      have := fam_relinkRange_cross (a := c) (c := a) (u := []) (blk := ys) (v := []) (s := dn) (t := [])
        (R := R) (h := h) (by simpa using hf.swap)
      simp [collateL]
      simpa [hdOr] using this.swap
    | cons x xs =>
      cases ys with
      | nil =>
        rw [if_neg (by simp [hdOr])]
        refine ⟨_, by simp [collateL, mkOut]; rfl, ?_⟩
        simp only [collateL, Heap.relinkRange, hdOr, List.headD_nil, ne_eq, not_true_eq_false, if_false]
        exact hf
      | cons y ys =>
        have hx : hdOr a (x :: xs) = x := rfl
        have hy : hdOr c (y :: ys) = y := rfl
        rw [hx, hy, if_pos ⟨fun e => hax (by simp [e]), fun e => hcy (by simp [e])⟩]
        simp only [collateL]
        cases hcmp : cmp k y x with
        | none => exact ⟨h, by simp [mkOut], by simpa using hf⟩
        | some b =>
          cases b with
          | true =>
            have nx := nextOf_ne (u := []) (by simpa using hcc)
            have f1 := fam_relink_cross (a := c) (c := a) (u := []) (x := y) (v := ys) (s := dn)
              (t := x :: xs) (R := R) (h := h) (by simpa using hf.swap)
            obtain ⟨h', e', f'⟩ := ih (h.relink x y) (k + 1) (dn ++ [y]) (x :: xs) ys
              (by simpa [hdOr] using f1.swap) (by simp at hn ⊢; omega)
            simp only []
            rw [nx.2.1]
            refine ⟨h', e', by simpa using f'⟩
          | false =>
            have nx := nextOf_ne (u := dn) hca
            obtain ⟨h', e', f'⟩ := ih h (k + 1) (dn ++ [x]) xs (y :: ys)
              (by simpa using hf) (by simp at hn ⊢; omega)
            simp only []
            rw [nx.2.1]
            refine ⟨h', e', by simpa using f'⟩

theorem collateL_perm (cmp : Cmp) (k : Nat) (xs ys : List Id) :
    ((collateL cmp k xs ys).2.1 ++ (collateL cmp k xs ys).2.2.1).Perm (xs ++ ys) := by
  fun_induction collateL cmp k xs ys with
  | case1 => simp
  | case2 => simp
  | case3 => simp
  | case4 k x xs y ys hc r ih =>
    simp only [List.cons_append] at ih ⊢
    exact (ih.cons y).trans (List.perm_middle (l₁ := x :: xs)).symm
  | case5 k x xs y ys hc r ih =>
    exact ih.cons x

theorem collateL_ok (cmp : Cmp) (k : Nat) (xs ys : List Id) (h : (collateL cmp k xs ys).1 = true) :
    (collateL cmp k xs ys).2.2.1 = [] := by
  fun_induction collateL cmp k xs ys with
  | case1 => rfl
  | case2 => rfl
  | case3 => simp at h
  | case4 k x xs y ys hc r ih => exact ih h
  | case5 k x xs y ys hc r ih => exact ih h

theorem collateL_count (cmp : Cmp) (k : Nat) (xs ys : List Id) :
    (collateL cmp k xs ys).2.2.2 ≤ k + (xs.length + ys.length) := by
  fun_induction collateL cmp k xs ys with
  | case1 => simp
  | case2 => simp
  | case3 => simp; omega
  | case4 k x xs y ys hc r ih => simp only [List.length_cons] at ih ⊢; change (collateL cmp (k + 1) (x :: xs) ys).2.2.2 ≤ _; omega
  | case5 k x xs y ys hc r ih => simp only [List.length_cons] at ih ⊢; change (collateL cmp (k + 1) xs (y :: ys)).2.2.2 ≤ _; omega

/-- A list of lists, each element weighted with the position of its list counted from `i`. -/
def weight : Nat → List (List Id) → Nat
  | _, [] => 0
  | i, l :: K => l.length * i + weight (i + 1) K

theorem weight_append (i : Nat) (K L : List (List Id)) : weight i (K ++ L) = weight i K + weight (i + K.length) L := by
  induction K generalizing i with
  | nil => simp [weight]
  | cons c K ih => simp [weight, ih, Nat.add_assoc, Nat.add_comm 1]

theorem weight_replicate (i n : Nat) : weight i (List.replicate n []) = 0 := by
  induction n generalizing i with
  | zero => rfl
  | succ n ih => simp [List.replicate_succ, weight, ih]

theorem weight_le (i : Nat) (K : List (List Id)) : weight i K ≤ K.flatten.length * (i + K.length) := by
  induction K generalizing i with
  | nil => simp [weight]
  | cons c K ih =>
    have h1 := ih (i + 1)
    simp only [weight, List.flatten_cons, List.length_append, List.length_cons]
    rw [show i + (K.length + 1) = i + 1 + K.length by omega, Nat.add_mul]
    have : c.length * i ≤ c.length * (i + 1 + K.length) := Nat.mul_le_mul_left _ (by omega)
    omega

/-- Non-empty counters hold a power of two of elements. -/
def PowK : Nat → List (List Id) → Prop
  | _, [] => True
  | i, l :: K => (l = [] ∨ l.length = 2 ^ i) ∧ PowK (i + 1) K

theorem collateL_total (cmp : Cmp) (ht : ∀ k x y, (cmp k x y).isSome) (k : Nat) (xs ys : List Id) :
    (collateL cmp k xs ys).1 = true := by
  fun_induction collateL cmp k xs ys with
  | case1 => rfl
  | case2 => rfl
  | case3 k x xs y ys hc => have := ht k y x; simp [hc] at this
  | case4 k x xs y ys hc r ih => exact ih
  | case5 k x xs y ys hc r ih => exact ih

theorem collateL_sorted (cmp : Cmp) {lt : Id → Id → Bool} (hl : StrictWeak lt)
    (ht : ∀ k x y, cmp k x y = some (lt x y)) (k : Nat) (xs ys : List Id)
    (hx : Sorted lt xs) (hy : Sorted lt ys) : Sorted lt (collateL cmp k xs ys).2.1 := by
  fun_induction collateL cmp k xs ys with
  | case1 => exact hy
  | case2 => exact hx
  | case3 k x xs y ys hc => rw [ht] at hc; cases hc
  | case4 k x xs y ys hc r ih =>
    have hy' := List.pairwise_cons.1 hy
    refine List.pairwise_cons.2 ⟨?_, ih hx hy'.2⟩
    intro w hw
    have hm : w ∈ x :: xs ++ ys :=
      (collateL_perm cmp (k+1) (x :: xs) ys).mem_iff.1 (List.mem_append_left _ hw)
    have hlt : lt y x = true := by rw [ht] at hc; simpa using hc
    rcases List.mem_append.1 hm with hm | hm
    · rcases List.mem_cons.1 hm with rfl | hm
      · exact hl.asymm hlt
      · exact hl.le_trans (hl.asymm hlt) ((List.pairwise_cons.1 hx).1 w hm)
    · exact hy'.1 w hm
  | case5 k x xs y ys hc r ih =>
    have hx' := List.pairwise_cons.1 hx
    refine List.pairwise_cons.2 ⟨?_, ih hx'.2 hy⟩
    intro w hw
    have hm : w ∈ xs ++ y :: ys :=
      (collateL_perm cmp (k+1) xs (y :: ys)).mem_iff.1 (List.mem_append_left _ hw)
    have hlt : lt y x = false := by rw [ht] at hc; simpa using hc
    rcases List.mem_append.1 hm with hm | hm
    · exact hx'.1 w hm
    · rcases List.mem_cons.1 hm with rfl | hm
      · exact hlt
      · exact hl.le_trans hlt ((List.pairwise_cons.1 hy).1 w hm)

theorem collate_spec (cmp : Cmp) {a c : Id} {R : List (Id × List Id)} {n : Nat} {h : Heap} {k : Nat}
    {xs ys : List Id} (hf : Fam h ((a, xs) :: (c, ys) :: R)) (hn : xs.length + ys.length ≤ n) :
    ∃ h', collate cmp n h k a c =
        mkOut (collateL cmp k xs ys).1 (h', (collateL cmp k xs ys).2.2.2) ∧
      Fam h' ((a, (collateL cmp k xs ys).2.1) :: (c, (collateL cmp k xs ys).2.2.1) :: R) := by
  have hca : Circ h a xs := hf.circ (by simp)
  have hcc : Circ h c ys := hf.circ (by simp)
  have s1 := seg_split (h := h) (a := a) (u := []) (v := xs) hca.2
  have s2 := seg_split (h := h) (a := c) (u := []) (v := ys) hcc.2
  have e1 : h.next a = hdOr a xs := s1.1
  have e2 : h.next c = hdOr c ys := s2.1
  have := collateGo_spec cmp n h k [] xs ys (by simpa using hf) hn
  simpa only [collate, e1, e2, List.nil_append] using this

/-! ### carry loop -/

/-- The counters `counter[i], counter[i+1], …` holding the lists `K`. -/
def cfam (cid : Nat → Id) : Nat → List (List Id) → List (Id × List Id)
  | _, [] => []
  | i, c :: K => (cid i, c) :: cfam cid (i + 1) K

theorem cfam_append (cid : Nat → Id) (i : Nat) (K L : List (List Id)) :
    cfam cid i (K ++ L) = cfam cid i K ++ cfam cid (i + K.length) L := by
  induction K generalizing i with
  | nil => simp [cfam]
  | cons c K ih => simp [cfam, ih, Nat.add_assoc, Nat.add_comm 1]

theorem Fam.float {h : Heap} {A : Id × List Id} {L R : List (Id × List Id)} :
    Fam h (L ++ A :: R) ↔ Fam h (A :: (L ++ R)) :=
  ⟨fun hf => hf.perm List.perm_middle, fun hf => hf.perm List.perm_middle.symm⟩

theorem carryGo_spec (cmp : Cmp) {carry : Id} {cid : Nat → Id} {N : Nat} (K : List (List Id)) :
    ∀ {R : List (Id × List Id)} {h : Heap} {k i : Nat} {C : List Id},
    Fam h ((carry, C) :: (cfam cid i K ++ R)) → C.length + K.flatten.length ≤ N →
    (∃ h' k' C' N1 K2, carryGo cmp N carry cid K.length i h k = .ok (h', k', i + N1.length) ∧
      K = N1 ++ K2 ∧ (∀ l ∈ N1, l ≠ []) ∧ (∀ l, K2.head? = some l → l = []) ∧
      C'.Perm (C ++ N1.flatten) ∧
      Fam h' ((carry, C') :: (cfam cid i (List.replicate N1.length [] ++ K2) ++ R)) ∧
      (∀ lt, StrictWeak lt → (∀ k x y, cmp k x y = some (lt x y)) → Sorted lt C → (∀ l ∈ K, Sorted lt l) →
        Sorted lt C') ∧
      (C.length = 2 ^ i → PowK i K → k' + 2 ^ i * i + weight i N1 ≤ k + 2 ^ (i + N1.length) * (i + N1.length))) ∨
    (∃ h' k' C' K' j, carryGo cmp N carry cid K.length i h k = .threw (h', k', j) ∧
      K'.length = K.length ∧ (C' ++ K'.flatten).Perm (C ++ K.flatten) ∧
      Fam h' ((carry, C') :: (cfam cid i K' ++ R)) ∧ (∃ k x y, cmp k x y = none) ∧
      (C.length = 2 ^ i → PowK i K →
        k' + 2 ^ i * i + weight i K ≤ k + (C.length + K.flatten.length) * (i + K.length))) := by
  induction K with
  | nil =>
    intro R h k i C hf hn
    left
    exact ⟨h, k, C, [], [], by simp [carryGo], rfl, by simp, by simp, by simp, by simpa using hf,
      fun _ _ _ hC _ => hC, by simp [weight]⟩
  | cons K0 K ih =>
    intro R h k i C hf hn
    have hf' : Fam h ((carry, C) :: (cid i, K0) :: (cfam cid (i + 1) K ++ R)) := by simpa [cfam] using hf
    have hc : Circ h (cid i) K0 := hf'.circ (by simp)
    by_cases h0 : K0 = []
    · left
      have e : h.next (cid i) = cid i := (seg_nil_iff hc).2 h0
      refine ⟨h, k, C, [], K0 :: K, by simp [carryGo, e], rfl, by simp, by simp [h0], by simp, by simpa using hf,
        fun _ _ _ hC _ => hC, by simp [weight]⟩
    · have e : h.next (cid i) ≠ cid i := fun e => h0 ((seg_nil_iff hc).1 e)
      obtain ⟨h1, e1, f1⟩ := collate_spec cmp (n := N) (k := k) hf' (by simp at hn; omega)
      have pm := collateL_perm cmp k C K0
      have hso := fun lt hl ht => collateL_sorted cmp (lt := lt) hl ht k C K0
      have hok := collateL_ok cmp k C K0
      have hct := collateL_count cmp k C K0
      generalize hr : collateL cmp k C K0 = r at e1 f1 pm hok hct
      obtain ⟨b, A, B, k1⟩ := r
      cases b with
      | false =>
        right
        refine ⟨h1, k1, A, B :: K, i + 1, ?_, rfl, ?_, by simpa [cfam] using f1, ?_, ?_⟩
        · simp [carryGo, e, e1, mkOut]
        · simp only [List.flatten_cons, ← List.append_assoc]; exact pm.append_right _
        · by_contra hno
          have := collateL_total cmp (fun k x y => by
            cases hh : cmp k x y with
            | none => exact absurd ⟨k, x, y, hh⟩ hno
            | some _ => rfl) k C K0
          rw [hr] at this; simp at this
        · intro hC hp
          have hK0 : K0.length = 2 ^ i := hp.1.resolve_left h0
          have hw := weight_le (i + 1) K
          have hct' : k1 ≤ k + (C.length + K0.length) := hct
          simp only [weight, List.flatten_cons, List.length_append, List.length_cons]
          rw [hC, hK0] at hct'
          rw [show i + (K.length + 1) = i + 1 + K.length by omega, hC, hK0]
          have e1 : (2 ^ i + (2 ^ i + K.flatten.length)) * (i + 1 + K.length) =
            (2 ^ i + 2 ^ i) * (i + 1 + K.length) + K.flatten.length * (i + 1 + K.length) := by ring
          have e2 : (2 ^ i + 2 ^ i) * (i + 1) ≤ (2 ^ i + 2 ^ i) * (i + 1 + K.length) := Nat.mul_le_mul_left _ (by omega)
          have e3 : (2 ^ i + 2 ^ i) * (i + 1) = 2 ^ i * i + 2 ^ i * i + (2 ^ i + 2 ^ i) := by ring
          omega
      | true =>
        have hB : B = [] := hok rfl
        subst hB
        simp only [List.append_nil] at pm
        have f2 : Fam h1 ((carry, A) :: (cfam cid (i + 1) K ++ (cid i, []) :: R)) := by
          refine f1.perm ?_
          exact (List.perm_middle.symm).cons _
        have hlen : A.length + K.flatten.length ≤ N := by
          have := pm.length_eq; simp at this hn ⊢; omega
        rcases ih (k := k1) f2 hlen with
          ⟨h', k', C', N1, K2, g1, g2, g3, g4, g5, g6, g7, g8⟩ | ⟨h', k', C', K', j, g1, g2, g3, g4, g5, g6⟩
        · left
          refine ⟨h', k', C', K0 :: N1, K2, ?_, by simp [g2], by simp [h0]; exact g3, g4, ?_, ?_, ?_, ?_⟩
          · simp [carryGo, e, e1, mkOut, g1, Nat.add_assoc, Nat.add_comm 1]
          · refine g5.trans ?_
            simp only [List.flatten_cons, ← List.append_assoc]; exact pm.append_right _
          · refine g6.perm ?_
            simp only [List.length_cons, List.replicate_succ, List.cons_append, cfam]
            exact List.perm_middle.cons _
          · intro lt hl ht hC hK
            refine g7 lt hl ht ?_ (fun l hm => hK l (by simp [hm]))
            have := hso lt hl ht hC (hK K0 (by simp))
            rw [hr] at this; exact this
          · intro hC hp
            have hK0 : K0.length = 2 ^ i := hp.1.resolve_left h0
            have hA : A.length = 2 ^ (i + 1) := by
              rw [pm.length_eq, List.length_append, hC, hK0, Nat.pow_succ]; omega
            have := g8 hA hp.2
            have hct' : k1 ≤ k + (C.length + K0.length) := hct
            simp only [weight, List.length_cons]
            rw [show i + (N1.length + 1) = i + 1 + N1.length by omega, hC, hK0] at *
            have e3 : 2 ^ (i + 1) * (i + 1) = 2 ^ i * i + 2 ^ i * i + (2 ^ i + 2 ^ i) := by ring
            omega
        · right
          refine ⟨h', k', C', [] :: K', j, ?_, by simp [g2], ?_, ?_, g5, ?_⟩
          · simp [carryGo, e, e1, mkOut, g1]
          · simp only [List.flatten_cons, List.nil_append, ← List.append_assoc]
            exact g3.trans (pm.append_right _)
          · refine g4.perm ?_
            simp only [List.cons_append, cfam]
            exact List.perm_middle.cons _
          · intro hC hp
            have hK0 : K0.length = 2 ^ i := hp.1.resolve_left h0
            have hA : A.length = 2 ^ (i + 1) := by
              rw [pm.length_eq, List.length_append, hC, hK0, Nat.pow_succ]; omega
            have := g6 hA hp.2
            have hct' : k1 ≤ k + (C.length + K0.length) := hct
            simp only [weight, List.flatten_cons, List.length_append, List.length_cons]
            rw [hA] at this
            rw [show i + (K.length + 1) = i + 1 + K.length by omega, hC, hK0] at *
            have e3 : 2 ^ (i + 1) * (i + 1) = 2 ^ i * i + 2 ^ i * i + (2 ^ i + 2 ^ i) := by ring
            have e1 : (2 ^ i + (2 ^ i + K.flatten.length)) * (i + 1 + K.length) =
              (2 ^ (i + 1) + K.flatten.length) * (i + 1 + K.length) := by ring
            omega

/-! ### main loop -/

theorem fam_emptyInit {h : Heap} {L : List (Id × List Id)} {x : Id} (hf : Fam h L) (hx : x ∉ famIds L) :
    Fam (h.emptyInit x) ((x, []) :: L) := by
  refine ⟨?_, ?_⟩
  · simp only [famIds, List.flatMap_cons, List.cons_append, List.nil_append, List.nodup_cons]
    exact ⟨hx, hf.1⟩
  · intro p hp
    rcases List.mem_cons.1 hp with rfl | hp
    · simp [Seg, Heap.emptyInit, Heap.setNext, Heap.setPrior]
    · have hne : ∀ w ∈ p.1 :: p.2, w ≠ x := fun w hw e => hx (List.mem_flatMap.2 ⟨p, hp, e ▸ hw⟩)
      refine Seg_congr ?_ ?_ (hf.2 p hp)
      · intro w hw; simp [Heap.emptyInit, Heap.setNext, Heap.setPrior, upd_other _ _ (hne w hw)]
      · intro w hw
        simp [Heap.emptyInit, Heap.setNext, Heap.setPrior, upd_other _ _ (hne w (by simp at hw ⊢; tauto))]

theorem famIds_append (L L' : List (Id × List Id)) : famIds (L ++ L') = famIds L ++ famIds L' := by
  simp [famIds]

theorem mem_famIds_cfam {cid : Nat → Id} {w : Id} (K : List (List Id)) : ∀ {i : Nat},
    w ∈ famIds (cfam cid i K) ↔ (∃ j, i ≤ j ∧ j < i + K.length ∧ w = cid j) ∨ w ∈ K.flatten := by
  induction K with
  | nil => intro i; simp [cfam, famIds]; omega
  | cons c K ih =>
    intro i
    have : famIds (cfam cid i (c :: K)) = cid i :: c ++ famIds (cfam cid (i + 1) K) := by
      simp [cfam, famIds]
    rw [this]
    simp only [List.cons_append, List.mem_cons, List.mem_append, ih, List.flatten_cons, List.length_cons]
    constructor
    · rintro (h | h | ⟨j, h1, h2, h3⟩ | h)
      · exact Or.inl ⟨i, by omega, by omega, h⟩
      · exact Or.inr (Or.inl h)
      · exact Or.inl ⟨j, by omega, by omega, h3⟩
      · exact Or.inr (Or.inr h)
    · rintro (⟨j, h1, h2, h3⟩ | h | h)
      · by_cases hj : j = i
        · subst hj; exact Or.inl h3
        · exact Or.inr (Or.inr (Or.inl ⟨j, by omega, by omega, h3⟩))
      · exact Or.inr (Or.inl h)
      · exact Or.inr (Or.inr (Or.inr h))

theorem PowK_append (i : Nat) (K L : List (List Id)) :
    PowK i (K ++ L) ↔ PowK i K ∧ PowK (i + K.length) L := by
  induction K generalizing i with
  | nil => simp [PowK]
  | cons c K ih => simp [PowK, ih, Nat.add_assoc, Nat.add_comm 1, and_assoc]

theorem PowK_replicate (i n : Nat) : PowK i (List.replicate n []) := by
  induction n generalizing i with
  | zero => trivial
  | succ n ih => exact ⟨Or.inl rfl, ih _⟩

theorem PowK_sum (i : Nat) (K : List (List Id)) (hp : PowK i K) (hne : ∀ l ∈ K, l ≠ []) :
    K.flatten.length + 2 ^ i = 2 ^ (i + K.length) := by
  induction K generalizing i with
  | nil => simp
  | cons c K ih =>
    have := ih (i + 1) hp.2 (fun l hl => hne l (by simp [hl]))
    have hc : c.length = 2 ^ i := by
      rcases hp.1 with h | h
      · exact absurd h (hne c (by simp))
      · exact h
    simp only [List.flatten_cons, List.length_append, List.length_cons]
    rw [show i + (K.length + 1) = i + 1 + K.length by omega, ← this, hc, Nat.pow_succ]
    omega

/-- Everything the main loop preserves. -/
structure LoopInv (cid : Nat → Id) (header carry : Id) (orig : List Id) (R : List (Id × List Id))
    (h : Heap) (H : List Id) (K : List (List Id)) : Prop where
  fam : Fam h ((header, H) :: (carry, []) :: (cfam cid 0 (K ++ [[]]) ++ R))
  perm : (H ++ K.flatten).Perm orig
  pow : PowK 0 K
  top : ∀ l, K.getLast? = some l → l ≠ []

/-- Hypotheses on the addresses of the local nodes: distinct and different from all other nodes. -/
structure Locals (cid : Nat → Id) (header carry : Id) (orig : List Id) (R : List (Id × List Id)) : Prop where
  inj : ∀ i j, cid i = cid j → i = j
  fresh : ∀ i, cid i ∉ header :: carry :: (orig ++ famIds R)

theorem fill_bound {K : List (List Id)} {orig : List Id} (hp : PowK 0 K)
    (ht : ∀ l, K.getLast? = some l → l ≠ []) (hl : K.flatten.length ≤ orig.length) :
    K = [] ∨ 2 ^ (K.length - 1) ≤ orig.length := by
  rcases List.eq_nil_or_concat K with rfl | ⟨K', l, rfl⟩
  · exact Or.inl rfl
  · right
    simp only [List.concat_eq_append] at *
    rw [PowK_append] at hp
    have hl' : l ≠ [] := ht l (by simp)
    have : l.length = 2 ^ K'.length := by
      rcases hp.2.1 with h | h
      · exact absurd h hl'
      · simpa using h
    simp at hl ⊢
    omega

theorem sortGo_spec (cmp : Cmp) {header carry : Id} {cid : Nat → Id} {N W : Nat} {orig : List Id}
    {R : List (Id × List Id)} (hloc : Locals cid header carry orig R) (hN : orig.length ≤ N)
    (hW : orig.length < 2 ^ W) :
    ∀ (n : Nat) (h : Heap) (k : Nat) (H : List Id) (K : List (List Id)),
    LoopInv cid header carry orig R h H K → H.length ≤ n →
    (∃ h' k' K', sortGo cmp N (W + 1) header carry cid n h k K.length = .ok (h', k', K'.length) ∧
      LoopInv cid header carry orig R h' [] K' ∧ (H ≠ [] ∨ K ≠ [] → K' ≠ []) ∧
      (∀ lt, StrictWeak lt → (∀ k x y, cmp k x y = some (lt x y)) → (∀ l ∈ K, Sorted lt l) →
        (∀ l ∈ K', Sorted lt l)) ∧ (k ≤ weight 0 K → k' ≤ weight 0 K')) ∨
    (∃ h' k' H' C' K', sortGo cmp N (W + 1) header carry cid n h k K.length = .threw (h', k', K'.length) ∧
      (H' ++ C' ++ K'.flatten).Perm orig ∧
      Fam h' ((header, H') :: (carry, C') :: (cfam cid 0 (K' ++ [[]]) ++ R)) ∧
      (∃ k x y, cmp k x y = none) ∧
      (k ≤ weight 0 K → k' ≤ orig.length * K'.length ∧ (K' = [] ∨ 2 ^ (K'.length - 1) ≤ orig.length))) := by
  intro n
  induction n with
  | zero =>
    intro h k H K inv hn
    have h0 : H = [] := by cases H <;> simp at hn ⊢
    subst h0
    have hc : Circ h header [] := inv.fam.circ (by simp)
    left
    refine ⟨h, k, K, ?_, inv, by simp, fun _ _ _ hs => hs, id⟩
    unfold sortGo
    rw [if_neg (by simp [(seg_nil_iff hc).2 rfl])]
  | succ n ih =>
    intro h k H K inv hn
    have hc : Circ h header H := inv.fam.circ (by simp)
    have hcc : Circ h carry [] := inv.fam.circ (by simp)
    cases H with
    | nil =>
      left
      refine ⟨h, k, K, ?_, inv, by simp, fun _ _ _ hs => hs, id⟩
      unfold sortGo
      rw [if_neg (by simp [(seg_nil_iff hc).2 rfl])]
    | cons x H =>
      have hx : h.next header = x := hc.2.1
      have hcn : h.next carry = carry := (seg_nil_iff hcc).2 rfl
      have hxh : h.next header ≠ header := fun e => by have := (seg_nil_iff hc).1 e; simp at this
      have f1 : Fam (h.relink carry x) ((header, H) :: (carry, [x]) :: (cfam cid 0 (K ++ [[]]) ++ R)) := by
        have := fam_relink_cross (a := header) (c := carry) (u := []) (x := x) (v := H) (s := []) (t := [])
          (by simpa using inv.fam)
        simpa [hdOr] using this
      have f2 : Fam (h.relink carry x)
          ((carry, [x]) :: (cfam cid 0 K ++ (cid K.length, []) :: (header, H) :: R)) := by
        refine f1.perm ?_
        rw [cfam_append]
        simp only [cfam, Nat.zero_add]
        refine (List.Perm.swap _ _ _).trans (List.Perm.cons _ ?_)
        rw [List.append_assoc]
        refine (List.perm_middle.symm).trans (List.Perm.append_left _ ?_)
        exact List.Perm.swap _ _ _
      have hl := inv.perm.length_eq
      unfold sortGo
      rw [if_pos hxh, hx, hcn]
      rcases carryGo_spec cmp (N := N) K (k := k) f2 (by simp at hl ⊢; omega) with
        ⟨h', k', C', N1, K2, g1, g2, g3, g4, g5, g6, g7, g8⟩ | ⟨h', k', C', K', j, g1, g2, g3, g4, g5, g6⟩
      · simp only [g1, Nat.zero_add]
        have hcost : k' + weight 0 N1 ≤ k + 2 ^ N1.length * N1.length := by
          have := g8 (by simp) inv.pow; simpa using this
        have hC : C'.length = 2 ^ N1.length := by
          have h1 := inv.pow
          rw [g2, PowK_append] at h1
          have := PowK_sum 0 N1 h1.1 g3
          have h2 := g5.length_eq
          simp at h2 this; omega
        have hCn : C' ≠ [] := by
          intro e; rw [e] at hC; have := Nat.two_pow_pos N1.length; simp only [List.length_nil] at hC; omega
        -- the counter that receives the carry
        obtain ⟨K3, hK3⟩ : ∃ K3, K2 ++ [[]] = [] :: K3 := by
          cases K2 with
          | nil => exact ⟨[], rfl⟩
          | cons l K2 => have := g4 l rfl; subst this; exact ⟨K2 ++ [[]], rfl⟩
        have f3 : Fam h' ((carry, C') :: (cid N1.length, []) ::
            (cfam cid 0 (List.replicate N1.length []) ++ cfam cid (N1.length + 1) K3 ++ (header, H) :: R)) := by
          refine g6.perm (List.Perm.cons _ ?_)
          have e : cfam cid 0 (List.replicate N1.length [] ++ K2) ++ (cid K.length, []) :: (header, H) :: R =
              cfam cid 0 (List.replicate N1.length [] ++ (K2 ++ [[]])) ++ (header, H) :: R := by
            rw [← List.append_assoc, cfam_append cid 0 _ [[]]]
            have : (List.replicate N1.length ([] : List Id) ++ K2).length = K.length := by simp [g2]
            simp [cfam, this]
          rw [e, hK3, cfam_append]
          simp only [cfam, List.length_replicate, Nat.zero_add, List.append_assoc, List.cons_append]
          exact List.perm_middle
        have f4 := fam_swapHeaders f3
        have f5 : Fam (h'.swapHeaders carry (cid N1.length)) ((header, H) :: (carry, []) ::
            (cfam cid 0 (List.replicate N1.length [] ++ C' :: K3) ++ R)) := by
          refine f4.perm ?_
          rw [cfam_append]
          simp only [cfam, List.length_replicate, Nat.zero_add, List.append_assoc, List.cons_append]
          have p1 : ((carry, ([] : List Id)) :: (cid N1.length, C') :: (cfam cid 0 (List.replicate N1.length []) ++
              (cfam cid (N1.length + 1) K3 ++ (header, H) :: R))).Perm
              ((carry, []) :: (header, H) :: (cid N1.length, C') :: (cfam cid 0 (List.replicate N1.length []) ++
              (cfam cid (N1.length + 1) K3 ++ R))) := by
            refine List.Perm.cons _ ?_
            rw [← List.append_assoc, ← List.append_assoc]
            exact (List.perm_middle (l₁ := (cid N1.length, C') :: (cfam cid 0 (List.replicate N1.length []) ++
              cfam cid (N1.length + 1) K3)))
          refine p1.trans ((List.Perm.swap _ _ _).trans (List.Perm.cons _ (List.Perm.cons _ ?_)))
          exact List.perm_middle.symm
        have hsorted : ∀ lt, StrictWeak lt → (∀ k x y, cmp k x y = some (lt x y)) →
            (∀ l ∈ K, Sorted lt l) → Sorted lt C' := fun lt hl ht hs =>
          g7 lt hl ht (by simp [Sorted]) hs
        by_cases hfill : N1.length = K.length
        · -- the counter array grows
          have hK2 : K2 = [] := by
            have := congrArg List.length g2; simp at this
            exact List.length_eq_zero_iff.1 (by omega)
          subst hK2
          have hK3' : K3 = [] := by simpa using hK3.symm
          subst hK3'
          rw [if_pos hfill]
          have hnp : (H ++ (List.replicate N1.length [] ++ [C']).flatten).Perm orig := by
            refine List.Perm.trans ?_ inv.perm
            have : (List.replicate N1.length ([] : List Id) ++ [C']).flatten = C' := by simp
            rw [this]
            refine (List.Perm.append_left H g5).trans ?_
            rw [g2]
            simp only [List.append_nil, List.cons_append, List.nil_append]
            exact List.perm_middle
          have hpow : PowK 0 (List.replicate N1.length [] ++ [C']) := by
            rw [PowK_append]
            exact ⟨PowK_replicate _ _, Or.inr (by simpa using hC), trivial⟩
          have hbd : K.length + 1 < W + 1 := by
            have h1 : C'.length ≤ orig.length := by
              have := hnp.length_eq; simp at this; omega
            have h2 : 2 ^ K.length < 2 ^ W := by rw [← hfill, ← hC]; omega
            have := (Nat.pow_lt_pow_iff_right (a := 2) (by omega)).1 h2
            omega
          rw [if_pos hbd]
          have hfr : cid (K.length + 1) ∉ famIds ((header, H) :: (carry, []) ::
              (cfam cid 0 (List.replicate N1.length [] ++ [C']) ++ R)) := by
            intro hm
            have e1 : famIds ((header, H) :: (carry, []) ::
              (cfam cid 0 (List.replicate N1.length [] ++ [C']) ++ R)) =
              header :: H ++ (carry :: (famIds (cfam cid 0 (List.replicate N1.length [] ++ [C'])) ++ famIds R)) := by
              simp [famIds]
            rw [e1] at hm
            have hfr := hloc.fresh (K.length + 1)
            have hor : ∀ w, w ∈ H ∨ w ∈ C' → w ∈ orig := by
              intro w hw
              refine hnp.mem_iff.1 ?_
              simp; exact hw
            simp only [List.cons_append, List.mem_cons, List.mem_append, mem_famIds_cfam, not_or] at hm hfr
            rcases hm with e | e | e | (⟨j, _, hj, e⟩ | e) | e
            · exact hfr.1 e
            · exact hfr.2.2.1 (hor _ (Or.inl e))
            · exact hfr.2.1 e
            · have := hloc.inj _ _ e
              simp at hj; omega
            · simp at e; exact hfr.2.2.1 (hor _ (Or.inr e))
            · exact hfr.2.2.2 e
          have f6 := fam_emptyInit f5 hfr
          have inv' : LoopInv cid header carry orig R
              ((h'.swapHeaders carry (cid N1.length)).emptyInit (cid (K.length + 1))) H
              (List.replicate N1.length [] ++ [C']) := by
            refine ⟨?_, hnp, hpow, ?_⟩
            · refine f6.perm ?_
              rw [cfam_append cid 0 (List.replicate N1.length [] ++ [C']) [[]]]
              simp only [cfam, List.length_append, List.length_replicate, Nat.zero_add, List.length_cons,
                List.length_nil, hfill, List.append_assoc]
              refine (List.Perm.swap _ _ _).trans (List.Perm.cons _ ((List.Perm.swap _ _ _).trans (List.Perm.cons _ ?_)))
              exact List.perm_middle.symm
            · intro l hl; simp at hl; rw [← hl]; exact hCn
          have hlen : (List.replicate N1.length ([] : List Id) ++ [C']).length = K.length + 1 := by simp [hfill]
          have := ih _ k' H _ inv' (by simp at hn; omega)
          rw [hlen] at this
          rw [hfill] at this ⊢
          have hk : k ≤ weight 0 K → k' ≤ weight 0 (List.replicate K.length [] ++ [C']) := by
            intro hk
            rw [g2, List.append_nil] at hk
            rw [weight_append, weight_replicate]
            simp only [weight, hC, List.length_replicate, Nat.zero_add, Nat.add_zero, ← hfill]
            omega
          rcases this with ⟨a1, a2, a3, a4, a5, a6, a7, a8⟩ | ⟨b1, b2, b3, b4, b5, b6, b7, b8, b9, b10⟩
          · left
            refine ⟨a1, a2, a3, a4, a5, fun _ => a6 (Or.inr (by simp)), ?_, fun e => a8 (hk e)⟩
            intro lt hl ht hs
            refine a7 lt hl ht ?_
            intro l hm
            simp only [List.mem_append, List.mem_replicate, List.mem_singleton] at hm
            rcases hm with ⟨_, rfl⟩ | rfl
            · simp [Sorted]
            · exact hsorted lt hl ht hs
          · right; exact ⟨b1, b2, b3, b4, b5, b6, b7, b8, b9, fun e => b10 (hk e)⟩
        · rw [if_neg hfill]
          cases K2 with
          | nil => exfalso; apply hfill; rw [g2]; simp
          | cons l K2 =>
            have := g4 l rfl; subst this
            have hK3' : K3 = K2 ++ [[]] := by simpa using hK3.symm
            subst hK3'
            have inv' : LoopInv cid header carry orig R (h'.swapHeaders carry (cid N1.length)) H
                (List.replicate N1.length [] ++ C' :: K2) := by
              refine ⟨by simpa using f5, ?_, ?_, ?_⟩
              · refine List.Perm.trans ?_ inv.perm
                have : (List.replicate N1.length ([] : List Id) ++ C' :: K2).flatten = C' ++ K2.flatten := by simp
                rw [this, g2]
                simp only [List.flatten_append, List.flatten_cons, List.nil_append]
                have p1 : (H ++ (C' ++ K2.flatten)).Perm (H ++ (x :: N1.flatten ++ K2.flatten)) :=
                  List.Perm.append_left H (g5.append_right _)
                refine p1.trans ?_
                simp only [List.cons_append]
                exact List.perm_middle
              · have h1 := inv.pow
                rw [g2, PowK_append] at h1
                rw [PowK_append]
                refine ⟨PowK_replicate _ _, Or.inr (by simpa using hC), ?_⟩
                simpa using h1.2.2
              · intro l hl
                cases K2 with
                | nil => simp at hl; rw [← hl]; exact hCn
                | cons y K2 =>
                  apply inv.top
                  rw [g2]
                  rw [List.getLast?_append_of_ne_nil _ (by simp)] at hl ⊢
                  rw [List.getLast?_cons_cons] at hl ⊢
                  exact hl
            have hlen : (List.replicate N1.length ([] : List Id) ++ C' :: K2).length = K.length := by simp [g2]
            have := ih _ k' H _ inv' (by simp at hn; omega)
            rw [hlen] at this
            have hk : k ≤ weight 0 K → k' ≤ weight 0 (List.replicate N1.length [] ++ C' :: K2) := by
              intro hk
              rw [g2, weight_append] at hk
              rw [weight_append, weight_replicate]
              simp only [weight, hC, List.length_replicate, Nat.zero_add, List.length_nil, Nat.zero_mul] at hk ⊢
              omega
            rcases this with ⟨a1, a2, a3, a4, a5, a6, a7, a8⟩ | ⟨b1, b2, b3, b4, b5, b6, b7, b8, b9, b10⟩
            · left
              refine ⟨a1, a2, a3, a4, a5, fun _ => a6 (Or.inr (by simp)), ?_, fun e => a8 (hk e)⟩
              intro lt hl ht hs
              refine a7 lt hl ht ?_
              intro l hm
              simp only [List.mem_append, List.mem_replicate, List.mem_cons] at hm
              rcases hm with ⟨_, rfl⟩ | rfl | hm
              · simp [Sorted]
              · exact hsorted lt hl ht hs
              · exact hs l (by rw [g2]; simp [hm])
            · right; exact ⟨b1, b2, b3, b4, b5, b6, b7, b8, b9, fun e => b10 (hk e)⟩
      · right
        simp only [g1]
        refine ⟨h', k', H, C', K', by rw [g2], ?_, ?_, g5, ?_⟩
        · refine List.Perm.trans ?_ inv.perm
          rw [List.append_assoc]
          refine (List.Perm.append_left H g3).trans ?_
          simp only [List.cons_append, List.nil_append]
          exact List.perm_middle
        · refine g4.perm ?_
          rw [cfam_append]
          simp only [cfam, Nat.zero_add, g2, List.append_assoc, List.cons_append, List.nil_append]
          refine List.Perm.trans ?_ (List.Perm.swap _ _ _)
          refine List.Perm.cons _ ?_
          have : (cfam cid 0 K' ++ (cid K.length, []) :: (header, H) :: R).Perm
              (cfam cid 0 K' ++ (header, H) :: (cid K.length, []) :: R) :=
            List.Perm.append_left _ (List.Perm.swap _ _ _)
          exact this.trans List.perm_middle
        · intro hk
          have h1 := g6 (by simp) inv.pow
          simp only [List.length_append, List.length_cons] at hl
          simp only [List.length_singleton, Nat.pow_zero, Nat.mul_zero, Nat.add_zero, Nat.zero_add] at h1
          refine ⟨?_, ?_⟩
          · rw [g2]
            have : (1 + K.flatten.length) * K.length ≤ orig.length * K.length := Nat.mul_le_mul_right _ (by omega)
            omega
          · rcases fill_bound (orig := orig) inv.pow inv.top (by omega) with e | e
            · left; rw [e] at g2; exact List.length_eq_zero_iff.1 g2
            · right; rw [g2]; exact e

/-! ### final loop, cleanup, sort -/

theorem finalGo_spec (cmp : Cmp) {cid : Nat → Id} {N : Nat} (K : List (List Id)) :
    ∀ {R : List (Id × List Id)} {h : Heap} {k i : Nat} {A : List Id},
    Fam h ((cid i, A) :: (cfam cid (i + 1) K ++ R)) → A.length + K.flatten.length ≤ N →
    (∃ h' k' A', finalGo cmp N cid K.length (i + 1) h k = .ok (h', k') ∧ A'.Perm (A ++ K.flatten) ∧
      Fam h' ((cid (i + K.length), A') :: (cfam cid i (List.replicate K.length []) ++ R)) ∧
      (∀ lt, StrictWeak lt → (∀ k x y, cmp k x y = some (lt x y)) → Sorted lt A → (∀ l ∈ K, Sorted lt l) →
        Sorted lt A') ∧
      (k ≤ A.length * (i + 1) + weight (i + 1) K → k' ≤ (A.length + K.flatten.length) * (i + 1 + K.length))) ∨
    (∃ h' k' K', finalGo cmp N cid K.length (i + 1) h k = .threw (h', k') ∧ K'.length = K.length + 1 ∧
      K'.flatten.Perm (A ++ K.flatten) ∧ Fam h' (cfam cid i K' ++ R) ∧ (∃ k x y, cmp k x y = none) ∧
      (k ≤ A.length * (i + 1) + weight (i + 1) K → k' ≤ (A.length + K.flatten.length) * (i + 1 + K.length))) := by
  induction K with
  | nil =>
    intro R h k i A hf hn
    left
    exact ⟨h, k, A, by simp [finalGo], by simp, by simpa [cfam] using hf, fun _ _ _ hA _ => hA, by simp [weight]⟩
  | cons K0 K ih =>
    intro R h k i A hf hn
    have hf' : Fam h ((cid (i + 1), K0) :: (cid i, A) :: (cfam cid (i + 1 + 1) K ++ R)) := by
      refine hf.perm ?_
      simp only [cfam, List.cons_append]
      exact List.Perm.swap _ _ _
    obtain ⟨h1, e1, f1⟩ := collate_spec cmp (n := N) (k := k) hf' (by simp at hn; omega)
    have pm := collateL_perm cmp k K0 A
    have hso := fun lt hl ht => collateL_sorted cmp (lt := lt) hl ht k K0 A
    have hok := collateL_ok cmp k K0 A
    have hct := collateL_count cmp k K0 A
    generalize hr : collateL cmp k K0 A = r at e1 f1 pm hok hct
    obtain ⟨b, A1, B1, k1⟩ := r
    cases b with
    | false =>
      right
      refine ⟨h1, k1, B1 :: A1 :: K, ?_, rfl, ?_, ?_, ?_, ?_⟩
      · simp [finalGo, e1, mkOut]
      · simp only [List.flatten_cons, ← List.append_assoc]
        refine List.Perm.append_right _ ?_
        exact List.perm_append_comm.trans (pm.trans List.perm_append_comm)
      · refine f1.perm ?_
        simp only [cfam, List.cons_append]
        exact List.Perm.swap _ _ _
      · by_contra hno
        have := collateL_total cmp (fun k x y => by
          cases hh : cmp k x y with
          | none => exact absurd ⟨k, x, y, hh⟩ hno
          | some _ => rfl) k K0 A
        rw [hr] at this; simp at this
      · intro hk
        have hct' : k1 ≤ k + (K0.length + A.length) := hct
        have hw := weight_le (i + 1 + 1) K
        simp only [weight, List.flatten_cons, List.length_append, List.length_cons] at hk ⊢
        rw [show i + 1 + (K.length + 1) = i + 1 + 1 + K.length by omega]
        have e1 : (A.length + (K0.length + K.flatten.length)) * (i + 1 + 1 + K.length) =
          (A.length + K0.length) * (i + 1 + 1 + K.length) + K.flatten.length * (i + 1 + 1 + K.length) := by ring
        have e2 : (A.length + K0.length) * (i + 1 + 1) ≤ (A.length + K0.length) * (i + 1 + 1 + K.length) :=
          Nat.mul_le_mul_left _ (by omega)
        have e3 : (A.length + K0.length) * (i + 1 + 1) = A.length * (i + 1) + K0.length * (i + 1) + (A.length + K0.length) := by ring
        omega
    | true =>
      have hB : B1 = [] := hok rfl
      subst hB
      simp only [List.append_nil] at pm
      have f2 : Fam h1 ((cid (i + 1), A1) :: (cfam cid (i + 1 + 1) K ++ (cid i, []) :: R)) := by
        refine f1.perm ?_
        exact (List.perm_middle.symm).cons _
      have hlen : A1.length + K.flatten.length ≤ N := by
        have := pm.length_eq; simp at this hn ⊢; omega
      rcases ih (k := k1) f2 hlen with ⟨h', k', A', g1, g2, g3, g4, g5⟩ | ⟨h', k', K', g1, g2, g3, g4, g5, g6⟩
      · left
        refine ⟨h', k', A', ?_, ?_, ?_, ?_, fun hk => ?_⟩
        · simp [finalGo, e1, mkOut, g1]
        · refine g2.trans ?_
          simp only [List.flatten_cons, ← List.append_assoc]
          exact List.Perm.append_right _ (pm.trans List.perm_append_comm)
        · refine g3.perm ?_
          have e : i + 1 + K.length = i + (K0 :: K).length := by simp; omega
          rw [e]
          refine List.Perm.cons _ ?_
          simp only [List.length_cons, List.replicate_succ, cfam, List.cons_append]
          exact List.perm_middle
        · intro lt hl ht hA hK
          refine g4 lt hl ht ?_ (fun l hm => hK l (by simp [hm]))
          have := hso lt hl ht (hK K0 (by simp)) hA
          rw [hr] at this; exact this
        · have hct' : k1 ≤ k + (K0.length + A.length) := hct
          have hA := pm.length_eq
          simp only [List.length_append] at hA
          simp only [weight, List.flatten_cons, List.length_append, List.length_cons] at hk ⊢
          have e3 : A1.length * (i + 1 + 1) = A.length * (i + 1) + K0.length * (i + 1) + (A.length + K0.length) := by
            rw [hA]; ring
          have := g5 (by omega)
          rw [hA] at this
          rw [show i + 1 + (K.length + 1) = i + 1 + 1 + K.length by omega,
            show A.length + (K0.length + K.flatten.length) = K0.length + A.length + K.flatten.length by omega]
          exact this
      · right
        refine ⟨h', k', [] :: K', ?_, by simp [g2], ?_, ?_, g5, fun hk => ?_⟩
        · simp [finalGo, e1, mkOut, g1]
        · simp only [List.flatten_cons, List.nil_append, ← List.append_assoc]
          exact g3.trans (List.Perm.append_right _ (pm.trans List.perm_append_comm))
        · refine g4.perm ?_
          simp only [cfam, List.cons_append]
          exact List.perm_middle
        · have hct' : k1 ≤ k + (K0.length + A.length) := hct
          have hA := pm.length_eq
          simp only [List.length_append] at hA
          simp only [weight, List.flatten_cons, List.length_append, List.length_cons] at hk ⊢
          have e3 : A1.length * (i + 1 + 1) = A.length * (i + 1) + K0.length * (i + 1) + (A.length + K0.length) := by
            rw [hA]; ring
          have := g6 (by omega)
          rw [hA] at this
          rw [show i + 1 + (K.length + 1) = i + 1 + 1 + K.length by omega,
            show A.length + (K0.length + K.flatten.length) = K0.length + A.length + K.flatten.length by omega]
          exact this

theorem cleanup1 {h : Heap} {header c : Id} {H C : List Id} {R : List (Id × List Id)}
    (hf : Fam h ((header, H) :: (c, C) :: R)) :
    Fam (h.relinkRange header (h.next c) c) ((header, H ++ C) :: (c, []) :: R) := by
  have hcc : Circ h c C := hf.circ (by simp)
  have e2 : h.next c = hdOr c C := (seg_split (h := h) (a := c) (u := []) (v := C) hcc.2).1
  have := fam_relinkRange_cross (a := c) (c := header) (u := []) (blk := C) (v := []) (s := H) (t := [])
    (R := R) (h := h) (by simpa using hf.swap)
  rw [e2]
  simpa [hdOr] using this.swap

theorem cleanupGo_spec {header : Id} {cid : Nat → Id} (K : List (List Id)) :
    ∀ {h : Heap} {i : Nat} {H : List Id} {R : List (Id × List Id)},
    Fam h ((header, H) :: (cfam cid i K ++ R)) →
    Fam (cleanupGo header cid K.length i h)
      ((header, H ++ K.flatten) :: (cfam cid i (List.replicate K.length []) ++ R)) := by
  induction K with
  | nil => intro h i H R hf; simpa [cleanupGo, cfam] using hf
  | cons K0 K ih =>
    intro h i H R hf
    have f1 := cleanup1 (c := cid i) (C := K0) (R := cfam cid (i + 1) K ++ R) (by simpa [cfam] using hf)
    have f2 : Fam (h.relinkRange header (h.next (cid i)) (cid i))
        ((header, H ++ K0) :: (cfam cid (i + 1) K ++ (cid i, []) :: R)) :=
      f1.perm (List.Perm.cons _ List.perm_middle.symm)
    have f3 := ih f2
    simp only [cleanupGo, List.length_cons]
    refine f3.perm ?_
    simp only [List.flatten_cons, List.append_assoc, List.replicate_succ, cfam, List.cons_append]
    exact List.Perm.cons _ List.perm_middle

theorem cleanup_spec {header carry : Id} {cid : Nat → Id} {h : Heap} {H C : List Id} {K : List (List Id)}
    {R : List (Id × List Id)}
    (hf : Fam h ((header, H) :: (carry, C) :: (cfam cid 0 (K ++ [[]]) ++ R))) :
    ∃ L, Fam (cleanup header carry cid K.length h) ((header, H ++ C ++ K.flatten) :: (L ++ R)) := by
  have f1 := cleanup1 hf
  have f2 : Fam (h.relinkRange header (h.next carry) carry)
      ((header, H ++ C) :: (cfam cid 0 (K ++ [[]]) ++ (carry, []) :: R)) :=
    f1.perm (List.Perm.cons _ List.perm_middle.symm)
  have f3 := cleanupGo_spec _ f2
  refine ⟨cfam cid 0 (List.replicate (K.length + 1) []) ++ [(carry, [])], ?_⟩
  simp only [cleanup]
  simpa using f3

theorem Fam.drop {h : Heap} {A : Id × List Id} {L R : List (Id × List Id)} (hf : Fam h (A :: (L ++ R))) :
    Fam h (A :: R) := by
  induction L with
  | nil => exact hf
  | cons B L ih =>
    apply ih
    have : Fam h (B :: A :: (L ++ R)) := hf.perm (List.Perm.swap _ _ _)
    exact this.tail

/-- `sort` on a circular list: the main specification. -/
theorem sort_spec_count (cmp : Cmp) {h : Heap} {header carry : Id} {cid : Nat → Id} {N W : Nat} {xs : List Id}
    {R : List (Id × List Id)} (hf : Fam h ((header, xs) :: R)) (hcar : carry ∉ header :: (xs ++ famIds R))
    (hloc : Locals cid header carry xs R) (hN : xs.length ≤ N) (hW : xs.length < 2 ^ W) :
    (∃ h' k' ys, sort cmp N (W + 1) h header carry cid = .ok (h', k') ∧ ys.Perm xs ∧
      Fam h' ((header, ys) :: R) ∧
      (∀ lt, StrictWeak lt → (∀ k x y, cmp k x y = some (lt x y)) → Sorted lt ys) ∧ k' ≤ xs.length * (Nat.log2 xs.length + 1)) ∨
    (∃ h' k' ys, sort cmp N (W + 1) h header carry cid = .threw (h', k') ∧ ys.Perm xs ∧
      Fam h' ((header, ys) :: R) ∧ (∃ k x y, cmp k x y = none) ∧ k' ≤ xs.length * (Nat.log2 xs.length + 1)) := by
  have hc : Circ h header xs := hf.circ (by simp)
  unfold sort
  by_cases hshort : h.next header = header ∨ h.next (h.next header) = header
  · rw [if_pos hshort]
    left
    refine ⟨h, 0, xs, rfl, List.Perm.refl _, hf, ?_, by simp⟩
    intro lt _ _
    match xs, hc with
    | [], _ => simp [Sorted]
    | [x], _ => simp [Sorted]
    | x :: y :: r, hc =>
      exfalso
      have h1 : h.next header = x := hc.2.1
      have h2 : h.next x = y := hc.2.2.2.1
      have := hc.1
      simp at this
      rcases hshort with e | e
      · rw [h1] at e; exact this.1.1 e.symm
      · rw [h1, h2] at e; exact this.1.2.1 e.symm
  · rw [if_neg hshort]
    have hcar' : carry ∉ famIds ((header, xs) :: R) := by simpa [famIds] using hcar
    have f1 := fam_emptyInit hf hcar'
    have hc0 : cid 0 ∉ famIds ((carry, []) :: (header, xs) :: R) := by
      have := hloc.fresh 0
      simp [famIds] at this ⊢
      tauto
    have f2 := fam_emptyInit f1 hc0
    have inv : LoopInv cid header carry xs R ((h.emptyInit carry).emptyInit (cid 0)) xs [] := by
      refine ⟨?_, by simp, trivial, by simp⟩
      refine f2.perm ?_
      simp only [cfam, List.nil_append, List.cons_append]
      refine (List.Perm.swap _ _ _).trans ?_
      refine (List.Perm.cons _ (List.Perm.swap _ _ _)).trans ?_
      exact List.Perm.swap _ _ _
    have hne : xs ≠ [] := by
      intro e; exact hshort (Or.inl ((seg_nil_iff hc).2 e))
    have main := sortGo_spec cmp hloc hN hW N _ 0 xs [] inv hN
    simp only [List.length_nil] at main
    rcases main with ⟨h1, k1, K, g1, g2, g3, g4, g5⟩ | ⟨h1, k1, H', C', K, g1, g2, g3, g4, g5⟩
    · simp only [g1]
      have hK : K ≠ [] := g3 (Or.inl hne)
      obtain ⟨A, K', rfl⟩ := List.exists_cons_of_ne_nil hK
      have f3 : Fam h1 ((cid 0, A) :: (cfam cid (0 + 1) K' ++
          (cid (K'.length + 1), []) :: (header, []) :: (carry, []) :: R)) := by
        refine g2.fam.perm ?_
        rw [List.cons_append, cfam, cfam_append]
        simp only [cfam, List.append_assoc, List.cons_append, List.nil_append, Nat.zero_add]
        rw [show 1 + K'.length = K'.length + 1 by omega]
        refine List.Perm.trans (List.perm_middle (l₁ := [_, _])) (List.Perm.cons _ ?_)
        have p1 : ((header, ([] : List Id)) :: (carry, []) :: (cfam cid 1 K' ++ (cid (K'.length + 1), []) :: R)).Perm
          ((cfam cid 1 K' ++ (cid (K'.length + 1), []) :: (header, []) :: (carry, []) :: R)) := by
          have : cfam cid 1 K' ++ (cid (K'.length + 1), []) :: (header, []) :: (carry, []) :: R =
             (cfam cid 1 K' ++ [(cid (K'.length + 1), [])]) ++ ([(header, []), (carry, [])] ++ R) := by simp
          rw [this]
          have : (header, ([] : List Id)) :: (carry, []) :: (cfam cid 1 K' ++ (cid (K'.length + 1), []) :: R) =
             [(header, []), (carry, [])] ++ ((cfam cid 1 K' ++ [(cid (K'.length + 1), [])]) ++ R) := by simp
          rw [this]
          exact List.perm_append_comm_assoc _ _ _
        exact p1
      have hp := g2.perm
      simp only [List.nil_append, List.flatten_cons] at hp
      have hl := hp.length_eq
      have hbd := fill_bound (orig := xs) g2.pow g2.top (by simp only [List.flatten_cons]; omega)
      have hlog : K'.length ≤ Nat.log2 xs.length := by
        rcases hbd with e | e
        · simp at e
        · simp only [List.length_cons, Nat.add_sub_cancel] at e
          exact (Nat.le_log2 (by rintro e0; exact hne (List.length_eq_zero_iff.1 e0))).2 e
      have hk1 : k1 ≤ A.length * (0 + 1) + weight (0 + 1) K' := by
        have := g5 (Nat.zero_le _)
        simp only [weight, Nat.mul_zero] at this
        omega
      have hfin : ∀ k2, k2 ≤ (A.length + K'.flatten.length) * (0 + 1 + K'.length) →
          k2 ≤ xs.length * (Nat.log2 xs.length + 1) := by
        intro k2 h2
        refine h2.trans (Nat.mul_le_mul ?_ (by omega))
        simp only [List.length_append] at hl; omega
      have := finalGo_spec cmp (N := N) K' (k := k1) f3 (by simp only [List.length_append] at hl; omega)
      simp only [List.length_cons, Nat.add_sub_cancel, Nat.zero_add] at this ⊢
      rcases this with ⟨h2, k2, A', q1, q2, q3, q4, q6⟩ | ⟨h2, k2, K2, q1, q2, q3, q4, q5, q6⟩
      · left
        simp only [q1]
        refine ⟨_, k2, A', rfl, q2.trans hp, ?_, ?_, hfin _ (by simpa using q6 (by simpa using hk1))⟩
        · have f5 : Fam h2 ((header, []) :: (cid K'.length, A') ::
              ((cfam cid 0 (List.replicate K'.length []) ++ [(cid (K'.length + 1), []), (carry, [])]) ++ R)) := by
            refine q3.perm ?_
            refine List.Perm.trans ?_ (List.Perm.swap _ _ _)
            refine List.Perm.cons _ ?_
            simp only [List.append_assoc, List.cons_append, List.nil_append]
            refine List.Perm.trans ?_ List.perm_middle
            exact List.Perm.append_left _ (List.Perm.swap _ _ _)
          have f6 := fam_swapHeaders f5
          have f7 : Fam (h2.swapHeaders header (cid K'.length)) ((header, A') ::
            (((cid K'.length, []) :: (cfam cid 0 (List.replicate K'.length []) ++ [(cid (K'.length + 1), []), (carry, [])])) ++ R)) := by
            simpa using f6
          exact f7.drop
        · intro lt hl ht
          have hs := g4 lt hl ht (by simp)
          exact q4 lt hl ht (hs A (by simp)) (fun l hm => hs l (by simp [hm]))
      · right
        simp only [q1]
        have f5 : Fam h2 ((header, []) :: (carry, []) :: (cfam cid 0 (K2 ++ [[]]) ++ R)) := by
          refine q4.perm ?_
          rw [cfam_append]
          simp only [cfam, q2, Nat.zero_add, List.append_assoc, List.cons_append, List.nil_append]
          refine List.Perm.trans (List.Perm.append_left _ (List.Perm.swap _ _ _)) ?_
          refine List.perm_middle.trans (List.Perm.cons _ ?_)
          refine List.Perm.trans (List.Perm.append_left _ (List.Perm.swap _ _ _)) ?_
          exact List.perm_middle
        obtain ⟨L, f6⟩ := cleanup_spec f5
        rw [q2] at f6
        exact ⟨_, k2, K2.flatten, rfl, q3.trans hp, by simpa using f6.drop, q5,
          hfin _ (by simpa using q6 (by simpa using hk1))⟩
    · right
      simp only [g1]
      obtain ⟨L, f6⟩ := cleanup_spec g3
      refine ⟨_, k1, _, rfl, g2, f6.drop, g4, ?_⟩
      obtain ⟨b1, b2⟩ := g5 (Nat.zero_le _)
      refine b1.trans (Nat.mul_le_mul_left _ ?_)
      rcases b2 with e | e
      · simp [e]
      · have := (Nat.le_log2 (by rintro e0; exact hne (List.length_eq_zero_iff.1 e0))).2 e
        omega

/-- `sort` on a circular list, without the number of comparisons. -/
theorem sort_spec (cmp : Cmp) {h : Heap} {header carry : Id} {cid : Nat → Id} {N W : Nat} {xs : List Id}
    {R : List (Id × List Id)} (hf : Fam h ((header, xs) :: R)) (hcar : carry ∉ header :: (xs ++ famIds R))
    (hloc : Locals cid header carry xs R) (hN : xs.length ≤ N) (hW : xs.length < 2 ^ W) :
    (∃ h' k' ys, sort cmp N (W + 1) h header carry cid = .ok (h', k') ∧ ys.Perm xs ∧
      Fam h' ((header, ys) :: R) ∧
      (∀ lt, StrictWeak lt → (∀ k x y, cmp k x y = some (lt x y)) → Sorted lt ys)) ∨
    (∃ h' k' ys, sort cmp N (W + 1) h header carry cid = .threw (h', k') ∧ ys.Perm xs ∧
      Fam h' ((header, ys) :: R) ∧ ∃ k x y, cmp k x y = none) := by
  rcases sort_spec_count cmp hf hcar hloc hN hW with ⟨a, b, c, d, e, f, g, _⟩ | ⟨a, b, c, d, e, f, g, _⟩
  · exact Or.inl ⟨a, b, c, d, e, f, g⟩
  · exact Or.inr ⟨a, b, c, d, e, f, g⟩

end MI.Seq
