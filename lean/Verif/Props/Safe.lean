import Verif.Safe.Example
/-!
# C48: safe mode

The vocabulary is in `Verif/Safe/Spec.lean`, the model in `Verif/Safe/Model.lean` and `Verif/Safe/Registry.lean`.
-/
set_option linter.unusedVariables false
namespace MI.Safe
open MI MI.Cont
variable {V : Type}

theorem invalid_iff {s : State V} {it : Nat} (h : s.Checked it) : s.Invalid it ↔ s.reg.cont it = 0 := by
  unfold State.Invalid Reg.checkValid
  rw [h.2]; simp

theorem step_eq {s s' s2 : State V} {o : SOp V} (h : s.step o = .ok s2 ∨ s.step o = .threw s2) (k : s.step o = .ok s' ∨ s.step o = .threw s') : s2 = s' := by
  rcases h with h | h <;> rcases k with k | k <;> rw [h] at k
  · exact Out.ok.inj k
  · exact nomatch k
  · exact nomatch k
  · exact Out.threw.inj k

/-- **C48.** An iterator that is not reported invalid refers to an element, or to the end, of the container whose index it belongs to. -/
theorem C48_valid {s : State V} (h : SReach s) {it : Nat} (hc : s.Checked it) (hv : ¬ s.Invalid it) : ∃ i k, Located s.w s.sid s.reg it i k :=
  h.sinv.loc it hc.1 fun k => hv ((invalid_iff hc).2 k)

example : ∃ i k, Located Ex.s3.w Ex.s3.sid Ex.s3.reg 102 i k :=
  C48_valid Ex.s3_reach (Ex.s3_checked 102 (by decide)) (Ex.s3_valid 102 (by decide))

/-- **C48.** Every operation of the library that a program may do, on any set of iterators: it has no undefined behaviour and ends, also if it throws. An
iterator reported invalid before is reported invalid after. An iterator of index `k` of some container is reported valid after if and only if its node is in a
container and was not transferred to an index with another iterator type; then it belongs to index `k` of the container that has its node. -/
theorem C48_operation {s : State V} (h : SReach s) {o : Op V} {t : Tmp} {ids : List Nat} (l : s.Legal (.lib o t ids)) :
    ∃ s', (s.step (.lib o t ids) = .ok s' ∨ s.step (.lib o t ids) = .threw s') ∧ SReach s' ∧ s'.live = s.live ∧ ∀ it, s.Checked it →
      s'.Checked it ∧ s'.reg.node it = s.reg.node it ∧ (s.Invalid it → s'.Invalid it) ∧
      ∀ i k, Located s.w s.sid s.reg it i k →
        (¬ s'.Invalid it ↔ (∃ c ∈ s'.w.cs, Has c (s.reg.node it)) ∧ ¬ Estranged s.w s'.w o (s.reg.node it) k) ∧
        (¬ s'.Invalid it → ∃ i', Located s'.w s'.sid s'.reg it i' k) := by
  obtain ⟨s', r0, h1, h2, h3, h4⟩ := lib_step h.sinv l
  have hst : s.step (.lib o t ids) = .ok s' ∨ s.step (.lib o t ids) = .threw s' := h1.imp (·.1) (·.1)
  refine ⟨s', hst, .step h l hst, h3, fun it hc => ?_⟩
  have hc' : s'.Checked it := ⟨by rw [h3]; exact hc.1, by rw [h4.unchecked it hc.1]; exact hc.2⟩
  refine ⟨hc', h4.node it hc.1, fun k => ?_, fun i k L => ?_⟩
  · rw [invalid_iff hc'] ; exact h4.dead it hc.1 ((invalid_iff hc).1 k)
  · rw [invalid_iff hc']
    rcases h4.fate it hc.1 i k L with ⟨⟨i', L'⟩, q⟩ | ⟨q1, q2⟩
    · have ne := L'.ne h2.shape
      refine ⟨⟨fun _ => ⟨?_, q⟩, fun _ => ne⟩, fun _ => ⟨i', L'⟩⟩
      obtain ⟨c, a, b, d⟩ := L'
      exact ⟨c, List.mem_of_getElem? a, by rw [← h4.node it hc.1]; exact d⟩
    · refine ⟨⟨fun k => absurd q1 k, fun ⟨⟨c, k1, k2⟩, k3⟩ => ?_⟩, fun k => absurd q1 k⟩
      rcases q2 with q2 | q2
      · exact absurd k2 (q2 c k1)
      · exact absurd q2 k3

example : ∃ s' : State Cont.Ex.Val, SReach s' ∧ (∃ c ∈ s'.w.cs, Has c 11) ∧ ¬ s'.Invalid 103 ∧ ∃ i', Located s'.w s'.sid s'.reg 103 i' 0 := by
  obtain ⟨s0, l, -⟩ := Ex.s3_step (o := .lib (.transfer 1 0 11 Cont.Ex.env) Ex.tmp []) (by decide +kernel)
  obtain ⟨s', h1, h2, h3, h4⟩ := C48_operation Ex.s3_reach l
  obtain ⟨i, k, L⟩ := C48_valid Ex.s3_reach (Ex.s3_checked 103 (by decide)) (Ex.s3_valid 103 (by decide))
  have v : ¬ s'.Invalid 103 := by
    have : ((snext Ex.s3 (.lib (.transfer 1 0 11 Cont.Ex.env) Ex.tmp [])).map fun s => decide (s.Invalid 103)) = some false := by decide +kernel
    obtain ⟨s1, k1⟩ := Option.isSome_iff_exists.1 (by decide +kernel : (snext Ex.s3 (.lib (.transfer 1 0 11 Cont.Ex.env) Ex.tmp [])).isSome = true)
    obtain rfl := step_eq (snext_sound k1).2 h1
    rw [k1] at this
    simpa using this
  obtain ⟨q1, q2, q3, q4⟩ := h4 103 (Ex.s3_checked 103 (by decide))
  have e : Ex.s3.reg.node 103 = 11 := by decide +kernel
  have k0 : k = 0 := by
    obtain ⟨c, a, b, d⟩ := L
    have f : Ex.s3.reg.cont 103 = 201 := by decide +kernel
    rw [f] at b
    have g : Ex.s3.sid = [[201, 202, 203, 204], [211, 212, 213, 214]] := by decide +kernel
    rw [g] at b
    match i, k, b with
    | 0, 0, _ => rfl
    | 0, 1, b | 0, 2, b | 0, 3, b => simp at b
    | 0, k + 4, b => simp at b
    | 1, 0, b | 1, 1, b | 1, 2, b | 1, 3, b => simp at b
    | 1, k + 4, b => simp at b
    | i + 2, k, b => simp at b
  subst k0
  exact ⟨s', h2, e ▸ ((q4 i 0 L).1.1 v).1, v, (q4 i 0 L).2 v⟩

/-- The operation of `C48_operation`, for a given outcome. -/
theorem lib_outcome {s s' : State V} (h : SReach s) {o : Op V} {t : Tmp} {ids : List Nat} (l : s.Legal (.lib o t ids))
    (hs : s.step (.lib o t ids) = .ok s' ∨ s.step (.lib o t ids) = .threw s') : (∃ r0, s.w.step o = .ok (s'.w, r0) ∨ s.w.step o = .threw (s'.w, r0)) ∧ SInv s' ∧
      s'.live = s.live ∧ LibOk s o s'.w s'.sid s'.reg := by
  obtain ⟨s2, r0, h1, h2, h3, h4⟩ := lib_step h.sinv l
  have hst : s.step (.lib o t ids) = .ok s2 ∨ s.step (.lib o t ids) = .threw s2 := h1.imp (·.1) (·.1)
  obtain rfl := step_eq hst hs
  exact ⟨⟨r0, h1.imp (·.2) (·.2)⟩, h2, h3, h4⟩

/-- Validity of an iterator after an operation, when it was valid before. -/
theorem valid_after {s s' : State V} (h : SReach s) {o : Op V} {t : Tmp} {ids : List Nat} (l : s.Legal (.lib o t ids))
    (hs : s.step (.lib o t ids) = .ok s' ∨ s.step (.lib o t ids) = .threw s') {it : Nat} (hc : s.Checked it) (hv : ¬ s.Invalid it)
    (ne : ∀ i j e, o ≠ .transfer i j (s.reg.node it) e) : s'.Checked it ∧ (s'.Invalid it ↔ Gone s'.w (s.reg.node it)) := by
  obtain ⟨i, k, L⟩ := C48_valid h hc hv
  obtain ⟨s2, h1, -, -, h2⟩ := C48_operation h l
  obtain rfl := step_eq h1 hs
  obtain ⟨q1, -, -, q2⟩ := h2 it hc
  refine ⟨q1, ?_⟩
  have := (q2 i k L).1
  have ne' : ¬ Estranged s.w s2.w o (s.reg.node it) k := by
    rintro ⟨i, j, e, c, d, c', L, M, k, -⟩
    exact ne _ _ _ k
  rw [← not_iff_not, this]
  unfold Gone
  constructor
  · rintro ⟨⟨c, a, b⟩, -⟩ k; exact k c a b
  · intro k
    by_contra q
    exact k fun c a b => q ⟨⟨c, a, b⟩, ne'⟩

/-- **C48.** After `erase` of the element `x` the iterators that referred to it are reported invalid, and no other: an iterator that was valid is reported
invalid after if and only if it referred to `x`. -/
theorem C48_erase {s s' : State V} (h : SReach s) {i : Nat} {x : Id} {t : Tmp} {ids : List Nat} (l : s.Legal (.lib (.erase i x) t ids))
    (hs : s.step (.lib (.erase i x) t ids) = .ok s' ∨ s.step (.lib (.erase i x) t ids) = .threw s') {it : Nat} (hc : s.Checked it) (hv : ¬ s.Invalid it) :
    s'.Invalid it ↔ s.reg.node it = x := by
  rw [(valid_after h l hs hc hv (fun _ _ _ k => nomatch k)).2]
  obtain ⟨⟨r0, h1⟩, -⟩ := lib_outcome h l hs
  obtain ⟨w1, k1, k2, -⟩ := eff_erase h.sinv.inv l.1
  obtain rfl := same_out h1 (Or.inl k1)
  have lost := lostAt h.sinv.inv k2
  refine ⟨fun g => ?_, fun e => e ▸ lost_gone h.sinv.inv lost⟩
  by_contra e
  obtain ⟨j, k, c, a, b, d⟩ := C48_valid h hc hv
  obtain ⟨c1, c1', hi, hcs, -, hx, hz⟩ := lost
  by_cases q : i = j
  · subst q
    obtain rfl := Option.some.inj (hi.symm.trans a)
    exact g c1' (by rw [hcs]; exact List.mem_of_getElem? (List.getElem?_set_self (List.getElem?_eq_some_iff.1 hi).1)) ((hz _).2 ⟨d, e⟩)
  · exact g c (by rw [hcs]; exact List.mem_of_getElem? (i := j) (by rw [List.getElem?_set_ne q]; exact a)) d

example : ∃ s' : State Cont.Ex.Val, SReach s' ∧ s'.Invalid 101 ∧ s'.Invalid 102 ∧ s'.Invalid 106 ∧ ¬ s'.Invalid 103 ∧ ¬ s'.Invalid 104 ∧ ¬ s'.Invalid 105 := by
  obtain ⟨s', l, h⟩ := Ex.s3_step (o := .lib (.erase 0 12) Ex.tmp []) (by decide +kernel)
  have n := Ex.s3_nodes
  simp only [List.map_cons, List.map_nil, List.cons.injEq] at n
  have t : ∀ it ∈ [101, 102, 103, 104, 105, 106], s'.Invalid it ↔ Ex.s3.reg.node it = 12 := fun it hi =>
    C48_erase Ex.s3_reach l h (Ex.s3_checked it (by simp at hi ⊢; omega)) (Ex.s3_valid it hi)
  refine ⟨s', .step Ex.s3_reach l h, ?_, ?_, ?_, ?_, ?_, ?_⟩ <;> rw [t _ (by decide)] <;> simp [n]

/-- **C48.** The same for `extract`. -/
theorem C48_extract {s s' : State V} (h : SReach s) {i : Nat} {x : Id} {t : Tmp} {ids : List Nat} (l : s.Legal (.lib (.extract i x) t ids))
    (hs : s.step (.lib (.extract i x) t ids) = .ok s' ∨ s.step (.lib (.extract i x) t ids) = .threw s') {it : Nat} (hc : s.Checked it) (hv : ¬ s.Invalid it) :
    s'.Invalid it ↔ s.reg.node it = x := by
  rw [(valid_after h l hs hc hv (fun _ _ _ k => nomatch k)).2]
  obtain ⟨⟨r0, h1⟩, -⟩ := lib_outcome h l hs
  obtain ⟨w1, k1, k2, -⟩ := eff_extract h.sinv.inv l.1
  obtain rfl := same_out h1 (Or.inl k1)
  have lost := lostAt h.sinv.inv k2
  refine ⟨fun g => ?_, fun e => e ▸ lost_gone h.sinv.inv lost⟩
  by_contra e
  obtain ⟨j, k, c, a, b, d⟩ := C48_valid h hc hv
  obtain ⟨c1, c1', hi, hcs, -, hx, hz⟩ := lost
  by_cases q : i = j
  · subst q
    obtain rfl := Option.some.inj (hi.symm.trans a)
    exact g c1' (by rw [hcs]; exact List.mem_of_getElem? (List.getElem?_set_self (List.getElem?_eq_some_iff.1 hi).1)) ((hz _).2 ⟨d, e⟩)
  · exact g c (by rw [hcs]; exact List.mem_of_getElem? (i := j) (by rw [List.getElem?_set_ne q]; exact a)) d

example : ∃ s' : State Cont.Ex.Val, SReach s' ∧ s'.Invalid 102 ∧ ¬ s'.Invalid 103 := by
  obtain ⟨s', l, h⟩ := Ex.s3_step (o := .lib (.extract 0 12) Ex.tmp []) (by decide +kernel)
  refine ⟨s', .step Ex.s3_reach l h, ?_, ?_⟩
  · rw [C48_extract Ex.s3_reach l h (Ex.s3_checked _ (by decide)) (Ex.s3_valid _ (by decide))]; decide +kernel
  · rw [C48_extract Ex.s3_reach l h (Ex.s3_checked _ (by decide)) (Ex.s3_valid _ (by decide))]; decide +kernel

/-- **C48.** After `clear()` the iterators to elements of the container are reported invalid; its end iterators and the iterators of other containers are not. -/
theorem C48_clear {s s' : State V} (h : SReach s) {i : Nat} {c : Container V} {t : Tmp} {ids : List Nat} (hi : s.w.cs[i]? = some c) (l : s.Legal (.lib (.clear i) t ids))
    (hs : s.step (.lib (.clear i) t ids) = .ok s' ∨ s.step (.lib (.clear i) t ids) = .threw s') {it : Nat} (hc : s.Checked it) (hv : ¬ s.Invalid it) :
    s'.Invalid it ↔ s.reg.node it ∈ c.elems := by
  rw [(valid_after h l hs hc hv (fun _ _ _ k => nomatch k)).2]
  obtain ⟨⟨r0, h1⟩, -⟩ := lib_outcome h l hs
  obtain ⟨w1, c1, c', k1, oa, -, -, em⟩ := eff_clear h.sinv.inv l.1
  obtain rfl := same_out h1 (Or.inl k1)
  obtain rfl := Option.some.inj (hi.symm.trans oa.pre)
  have em : c'.elems = [] := by
    unfold Container.elems
    cases hq : c'.seqs with
    | nil => rfl
    | cons a b => exact em a (by rw [hq]; simp)
  obtain ⟨j, k, b, a1, a2, a3⟩ := C48_valid h hc hv
  constructor
  · intro g
    by_cases q : i = j
    · subst q
      obtain rfl := Option.some.inj (hi.symm.trans a1)
      rcases List.mem_cons.1 a3 with e | e
      · exact absurd (by unfold Has; rw [oa.hd, e]; simp) (g c' (by rw [oa.cs]; exact List.mem_of_getElem? (List.getElem?_set_self (List.getElem?_eq_some_iff.1 hi).1)))
      · exact e
    · exact absurd a3 (g b (by rw [oa.cs]; exact List.mem_of_getElem? (i := j) (by rw [List.getElem?_set_ne q]; exact a1)))
  · intro e d hd k
    rw [oa.cs] at hd
    rcases mem_set_rest hi hd with rfl | hd
    · unfold Has at k
      rw [em, oa.hd] at k
      have nd := List.nodup_cons.1 (h.sinv.inv.facts hi).2.1.nodup
      exact nd.1 (by rw [← List.mem_singleton.1 k]; exact e)
    · exact h.sinv.inv.disj hi hd (by simp [e]) k

example : ∃ s' : State Cont.Ex.Val, SReach s' ∧ s'.Invalid 101 ∧ s'.Invalid 103 ∧ ¬ s'.Invalid 104 ∧ ¬ s'.Invalid 105 := by
  obtain ⟨s', l, h⟩ := Ex.s3_step (o := .lib (.clear 0) Ex.tmp []) (by decide +kernel)
  have t : ∀ it ∈ [101, 102, 103, 104, 105, 106], s'.Invalid it ↔ Ex.s3.reg.node it ∈ (Ex.s3.w.cs[0]?.getD (⟨0, [], 0⟩ : Container Cont.Ex.Val)).elems := fun it hi =>
    C48_clear Ex.s3_reach (by obtain ⟨c, k⟩ := Option.isSome_iff_exists.1 (by decide +kernel : (Ex.s3.w.cs[0]?).isSome = true); rw [k]; rfl) l h
      (Ex.s3_checked it (by simp at hi ⊢; omega)) (Ex.s3_valid it hi)
  refine ⟨s', .step Ex.s3_reach l h, ?_, ?_, ?_, ?_⟩ <;> rw [t _ (by decide)] <;> decide +kernel

/-- **C48.** After the destruction of a container all its iterators, also those to its end, are reported invalid, and no others. -/
theorem C48_destroy {s s' : State V} (h : SReach s) {i : Nat} {c : Container V} {t : Tmp} {ids : List Nat} (hi : s.w.cs[i]? = some c) (l : s.Legal (.lib (.destroy i) t ids))
    (hs : s.step (.lib (.destroy i) t ids) = .ok s' ∨ s.step (.lib (.destroy i) t ids) = .threw s') {it : Nat} (hc : s.Checked it) (hv : ¬ s.Invalid it) :
    s'.Invalid it ↔ Has c (s.reg.node it) := by
  rw [(valid_after h l hs hc hv (fun _ _ _ k => nomatch k)).2]
  obtain ⟨⟨r0, h1⟩, -⟩ := lib_outcome h l hs
  obtain ⟨w1, c1, k1, hi1, k2, -⟩ := eff_destroy h.sinv.inv l.1
  obtain rfl := same_out h1 (Or.inl k1)
  obtain ⟨j, k, b, a1, a2, a3⟩ := C48_valid h hc hv
  constructor
  · intro g
    by_cases q : i = j
    · subst q
      obtain rfl := Option.some.inj (hi.symm.trans a1)
      exact a3
    · exact absurd a3 (g b (by rw [k2, List.mem_eraseIdx_iff_getElem?]; exact ⟨j, Ne.symm q, a1⟩))
  · intro e d hd k
    rw [k2] at hd
    exact h.sinv.inv.disj hi hd e k

example : ∃ s' : State Cont.Ex.Val, SReach s' ∧ s'.Invalid 101 ∧ s'.Invalid 104 ∧ ¬ s'.Invalid 105 := by
  obtain ⟨s', l, h⟩ := Ex.s3_step (o := .lib (.destroy 0) Ex.tmp []) (by decide +kernel)
  have t : ∀ it ∈ [101, 102, 103, 104, 105, 106], s'.Invalid it ↔ Has (Ex.s3.w.cs[0]?.getD (⟨0, [], 0⟩ : Container Cont.Ex.Val)) (Ex.s3.reg.node it) := fun it hi =>
    C48_destroy Ex.s3_reach (by obtain ⟨c, k⟩ := Option.isSome_iff_exists.1 (by decide +kernel : (Ex.s3.w.cs[0]?).isSome = true); rw [k]; rfl) l h
      (Ex.s3_checked it (by simp at hi ⊢; omega)) (Ex.s3_valid it hi)
  refine ⟨s', .step Ex.s3_reach l h, ?_, ?_, ?_⟩ <;> rw [t _ (by decide)] <;> decide +kernel

/-- **C48.** `swap` makes iterators follow their elements: an iterator of index `k` of one of the containers becomes one of index `k` of the other, and refers to
the same element (or to the end, which goes to the other container too); other iterators stay where they are. -/
theorem C48_swap {s s' : State V} (h : SReach s) {i j : Nat} {t : Tmp} {ids : List Nat} (ij : i ≠ j) (l : s.Legal (.lib (.swap i j) t ids))
    (hs : s.step (.lib (.swap i j) t ids) = .ok s' ∨ s.step (.lib (.swap i j) t ids) = .threw s') {it : Nat} (hc : s.Checked it) (k : Nat) :
    s'.reg.node it = s.reg.node it ∧ (Located s.w s.sid s.reg it i k → Located s'.w s'.sid s'.reg it j k) ∧ (Located s.w s.sid s.reg it j k → Located s'.w s'.sid s'.reg it i k) ∧
      ∀ n, n ≠ i → n ≠ j → Located s.w s.sid s.reg it n k → Located s'.w s'.sid s'.reg it n k := by
  obtain ⟨⟨r0, h1⟩, J, -, h2⟩ := lib_outcome h l hs
  obtain ⟨c, d, hi, hj, kd⟩ := l.1
  have hw := same_out h1 (Or.inl (eff_swap hi hj kd))
  have li := (List.getElem?_eq_some_iff.1 hi).1
  have lj := (List.getElem?_eq_some_iff.1 hj).1
  have ci : s'.w.cs[i]? = some d := by rw [hw]; show ((s.w.cs.set i d).set j c)[i]? = _; rw [List.getElem?_set_ne (Ne.symm ij), List.getElem?_set_self li]
  have cj : s'.w.cs[j]? = some c := by rw [hw]; show ((s.w.cs.set i d).set j c)[j]? = _; rw [List.getElem?_set_self (by simpa using lj)]
  have cn : ∀ n, n ≠ i → n ≠ j → s'.w.cs[n]? = s.w.cs[n]? := fun n h1 h2 => by
    rw [hw]; show ((s.w.cs.set i d).set j c)[n]? = _; rw [List.getElem?_set_ne (Ne.symm h2), List.getElem?_set_ne (Ne.symm h1)]
  have nd := h2.node it hc.1
  -- the iterator is attached to index `k` of the container that has its node
  have go : ∀ a b : Nat, Located s.w s.sid s.reg it a k → (∀ e, s.w.cs[a]? = some e → s'.w.cs[b]? = some e) → Located s'.w s'.sid s'.reg it b k := by
    intro a b L m
    rcases h2.fate it hc.1 a k L with ⟨⟨a', L'⟩, -⟩ | ⟨-, q | q⟩
    · obtain ⟨e, g1, g2, g3⟩ := L
      obtain ⟨e', g4, g5, g6⟩ := L'
      have := owner J.inv g4 (m e g1) g6 (by rw [nd]; exact g3)
      subst this
      exact ⟨e', g4, g5, g6⟩
    · obtain ⟨e, g1, g2, g3⟩ := L
      exact absurd g3 (q e (List.mem_of_getElem? (m e g1)))
    · exact absurd q (not_estranged (by intros; exact fun h => nomatch h))
  refine ⟨nd, fun L => go i j L fun e g => ?_, fun L => go j i L fun e g => ?_, fun n n1 n2 L => go n n L fun e g => by rw [cn n n1 n2]; exact g⟩
  · rw [cj, ← g, hi]
  · rw [ci, ← g, hj]

example : ∃ s' : State Cont.Ex.Val, SReach s' ∧ s'.reg.node 105 = 16 ∧ Located s'.w s'.sid s'.reg 105 0 2 ∧ Located s'.w s'.sid s'.reg 104 1 2 := by
  obtain ⟨s', l, h⟩ := Ex.s3_step (o := .lib (.swap 0 1) Ex.tmp []) (by decide +kernel)
  have t := fun it hc => C48_swap Ex.s3_reach (by decide) l h (it := it) hc 2
  obtain ⟨c, k⟩ := Option.isSome_iff_exists.1 (by decide +kernel : (Ex.s3.w.cs[0]?).isSome = true)
  obtain ⟨d, k'⟩ := Option.isSome_iff_exists.1 (by decide +kernel : (Ex.s3.w.cs[1]?).isSome = true)
  refine ⟨s', .step Ex.s3_reach l h, ?_, (t 105 (Ex.s3_checked _ (by decide))).2.2.1 ⟨d, k', by decide +kernel, ?_⟩, (t 104 (Ex.s3_checked _ (by decide))).2.1 ⟨c, k, by decide +kernel, ?_⟩⟩
  · rw [(t 105 (Ex.s3_checked _ (by decide))).1]; decide +kernel
  · have : (Ex.s3.w.cs[1]?).map (fun d => decide (Has d (Ex.s3.reg.node 105))) = some true := by decide +kernel
    rw [k'] at this; simpa using this
  · have : (Ex.s3.w.cs[0]?).map (fun d => decide (Has d (Ex.s3.reg.node 104))) = some true := by decide +kernel
    rw [k] at this; simpa using this

/-- **C48.** An iterator to an element that an operation is not directed at (`World.targets`: the elements it names, or whose container it empties) stays valid,
whatever the operation, also if it throws. -/
theorem C48_others {s s' : State V} (h : SReach s) {o : Op V} {t : Tmp} {ids : List Nat} (l : s.Legal (.lib o t ids))
    (hs : s.step (.lib o t ids) = .ok s' ∨ s.step (.lib o t ids) = .threw s') {it : Nat} (hc : s.Checked it) (hv : ¬ s.Invalid it)
    (el : ∃ c ∈ s.w.cs, s.reg.node it ∈ c.elems) (ne : s.reg.node it ∉ s.w.targets o) : ¬ s'.Invalid it := by
  rw [(valid_after h l hs hc hv ?_).2]
  · obtain ⟨⟨r0, h1⟩, -⟩ := lib_outcome h l hs
    obtain ⟨c, a, b⟩ := el
    obtain ⟨c', q1, -, q2⟩ := (step_survives h.sinv.inv l.1 h1 ne).cont c a b
    exact fun g => g c' q1 (by unfold Has; simp [q2])
  · rintro i j e rfl
    exact ne (by simp [World.targets])

example : ∃ s' : State Cont.Ex.Val, SReach s' ∧ ¬ s'.Invalid 105 := by
  obtain ⟨s', l, h⟩ := Ex.s3_step (o := .lib (.modify 0 12 (fun _ => ((3, 1), false)) Cont.Ex.env) Ex.tmp []) (by decide +kernel)
  refine ⟨s', .step Ex.s3_reach l h, C48_others Ex.s3_reach l h (Ex.s3_checked _ (by decide)) (Ex.s3_valid _ (by decide)) ?_ (by decide +kernel)⟩
  obtain ⟨d, k'⟩ := Option.isSome_iff_exists.1 (by decide +kernel : (Ex.s3.w.cs[1]?).isSome = true)
  refine ⟨d, List.mem_of_getElem? k', ?_⟩
  have : (Ex.s3.w.cs[1]?).map (fun d => decide (Ex.s3.reg.node 105 ∈ d.elems)) = some true := by decide +kernel
  rw [k'] at this; simpa using this

/-- **C48.** Operations on iterators change only the iterator they are applied to. -/
theorem C48_iterator {s : State V} (h : SReach s) {o : ItOp} (l : s.Legal (.it o)) :
    ∃ s', s.step (.it o) = .ok s' ∧ SReach s' ∧ s'.w = s.w ∧ ∀ it ∈ s.live, o.subject ≠ it →
      it ∈ s'.live ∧ s'.reg.cont it = s.reg.cont it ∧ s'.reg.node it = s.reg.node it ∧ s'.reg.unchecked it = s.reg.unchecked it := by
  obtain ⟨s', h1, h2, h3, h4⟩ := it_step h.sinv l
  refine ⟨s', h1, .step h l (Or.inl h1), h3, fun it hi ne => ?_⟩
  have ne : it ≠ o.subject := Ne.symm ne
  have hb : s.live.length < s.budget := by unfold State.budget; omega
  have R := h.sinv.rep
  cases o with
  | make a i k x =>
    simp only [State.step] at h1
    split at h1
    · exact nomatch h1
    · rename_i c hc
      obtain rfl := Out.ok.inj h1
      obtain ⟨-, m2, m3, m4⟩ := make_spec (s := c) (x := x) R l.1.1 l.1.2
      exact ⟨List.mem_cons_of_mem _ hi, by dsimp only; rw [m2]; exact upd_other _ _ ne, by dsimp only; rw [m3]; exact upd_other _ _ ne, by dsimp only; rw [m4]; exact upd_other _ _ ne⟩
  | blank a x =>
    obtain rfl := Out.ok.inj h1
    exact ⟨List.mem_cons_of_mem _ hi, upd_other _ _ ne, upd_other _ _ ne, upd_other _ _ ne⟩
  | copy a b =>
    obtain rfl := Out.ok.inj h1
    obtain ⟨-, m2, m3, m4⟩ := copy_spec (a := b) R l.1.1 l.1.2
    exact ⟨List.mem_cons_of_mem _ hi, by dsimp only; rw [m2]; exact upd_other _ _ ne, by dsimp only; rw [m3]; exact upd_other _ _ ne, by dsimp only; rw [m4]; exact upd_other _ _ ne⟩
  | assign a b =>
    obtain ⟨r', k1, -, m2, m3, m4⟩ := assign_spec (a := b) R l.1 hb
    simp only [State.step, k1] at h1
    obtain rfl := Out.ok.inj h1
    exact ⟨hi, by dsimp only; rw [m2]; exact upd_other _ _ ne, by dsimp only; rw [m3]; exact upd_other _ _ ne, by dsimp only; rw [m4]; exact upd_other _ _ ne⟩
  | drop a =>
    obtain ⟨r', k1, k2⟩ := detach_spec R l hb
    simp only [State.step, k1] at h1
    obtain rfl := Out.ok.inj h1
    exact ⟨(List.mem_erase_of_ne ne).2 hi, by dsimp only; rw [k2.cont]; exact upd_other _ _ ne, by dsimp only; rw [k2.node], by dsimp only; rw [k2.unchecked]⟩
  | move a x =>
    obtain rfl := Out.ok.inj h1
    exact ⟨hi, rfl, upd_other _ _ ne, rfl⟩
  | load a x =>
    obtain ⟨r', k1, -, m2, m3, m4⟩ := load_spec (x := x) R l hb
    simp only [State.step, k1] at h1
    obtain rfl := Out.ok.inj h1
    exact ⟨hi, by dsimp only; rw [m2]; exact upd_other _ _ ne, by dsimp only; rw [m3]; exact upd_other _ _ ne, by dsimp only; rw [m4]; exact upd_other _ _ ne⟩

example : ∃ s', Ex.s3.step (.it (.assign 101 105)) = .ok s' ∧ s'.reg.node 106 = 12 ∧ s'.reg.cont 106 = 201 := by
  obtain ⟨s', h1, -, -, h2⟩ := C48_iterator Ex.s3_reach (o := .assign 101 105) (slegalB_sound (by decide +kernel))
  obtain ⟨-, q1, q2, -⟩ := h2 106 (Ex.s3_checked _ (by decide)).1 (by decide)
  exact ⟨s', h1, by rw [q2]; decide +kernel, by rw [q1]; decide +kernel⟩

/-- **C48.** A copy of an iterator, and an iterator assigned from another, is valid if and only if the other is, belongs to the same index and refers to the same
element. -/
theorem C48_copy {s : State V} (h : SReach s) {it a : Nat} {o : ItOp} (ho : o = .copy it a ∨ o = .assign it a) (l : s.Legal (.it o)) :
    ∃ s', s.step (.it o) = .ok s' ∧ it ∈ s'.live ∧ s'.reg.cont it = s.reg.cont a ∧ s'.reg.node it = s.reg.node a ∧ (s'.Invalid it ↔ s.Invalid a) := by
  have R := h.sinv.rep
  have hb : s.live.length < s.budget := by unfold State.budget; omega
  rcases ho with rfl | rfl
  · obtain ⟨-, m2, m3, m4⟩ := copy_spec (a := a) R l.1.1 l.1.2
    refine ⟨⟨s.w, s.reg.copy it a, it :: s.live, s.sid⟩, rfl, by simp, by dsimp only; rw [m2, upd_same], by dsimp only; rw [m3, upd_same], ?_⟩
    unfold State.Invalid Reg.checkValid
    dsimp only
    rw [m2, m4, upd_same, upd_same]
  · obtain ⟨r', k1, -, m2, m3, m4⟩ := assign_spec (a := a) R l.1 hb
    refine ⟨⟨s.w, r', s.live, s.sid⟩, by simp only [State.step, k1], l.1, by dsimp only; rw [m2, upd_same], by dsimp only; rw [m3, upd_same], ?_⟩
    unfold State.Invalid Reg.checkValid
    dsimp only
    rw [m2, m4, upd_same, upd_same]

example : ∃ s', Ex.s3.step (.it (.assign 107 105)) = .ok s' ∧ s'.reg.node 107 = 16 ∧ ¬ s'.Invalid 107 := by
  obtain ⟨s', h1, -, h2, h3, h4⟩ := C48_copy Ex.s3_reach (it := 107) (a := 105) (Or.inr rfl) (slegalB_sound (by decide +kernel))
  exact ⟨s', h1, by rw [h3]; decide +kernel, by rw [h4]; exact Ex.s3_valid _ (by decide)⟩

/-- One step that does not touch an iterator. -/
theorem untouched_step {s s1 : State V} (h : SReach s) {o : SOp V} {it : Nat} (l : s.Legal o) (nt : ¬ o.Touches it) (hs : s.step o = .ok s1 ∨ s.step o = .threw s1) (hc : s.Checked it) :
    s1.Checked it ∧ s1.reg.node it = s.reg.node it ∧ (s.Invalid it → s1.Invalid it) ∧ ∀ i k, Located s.w s.sid s.reg it i k →
      (¬ s1.Invalid it ↔ (∃ c ∈ s1.w.cs, Has c (s.reg.node it)) ∧ ∀ o' t ids, o = .lib o' t ids → ¬ Estranged s.w s1.w o' (s.reg.node it) k) ∧
      (¬ s1.Invalid it → ∃ i', Located s1.w s1.sid s1.reg it i' k) := by
  cases o with
  | lib o t ids =>
    obtain ⟨s2, h1, -, -, h2⟩ := C48_operation h l
    obtain rfl := step_eq h1 hs
    obtain ⟨q1, q2, q3, q4⟩ := h2 it hc
    refine ⟨q1, q2, q3, fun i k L => ⟨?_, (q4 i k L).2⟩⟩
    rw [(q4 i k L).1]
    refine and_congr_right fun _ => ⟨fun g o' t' ids' e => ?_, fun g => g _ _ _ rfl⟩
    cases e; exact g
  | it o =>
    obtain ⟨s2, h1, -, h2, h3⟩ := C48_iterator h l
    obtain ⟨s3, h4, -, h5, h6⟩ := it_step h.sinv l
    rw [h1] at h4
    obtain rfl := Out.ok.inj h4
    obtain rfl := step_eq (Or.inl h1) hs
    obtain ⟨q1, q2, q3, q4⟩ := h3 it hc.1 nt
    have hc' : s2.Checked it := ⟨q1, by rw [q4]; exact hc.2⟩
    refine ⟨hc', q3, ?_, fun i k L => ?_⟩
    · rw [invalid_iff hc, invalid_iff hc', q2]; exact id
    · have L' : Located s2.w s2.sid s2.reg it i k := by unfold Located; rw [h2, h6, q2, q3]; exact L
      have v : ¬ s2.Invalid it := by
        rw [invalid_iff hc', q2]; exact L.ne h.sinv.shape
      refine ⟨⟨fun _ => ⟨?_, fun o' t ids e => nomatch e⟩, fun _ => v⟩, fun _ => ⟨i, L'⟩⟩
      obtain ⟨c, a, b, d⟩ := L
      exact ⟨c, by rw [h2]; exact List.mem_of_getElem? a, d⟩

/-- **C48.** Over any history: let an iterator of index `k` be valid, and let a program run on, without assigning to it, moving or destroying it. At the end it
is reported valid if and only if all through the run its node has been in some container, without being transferred to an index with another iterator
type. In particular it never becomes valid again when a new element gets the address of an erased one. -/
theorem C48_history {it k : Nat} : ∀ {l : List (SOp V × State V)} {s : State V}, SReach s → s.Checked it → (∃ i, Located s.w s.sid s.reg it i k) → Run it s l →
    (¬ (endOf s l).Invalid it ↔ Held (s.reg.node it) k s l) ∧ (endOf s l).reg.node it = s.reg.node it ∧
    (¬ (endOf s l).Invalid it → ∃ i, Located (endOf s l).w (endOf s l).sid (endOf s l).reg it i k)
  | [], s, h, hc, hl, r => by
    refine ⟨⟨fun _ => trivial, fun _ => ?_⟩, rfl, fun _ => hl⟩
    show ¬ s.Invalid it
    rw [invalid_iff hc]
    obtain ⟨i, L⟩ := hl
    exact L.ne h.sinv.shape
  | (o, s1) :: l, s, h, hc, hl, r => by
    cases r with
    | cons lg nt hs r =>
      obtain ⟨i, L⟩ := hl
      obtain ⟨c1, c2, c3, c4⟩ := untouched_step h lg nt hs hc
      obtain ⟨c5, c6⟩ := c4 i k L
      have h1 : SReach s1 := .step h lg hs
      by_cases v : s1.Invalid it
      · -- it stays invalid
        have stay : ∀ {l : List (SOp V × State V)} {s : State V}, SReach s → s.Checked it → s.Invalid it → Run it s l →
            (endOf s l).Invalid it ∧ (endOf s l).reg.node it = s.reg.node it := by
          intro l
          induction l with
          | nil => intro s h hc hv r; exact ⟨hv, rfl⟩
          | cons p l ih =>
            intro s h hc hv r
            cases r with
            | cons lg nt hs r =>
              obtain ⟨d1, d2, d3, -⟩ := untouched_step h lg nt hs hc
              obtain ⟨e1, e2⟩ := ih (.step h lg hs) d1 (d3 hv) r
              exact ⟨e1, e2.trans d2⟩
        obtain ⟨e1, e2⟩ := stay h1 c1 v r
        refine ⟨⟨fun q => absurd e1 q, fun ⟨g1, g2, _⟩ => absurd v (c5.2 ⟨g1, g2⟩)⟩, e2.trans c2, fun q => absurd e1 q⟩
      · obtain ⟨d1, d2, d3⟩ := C48_history h1 c1 (c6 v) r
        rw [c2] at d1 d2
        refine ⟨⟨fun q => ⟨(c5.1 v).1, (c5.1 v).2, d1.1 q⟩, fun ⟨_, _, q⟩ => d1.2 q⟩, d2, d3⟩

/-- Element 12 is erased and a new element gets its address; the iterator to the old one stays invalid, the one to 11 valid. -/
example : ∃ l, l.length = 2 ∧ Run 101 Ex.s3 l ∧ Run 103 Ex.s3 l ∧ (∃ c ∈ (endOf Ex.s3 l).w.cs, 12 ∈ c.elems) ∧ (endOf Ex.s3 l).Invalid 101 ∧ Held 11 0 Ex.s3 l := by
  obtain ⟨s1, k1⟩ := Option.isSome_iff_exists.1 (by decide +kernel : (snext Ex.s3 (.lib (.erase 0 12) Ex.tmp [])).isSome = true)
  have k2 : ((snext Ex.s3 (.lib (.erase 0 12) Ex.tmp [])).bind fun s => snext s (.lib (.insert 1 (8, 8) 12 {} none Cont.Ex.env) Ex.tmp [])).isSome = true := by decide +kernel
  rw [k1] at k2
  obtain ⟨s2, k2⟩ := Option.isSome_iff_exists.1 k2
  obtain ⟨l1, h1⟩ := snext_sound k1
  obtain ⟨l2, h2⟩ := snext_sound (show snext s1 _ = some s2 from k2)
  have run : ∀ it, Run it Ex.s3 [(.lib (.erase 0 12) Ex.tmp [], s1), (.lib (.insert 1 (8, 8) 12 {} none Cont.Ex.env) Ex.tmp [], s2)] := fun it =>
    .cons l1 id h1 (.cons l2 id h2 (.nil _))
  have e : ((snext Ex.s3 (.lib (.erase 0 12) Ex.tmp [])).bind fun s => snext s (.lib (.insert 1 (8, 8) 12 {} none Cont.Ex.env) Ex.tmp [])).map
      (fun s => (s.w.cs.map (·.elems), s.reg.checkValid 101, s.reg.checkValid 103)) = some ([[11], [16, 12]], false, true) := by decide +kernel
  have e' : ((snext Ex.s3 (.lib (.erase 0 12) Ex.tmp [])).bind fun s => snext s (.lib (.insert 1 (8, 8) 12 {} none Cont.Ex.env) Ex.tmp [])) = some s2 := by
    rw [k1]; exact k2
  rw [e'] at e
  obtain ⟨e1, e2⟩ := Prod.mk.inj (Option.some.inj e)
  obtain ⟨e2, e3⟩ := Prod.mk.inj e2
  refine ⟨_, rfl, run 101, run 103, ?_, e2, ?_⟩
  · obtain ⟨c, hc, he⟩ := List.mem_map.1 (show [16, 12] ∈ s2.w.cs.map (·.elems) by rw [e1]; simp)
    exact ⟨c, hc, by rw [he]; simp⟩
  · have n : Ex.s3.reg.node 103 = 11 := by decide +kernel
    have L : Located Ex.s3.w Ex.s3.sid Ex.s3.reg 103 0 0 := by
      obtain ⟨c, k⟩ := Option.isSome_iff_exists.1 (by decide +kernel : (Ex.s3.w.cs[0]?).isSome = true)
      refine ⟨c, k, by decide +kernel, ?_⟩
      have : (Ex.s3.w.cs[0]?).map (fun d => decide (Has d (Ex.s3.reg.node 103))) = some true := by decide +kernel
      rw [k] at this; simpa using this
    have t := (C48_history Ex.s3_reach (Ex.s3_checked _ (by decide)) ⟨0, L⟩ (run 103)).1
    rw [n] at t
    refine t.1 ?_
    show ¬ s2.reg.checkValid 103 = false
    rw [e3]; simp

end MI.Safe
