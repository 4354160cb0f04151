import Verif.Cont.CallsLemmas6
import Verif.Cont.CallBound
/-!
Numbers of calls made by the operations of programs.
-/
set_option linter.unusedVariables false
namespace MI.Cont
open MI Runs Container
variable {V : Type} {κ : CallKind} {k : Nat} {w : World V} {i : Nat} {c : Container V} {m : Mem V} {pool : List Id}

theorem Cost.map {α β : Type} {b : Nat} {P : α → Prop} {p : UserCall V → Bool} {m : Runs (UserCall V) α} {g : α → β} (h : Cost p b P m) :
    Cost p b (fun _ => True) (m.bind (fun r => Runs.done (g r))) :=
  Cost.bind h (b2 := 0) (fun _ _ => Cost.done trivial) (Nat.le_refl _)

theorem insertC_cost' {M : Type} {val : Id → V} {hint : Option Id} {x xr : Id} {e : Nat → Env} {m0 : M} {base : Out M} (s : Sound m.val c) (hv : ∀ z ∈ c.elems, val z = m.val z)
    (sub : ∀ z ∈ c.elems, z ∈ pool) (env : EnvAll c.hd c.count pool e c.ls) (cl : Clear pool c.ls) :
    Cost (UserCall.is κ k) (atIdx (fun L => roomCost val c.elems κ L + placeCost val c.elems true hint.isSome κ L.spec) 0 k c.ls) (fun _ => True)
      (insertCR c.budget c.hd val hint c.count m0 base x 0 e xr c.ls) :=
  insertC_cost s.count sub s.ok (s.fit.congr hv) env cl

/-- Where elements are inserted. -/
def inCost (val : Id → V) (els : List Id) (hint : Option Id) (κ : CallKind) (L : Layer V) : Nat := roomCost val els κ L + placeCost val els true hint.isSome κ L.spec

theorem inCost_congr {val val' : Id → V} {els : List Id} {hint : Option Id} {L : Layer V} (h : ∀ z ∈ els, val' z = val z) : inCost val' els hint κ L = inCost val els hint κ L := by
  unfold inCost
  rw [placeCost_congr h]
  cases L <;> simp only [roomCost, keys_congr h]

theorem insertC_cost2 {M : Type} {val : Id → V} {hint : Option Id} {x xr : Id} {e : Nat → Env} {m0 : M} {base : Out M} (s : Sound m.val c) (hv : ∀ z ∈ c.elems, val z = m.val z)
    (sub : ∀ z ∈ c.elems, z ∈ pool) (env : EnvAll c.hd c.count pool e c.ls) (cl : Clear pool c.ls) :
    Cost (UserCall.is κ k) (atIdx (inCost m.val c.elems hint κ) 0 k c.ls) (fun _ => True) (insertCR c.budget c.hd val hint c.count m0 base x 0 e xr c.ls) := by
  have := insertC_cost' (κ := κ) (k := k) (hint := hint) (x := x) (xr := xr) (m0 := m0) (base := base) s hv sub env cl
  have e1 : (fun L : Layer V => roomCost val c.elems κ L + placeCost val c.elems true hint.isSome κ L.spec) = inCost m.val c.elems hint κ := by
    funext L
    exact inCost_congr hv
  rwa [e1] at this

/-- The bound of one operation. -/
def opCost (m : Mem V) (c : Container V) (κ : CallKind) : Op V → Layer V → Nat
  | .insert _ _ _ _ hint _, L | .emplace _ _ _ _ hint _, L | .insertNh _ _ hint _, L => inCost m.val c.elems hint κ L
  | .transfer .., L => inCost m.val c.elems none κ L
  | .replace .., L => keepCost κ L.spec + placeCost m.val c.elems true false κ L.spec
  | .modify .., L => stayCost m.val c.elems κ L.spec + placeCost m.val c.elems false false κ L.spec
  | .modifyRb .., L => stayCost m.val c.elems κ L.spec + placeCost m.val c.elems false false κ L.spec + stayCost m.val c.elems κ L.spec
  | _, _ => 0

theorem atIdx_add (f g : Layer V → Nat) (j k : Nat) (Ls : List (Layer V)) : atIdx f j k Ls + atIdx g j k Ls = atIdx (fun L => f L + g L) j k Ls := by
  unfold atIdx
  split
  · cases Ls[k - j]? <;> rfl
  · rfl

theorem atIdx_spec {f : Spec V → Nat} {Ls Ls' : List (Layer V)} (h : specs Ls = specs Ls') : atIdx (fun L => f L.spec) j k Ls = atIdx (fun L => f L.spec) j k Ls' := by
  unfold atIdx
  split
  · have h1 : (specs Ls)[k - j]? = (specs Ls')[k - j]? := by rw [h]
    simp only [specs, List.getElem?_map] at h1
    cases e1 : Ls[k - j]? <;> cases e2 : Ls'[k - j]? <;> simp_all
  · rfl

theorem modifyRbR_cost {x : Id} {mod back : V → V × Bool} (s : Sound m.val c) (x0 : x ≠ 0) (hx : x ∈ c.elems) :
    Cost (UserCall.is κ k) (atIdx (fun L => stayCost m.val c.elems κ L.spec + placeCost m.val c.elems false false κ L.spec + stayCost m.val c.elems κ L.spec) 0 k c.ls) (fun _ => True)
      (c.modifyRbR m x mod back) := by
  have nd := (List.nodup_cons.1 s.nodup).2
  unfold Container.modifyRbR
  dsimp only
  split
  · exact Cost.done trivial
  · refine Cost.bind (rollbackC_cost (κ := κ) (k := k) (n := c.budget) (val' := (m.assign x (mod (m.val x)).1).val) (j := 0) x0 (fun y hy => upd_other _ _ hy) hx nd s.budget s.ok s.fit)
      (b2 := atIdx (fun L => stayCost m.val c.elems κ L.spec) 0 k c.ls) ?_ (Nat.le_of_eq (atIdx_add ..))
    intro r hr
    rcases r with ⟨ls, _ | _⟩ | ⟨ls, b⟩ | _ | _
    · obtain ⟨h1, xss, h2⟩ := hr ls false (Or.inl rfl)
      dsimp only
      split
      · exact Cost.done trivial
      · rw [← atIdx_spec (f := stayCost m.val c.elems κ) h1]
        exact Cost.bind (checkC_cost (els := c.elems) (hd := c.hd) (val := m.val) (by rw [h1]; exact s.ok) h2) (b2 := 0) (fun _ _ => Cost.done trivial) (Nat.le_refl _)
    · exact Cost.done trivial
    · obtain ⟨h1, xss, h2⟩ := hr ls b (Or.inr rfl)
      dsimp only
      split
      · exact Cost.done trivial
      · rw [← atIdx_spec (f := stayCost m.val c.elems κ) h1]
        exact Cost.bind (checkC_cost (els := c.elems) (hd := c.hd) (val := m.val) (by rw [h1]; exact s.ok) h2) (b2 := 0) (fun _ _ => Cost.done trivial) (Nat.le_refl _)
    · exact Cost.done trivial
    · exact Cost.done trivial

theorem Layer.rehash_cost {L : Layer V} {val : Id → V} {hd : Id} {xs els : List Id} {size n j : Nat} {e : Env} (ok : L.spec.Ok) (w : L.Holds val hd xs) (hp : xs.Perm els)
    (hs : size = xs.length) (le : L.RehashOk hd size n pool e) (sub : ∀ z ∈ xs, z ∈ pool) :
    Cost (UserCall.is κ k) (if κ = .hash ∧ k = j then min els.length (2 * L.spec.keysIn val els) else 0) (fun _ => True) (L.rehashR j hd val size n e) := by
  cases L with
  | ord u lt h => exact Cost.done trivial
  | seq h => exact Cost.done trivial
  | rnd s => exact Cost.done trivial
  | hash c eq hf pol ml h a =>
    simp only [rehashR, Runs.pure_def, Runs.bind_def]
    by_cases q : ¬ (size ≤ ml ∧ n ≤ a.size) ∧ e.allocFail = false
    · rw [if_pos q]
      have m : Hash.rehashCalls c (fun x => hf (val x)) size none h ⟨e.base, Hash.sizeFor Hash.sizes (max (pol.grow size) n)⟩ hd e.cpy ≤ min els.length (2 * keys eq val els) := by
        have nm : Hash.NewMem a ⟨e.base, Hash.sizeFor Hash.sizes (max (pol.grow size) n)⟩ hd e.cpy xs := by
          obtain ⟨b0, c0, cn, co, cna, xn, ar⟩ := le
          exact ⟨b0, c0, fun q => cn (by simp only [List.mem_cons] at q ⊢; exact q.imp id (sub _)), co, cna,
            fun z hz => xn z (by simp only [List.mem_cons] at hz ⊢; exact hz.imp id (sub _)), ar⟩
        obtain ⟨m, -, k1, k3, -, k2, -⟩ := Hash.C66_rehash (key := val) ok w.2 (Hash.sizeFor_pos (max (pol.grow size) n)) nm
        rw [hs] at k2 ⊢
        rw [k2, ← hp.length_eq, ← keys_perm ok hp]
        exact Nat.le_min.2 ⟨k1, k3⟩
      refine Cost.bind (hashCalls_cost _ 0) (b2 := 0) (fun t _ => Cost.done trivial) ?_
      split
      · exact m
      · exact Nat.le_refl _
    · rw [if_neg q]
      exact Cost.done trivial

theorem stepR_cost (r : Reach w) {op : Op V} (l : w.Legal op) (hi : w.cs[op.target]? = some c) (hr : ∀ i k n e, op ≠ .rehash i k n e) :
    Cost (UserCall.is κ k) (atIdx (opCost w.m c κ op) 0 k c.ls) (fun _ => True) (w.stepR op) := by
  have I := r.inv
  cases op with
  | insert i v x f hint e =>
    obtain ⟨c', hi', hf, hh, env⟩ := l
    cases hi.symm.trans hi'
    obtain ⟨hc, s, cl, sa, sc, z0, h0⟩ := I.facts hi'
    have hx := Fresh.not_mem I hf hc
    simp only [World.stepR, hi', Runs.bind_def, Runs.pure_def, Container.insertR]
    exact Cost.map (Cost.map (insertC_cost2 s (fun z hz => upd_other _ _ (by rintro rfl; exact hx (List.mem_cons_of_mem _ hz))) (fun z hz => List.mem_cons_of_mem _ (sa z hz)) env
      (Fresh.clear I hf hc)))
  | emplace i v x f hint e =>
    obtain ⟨c', hi', hf, hh, env⟩ := l
    cases hi.symm.trans hi'
    obtain ⟨hc, s, cl, sa, sc, z0, h0⟩ := I.facts hi'
    have hx := Fresh.not_mem I hf hc
    simp only [World.stepR, hi', Runs.bind_def, Runs.pure_def, Container.emplaceR]
    refine Cost.map (P := fun _ => True) ?_
    split
    · exact Cost.done trivial
    · split
      · split <;> exact Cost.done trivial
      · exact Cost.map (insertC_cost2 s (fun z hz => upd_other _ _ (by rintro rfl; exact hx (List.mem_cons_of_mem _ hz))) (fun z hz => List.mem_cons_of_mem _ (sa z hz)) env
          (Fresh.clear I hf hc))
  | insertNh i h hint e =>
    obtain ⟨c', hi', hh, ho, env⟩ := l
    cases hi.symm.trans hi'
    obtain ⟨hc, s, cl, sa, sc, z0, h0⟩ := I.facts hi'
    have hn : w.hs[h]? = some w.hs[h] := List.getElem?_eq_getElem hh
    simp only [World.stepR, hi', hn, Runs.bind_def, Runs.pure_def, Container.insertNhR]
    refine Cost.map (P := fun _ => True) ?_
    split
    · exact Cost.done trivial
    · exact Cost.map (insertC_cost2 s (fun _ _ => rfl) sa env cl)
  | transfer i j x e =>
    obtain ⟨ne, c', d, hi', hj, hxd, env⟩ := l
    cases hi.symm.trans hi'
    obtain ⟨hc, s, cl, sa, sc, z0, h0⟩ := I.facts hi'
    simp only [World.stepR, hi', hj, Runs.bind_def, Runs.pure_def, Container.transferR]
    exact Cost.map (Cost.map (insertC_cost2 (hint := none) s (fun _ _ => rfl) sa env cl))
  | replace i x v a e =>
    obtain ⟨c', hi', hx⟩ := l
    cases hi.symm.trans hi'
    obtain ⟨hc, s, cl, sa, sc, z0, h0⟩ := I.facts hi'
    simp only [World.stepR, hi', Runs.bind_def, Runs.pure_def, Container.replaceR]
    exact Cost.map (Cost.map (replaceC_cost hx (I.nz' (sa x hx)) (List.nodup_cons.1 s.nodup).2 s.budget s.ok s.fit))
  | modify i x mod e =>
    obtain ⟨c', hi', hx⟩ := l
    cases hi.symm.trans hi'
    obtain ⟨hc, s, cl, sa, sc, z0, h0⟩ := I.facts hi'
    simp only [World.stepR, hi', Runs.bind_def, Runs.pure_def, Container.modifyR]
    refine Cost.map (P := fun _ => True) ?_
    split
    · exact Cost.done trivial
    · exact Cost.map (modifyC_cost (val := w.m.val) (fun y hy => upd_other _ _ hy) hx (List.nodup_cons.1 s.nodup).2 s.budget s.ok s.fit)
  | modifyRb i x mod back e e2 =>
    obtain ⟨c', hi', hx, hyp⟩ := l
    cases hi.symm.trans hi'
    obtain ⟨hc, s, cl, sa, sc, z0, h0⟩ := I.facts hi'
    simp only [World.stepR, hi', Runs.bind_def, Runs.pure_def]
    exact Cost.map (modifyRbR_cost s (I.nz' (sa x hx)) hx)
  | rehash i k n e => exact (hr _ _ _ _ rfl).elim
  | _ => exact Cost.done trivial

/-- What the specification allows. -/
theorem opCost_le {op : Op V} {L : Layer V} (hr : ∀ i k n e, op ≠ .rehash i k n e) :
    opCost m c κ op L ≤ op.bound κ k L.spec c.elems.length (L.spec.keysIn m.val c.elems) := by
  have hins : ∀ hint : Option Id, inCost m.val c.elems hint κ L ≤ insertBound κ c.elems.length (L.spec.keysIn m.val c.elems) hint.isSome L.spec := by
    intro hint
    unfold inCost
    cases L with
    | seq => exact Nat.le_refl _
    | rnd => exact Nat.le_refl _
    | ord u lt h => cases κ <;> simp [roomCost, Layer.spec, placeCost, insertBound]
    | hash d eq hf pol ml h a =>
      cases κ <;> simp only [roomCost, Layer.spec, placeCost, insertBound, Spec.keysIn, keys] <;> simp
      split <;> omega
  cases op with
  | insert => exact hins _
  | emplace => exact hins _
  | insertNh => exact hins _
  | transfer => exact hins none
  | replace =>
    cases L with
    | seq => exact Nat.le_refl _
    | rnd => exact Nat.le_refl _
    | ord u lt h => cases κ <;> simp [opCost, Op.bound, Layer.spec, placeCost, keepCost, replaceBound]; omega
    | hash d eq hf pol ml h a => cases κ <;> simp [opCost, Op.bound, Layer.spec, placeCost, keepCost, replaceBound, Spec.keysIn, keys]; omega
  | modify =>
    cases L with
    | seq => exact Nat.le_refl _
    | rnd => exact Nat.le_refl _
    | ord u lt h => cases κ <;> simp [opCost, Op.bound, Layer.spec, placeCost, stayCost, modifyBound]; omega
    | hash d eq hf pol ml h a => cases κ <;> simp [opCost, Op.bound, Layer.spec, placeCost, stayCost, modifyBound, Spec.keysIn, keys]; omega
  | modifyRb =>
    cases L with
    | seq => exact Nat.le_refl _
    | rnd => exact Nat.le_refl _
    | ord u lt h => cases κ <;> simp [opCost, Op.bound, Layer.spec, placeCost, stayCost, modifyRbBound]; omega
    | hash d eq hf pol ml h a => cases κ <;> simp [opCost, Op.bound, Layer.spec, placeCost, stayCost, modifyRbBound, Spec.keysIn, keys]; omega
  | rehash => exact (hr _ _ _ _ rfl).elim
  | _ => exact Nat.zero_le _

theorem count_calls {α : Type} {b : Nat} {P : α → Prop} {r : Runs (UserCall V) α} {p : UserCall V → Bool} (h : Cost p b P r) (fate : Nat → UserCall V → Option Bool) :
    (r.calls fate).countP p ≤ b := by
  unfold Runs.calls
  rw [List.countP_map]
  exact (h fate 0).1

theorem stepR_calls (r : Reach w) {op : Op V} (l : w.Legal op) (hi : w.cs[op.target]? = some c) {S : Spec V} (hS : c.asked[k]? = some S) (fate : Nat → UserCall V → Option Bool) :
    ((w.stepR op).calls fate).countP (UserCall.is κ k) ≤ op.bound κ k S c.elems.length (S.keysIn w.m.val c.elems) := by
  simp only [Container.asked, List.getElem?_map, Option.map_eq_some_iff] at hS
  obtain ⟨L, hL, rfl⟩ := hS
  by_cases hr : ∀ i k n e, op ≠ .rehash i k n e
  · refine Nat.le_trans (count_calls (stepR_cost (κ := κ) (k := k) r l hi hr) fate) ?_
    simp only [atIdx, Nat.zero_le, if_true, Nat.sub_zero, hL, Option.elim]
    exact opCost_le hr
  · simp only [not_forall, not_not] at hr
    obtain ⟨i, k', n, e, rfl⟩ := hr
    obtain ⟨c', L', hi', hL', le⟩ := l
    cases hi.symm.trans hi'
    obtain ⟨hc, s, cl, sa, sc, z0, h0⟩ := r.inv.facts hi'
    obtain ⟨xs, q1, q2, q3⟩ := fit_get s.fit hL'
    have hlen : c.count = xs.length := by rw [s.count, q3.length_eq]
    refine Nat.le_trans (count_calls (b := if κ = .hash ∧ k = k' then min c.elems.length (2 * L'.spec.keysIn w.m.val c.elems) else 0) (P := fun _ => True) ?_ fate) ?_
    · simp only [World.stepR, hi', hL', Runs.bind_def, Runs.pure_def]
      exact Cost.map (Layer.rehash_cost (okAll_get s.ok hL') q2 q3 hlen le (fun z hz => sa z (q3.mem_iff.1 hz)))
    · simp only [Op.bound]
      by_cases h1 : κ = .hash ∧ k = k'
      · obtain ⟨rfl, rfl⟩ := h1
        cases hL.symm.trans hL'
        exact Nat.le_refl _
      · rw [if_neg h1, if_neg h1]

theorem stepR_calls_none (r : Reach w) {op : Op V} (l : w.Legal op) (hi : w.cs[op.target]? = some c) (hS : c.asked[k]? = none) (fate : Nat → UserCall V → Option Bool) :
    ((w.stepR op).calls fate).countP (UserCall.is κ k) = 0 := by
  simp only [Container.asked, List.getElem?_map, Option.map_eq_none_iff] at hS
  refine Nat.le_zero.1 ?_
  by_cases hr : ∀ i k n e, op ≠ .rehash i k n e
  · refine Nat.le_trans (count_calls (stepR_cost (κ := κ) (k := k) r l hi hr) fate) ?_
    simp only [atIdx, Nat.zero_le, if_true, Nat.sub_zero, hS, Option.elim, Nat.le_refl]
  · simp only [not_forall, not_not] at hr
    obtain ⟨i, k', n, e, rfl⟩ := hr
    obtain ⟨c', L', hi', hL', le⟩ := l
    cases hi.symm.trans hi'
    obtain ⟨hc, s, cl, sa, sc, z0, h0⟩ := r.inv.facts hi'
    obtain ⟨xs, q1, q2, q3⟩ := fit_get s.fit hL'
    have hlen : c.count = xs.length := by rw [s.count, q3.length_eq]
    refine Nat.le_trans (count_calls (b := if κ = .hash ∧ k = k' then min c.elems.length (2 * L'.spec.keysIn w.m.val c.elems) else 0) (P := fun _ => True) ?_ fate) ?_
    · simp only [World.stepR, hi', hL', Runs.bind_def, Runs.pure_def]
      exact Cost.map (Layer.rehash_cost (okAll_get s.ok hL') q2 q3 hlen le (fun z hz => sa z (q3.mem_iff.1 hz)))
    · rw [if_neg]
      rintro ⟨-, rfl⟩
      rw [hS] at hL'
      exact nomatch hL'

/-- An insertion into a hashed index that has room. -/
theorem stepR_hash_once (r : Reach w) {op : Op V} (l : w.Legal op) (hi : w.cs[op.target]? = some c) {L : Layer V} (hL : c.ls[k]? = some L)
    (hm : ∀ d eq hf pol ml h a, L = .hash d eq hf pol ml h a → c.elems.length + 1 ≤ ml) (hr : ∀ i k n e, op ≠ .rehash i k n e) (hb : ∀ i x f g e e', op ≠ .modifyRb i x f g e e')
    (fate : Nat → UserCall V → Option Bool) : ((w.stepR op).calls fate).countP (UserCall.is .hash k) ≤ 1 := by
  refine Nat.le_trans (count_calls (stepR_cost (κ := .hash) (k := k) r l hi hr) fate) ?_
  simp only [atIdx, Nat.zero_le, if_true, Nat.sub_zero, hL, Option.elim]
  have hins : ∀ hint : Option Id, inCost w.m.val c.elems hint .hash L ≤ 1 := by
    intro hint
    unfold inCost
    cases L with
    | hash d eq hf pol ml h a =>
      have := hm _ _ _ _ _ _ _ rfl
      simp only [roomCost, Layer.spec, placeCost, if_true]
      rw [if_neg (by omega)]
    | _ => exact Nat.zero_le _
  cases op with
  | insert => exact hins _
  | emplace => exact hins _
  | insertNh => exact hins _
  | transfer => exact hins none
  | replace => cases L <;> simp [opCost, Layer.spec, placeCost, keepCost]
  | modify => cases L <;> simp [opCost, Layer.spec, placeCost, stayCost]
  | modifyRb => exact (hb _ _ _ _ _ _ rfl).elim
  | rehash => exact (hr _ _ _ _ rfl).elim
  | _ => exact Nat.zero_le _

end MI.Cont
