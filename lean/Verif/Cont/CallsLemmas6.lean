import Verif.Cont.CallsLemmas5
/-!
Numbers of calls of whole operations.
-/
set_option linter.unusedVariables false
namespace MI.Cont
open MI Runs Container
variable {V : Type} {κ : CallKind} {k j n : Nat} {hd x : Id} {val val' : Id → V} {xs els pool : List Id}

theorem keys_congr {eq : V → V → Bool} (h : ∀ z ∈ els, val' z = val z) : keys eq val' els = keys eq val els :=
  distinct_congr fun a ha b hb => by rw [h a ha, h b hb]

theorem keys_erase {eq : V → V → Bool} {hf : V → Nat} (ok : EqHash eq hf) (nd : els.Nodup) (hv : ∀ y, y ≠ x → val' y = val y) :
    keys eq val' (els.erase x) ≤ keys eq val els := by
  rw [keys_congr (val := val) fun z hz => hv z (by rintro rfl; exact (List.Nodup.not_mem_erase nd) hz)]
  exact distinct_erase (eq := fun x y => eq (val x) (val y)) (fun a => ok.symm a) (fun a b => ok.trans a b)

theorem placeCost_congr {b hint : Bool} {S : Spec V} (h : ∀ z ∈ els, val' z = val z) : placeCost val' els b hint κ S = placeCost val els b hint κ S := by
  cases S <;> cases κ <;> simp only [placeCost, keys_congr h]

theorem log2_mono {a b : Nat} (h : a ≤ b) : Nat.log2 (a + 1) ≤ Nat.log2 (b + 1) := by
  rw [Nat.log2_eq_log_two, Nat.log2_eq_log_two]
  exact Nat.log_mono_right (by omega)

theorem placeCost_erase {b hint : Bool} {S : Spec V} (ok : S.Ok) (nd : els.Nodup) (hv : ∀ y, y ≠ x → val' y = val y) :
    placeCost val' (els.erase x) b hint κ S ≤ placeCost val els b hint κ S := by
  cases S with
  | seq => exact Nat.le_refl _
  | rnd => exact Nat.le_refl _
  | ord u lt =>
    have := log2_mono (List.length_erase_le (a := x) (l := els))
    cases κ <;> simp only [placeCost] <;> omega
  | hash c eq hf =>
    have := keys_erase (x := x) (els := els) (val := val) (val' := val') (eq := eq) ok nd hv
    cases κ <;> simp only [placeCost] <;> omega

/-- The number of index `k` among those of a chain that begins with number `j`. -/
def atIdx (f : Layer V → Nat) (j k : Nat) (Ls : List (Layer V)) : Nat := if j ≤ k then (Ls[k - j]?).elim 0 f else 0

theorem atIdx_cons (f : Layer V → Nat) (j k : Nat) (L : Layer V) (Ls : List (Layer V)) : atIdx f j k (L :: Ls) = (if k = j then f L else 0) + atIdx f (j + 1) k Ls := by
  unfold atIdx
  by_cases h1 : k = j
  · subst h1
    simp
  · by_cases h2 : j ≤ k
    · have e : k - j = (k - (j + 1)) + 1 := by omega
      rw [if_pos h2, if_neg h1, if_pos (by omega), e, List.getElem?_cons_succ]
      omega
    · rw [if_neg h2, if_neg h1, if_neg (by omega)]

theorem atIdx_le {f g : Layer V → Nat} {j k : Nat} {Ls : List (Layer V)} (h : ∀ L ∈ Ls, f L ≤ g L) : atIdx f j k Ls ≤ atIdx g j k Ls := by
  unfold atIdx
  split
  · cases e : Ls[k - j]? with
    | none => exact Nat.le_refl _
    | some L => exact h L (List.mem_of_getElem? e)
  · exact Nat.le_refl _

theorem insertC_cost {M : Type} {hint : Option Id} {size : Nat} {m0 : M} {base : Out M} (hs : size = els.length) (sub : ∀ z ∈ els, z ∈ pool) :
    ∀ {Ls : List (Layer V)} {xss : List (List Id)} {e : Nat → Env} {j : Nat} {xr : Id}, OkAll (specs Ls) → Fit val hd els Ls xss → EnvAll hd size pool e Ls → Clear pool Ls →
    Cost (UserCall.is κ k) (atIdx (fun L => roomCost val els κ L + placeCost val els true hint.isSome κ L.spec) j k Ls) (fun _ => True)
      (insertCR n hd val hint size m0 base x j e xr Ls)
  | [], xss, e, j, xr, ok, f, env, cl => by
    simp only [insertCR]
    cases base <;> exact Cost.done trivial
  | L :: Ls, xss, e, j, xr, ok, f, env, cl => by
    obtain ⟨xs, yss, rfl, w, p, f2⟩ := f.cases
    simp only [insertCR, Runs.bind_def, Runs.pure_def, atIdx_cons]
    refine Cost.bind (Layer.reserve_cost (pool := pool) (κ := κ) (k := k) (j := j) (e := e 0) ok.head w p (by rw [hs, p.length_eq]) env.1 (fun z hz => sub z (p.mem_iff.1 hz))
      (fun z hz => cl z hz L List.mem_cons_self))
      (b2 := (if k = j then placeCost val els true hint.isSome κ L.spec else 0) + atIdx (fun L => roomCost val els κ L + placeCost val els true hint.isSome κ L.spec) (j + 1) k Ls) ?_ ?_
    · intro r hr
      rcases r with L1 | _ | _ | _
      · obtain ⟨h1, xs', h2, h3⟩ := hr L1 rfl
        have pc := Layer.point_cost (κ := κ) (k := k) (j := j) (n := n) (hashed := true) (hint := hint) (x := x) (L := L1) (by rw [h1]; exact ok.head) h2 (h3.trans p)
        rw [h1] at pc
        refine Cost.bind pc (b2 := atIdx (fun L => roomCost val els κ L + placeCost val els true hint.isSome κ L.spec) (j + 1) k Ls) ?_ (Nat.le_refl _)
        intro o _
        rcases o with pt | _ | _ | _
        · refine Cost.bind (insertC_cost hs sub (e := tl e) (xr := xr) ok.tail f2 env.2 fun z hz L hL => cl z hz L (List.mem_cons_of_mem _ hL)) (b2 := 0) ?_ (Nat.le_refl _)
          intro r _
          rcases r with r | _ | _ | _
          · dsimp only
            split
            · split <;> exact Cost.done trivial
            · exact Cost.done trivial
          all_goals exact Cost.done trivial
        all_goals exact Cost.done trivial
      all_goals exact Cost.done trivial
    · split <;> omega

theorem modifyC_cost (hv : ∀ y, y ≠ x → val' y = val y) (hx : x ∈ els) (nd : els.Nodup) (hn : els.length + 3 ≤ n) :
    ∀ {Ls : List (Layer V)} {xss : List (List Id)} {j : Nat}, OkAll (specs Ls) → Fit val hd els Ls xss →
    Cost (UserCall.is κ k) (atIdx (fun L => stayCost val els κ L.spec + placeCost val els false false κ L.spec) j k Ls) (fun _ => True) (modifyCR n hd val' x j Ls)
  | [], xss, j, ok, f => Cost.done trivial
  | L :: Ls, xss, j, ok, f => by
    obtain ⟨xs, yss, rfl, w, p, f2⟩ := f.cases
    simp only [modifyCR, Runs.bind_def, Runs.pure_def, atIdx_cons]
    have ih := modifyC_cost hv hx nd hn (j := j + 1) ok.tail f2
    refine Cost.bind (Layer.inPlace_cost (κ := κ) (k := k) (j := j) ok.head w p)
      (b2 := (if k = j then placeCost val els false false κ L.spec else 0) + atIdx (fun L => stayCost val els κ L.spec + placeCost val els false false κ L.spec) (j + 1) k Ls) ?_ ?_
    · intro r _
      rcases r with (_ | _) | _ | _ | _
      · obtain ⟨L1, h1, h2, h3, -⟩ := Layer.unlink_spec (val' := val') (n := n) w (p.mem_iff.2 hx) hv (by rw [p.length_eq]; exact hn)
        simp only [h1]
        have pc := Layer.point_cost (κ := κ) (k := k) (j := j) (n := n) (hashed := false) (hint := none) (x := x) (L := L1) (els := els.erase x) (by rw [h2]; exact ok.head) h3
          (p.erase x)
        rw [h2] at pc
        refine Cost.bind (pc.mono (b' := if k = j then placeCost val els false false κ L.spec else 0) ?_ fun _ h => h)
          (b2 := atIdx (fun L => stayCost val els κ L.spec + placeCost val els false false κ L.spec) (j + 1) k Ls) ?_ (Nat.le_refl _)
        · split
          · exact placeCost_erase ok.head nd hv
          · exact Nat.le_refl _
        · intro o _
          rcases o with pt | _ | _ | _
          · dsimp only
            split
            · exact Cost.done trivial
            · exact Cost.bind ih (b2 := 0) (fun _ _ => Cost.done trivial) (Nat.le_refl _)
          all_goals exact Cost.done trivial
      · exact Cost.bind ih (b2 := 0) (fun _ _ => Cost.done trivial) (Nat.le_add_left _ _)
      all_goals exact Cost.done trivial
    · split <;> omega

/-- `modify_rollback_` that did not succeed leaves the indices as they were. -/
def Undone (val : Id → V) (hd : Id) (els : List Id) (Ls : List (Layer V)) (r : Out (List (Layer V) × Bool)) : Prop :=
  ∀ ls b, r = .ok (ls, false) ∨ r = .threw (ls, b) → specs ls = specs Ls ∧ ∃ xss, Fit val hd els ls xss

theorem Undone.cons {L L' : Layer V} {Ls ls : List (Layer V)} {b : Bool} (hs : L'.spec = L.spec) (w : L'.Holds val hd xs) (p : xs.Perm els) (h : specs ls = specs Ls ∧ ∃ xss, Fit val hd els ls xss) :
    specs (L' :: ls) = specs (L :: Ls) ∧ ∃ xss, Fit val hd els (L' :: ls) xss := by
  obtain ⟨h1, xss, h2⟩ := h
  exact ⟨by rw [specs_cons, specs_cons, hs, h1], xs :: xss, .cons w p h2⟩

theorem rollbackC_cost (x0 : x ≠ 0) (hv : ∀ y, y ≠ x → val' y = val y) (hx : x ∈ els) (nd : els.Nodup) (hn : els.length + 3 ≤ n) :
    ∀ {Ls : List (Layer V)} {xss : List (List Id)} {j : Nat}, OkAll (specs Ls) → Fit val hd els Ls xss →
    Cost (UserCall.is κ k) (atIdx (fun L => stayCost val els κ L.spec + placeCost val els false false κ L.spec) j k Ls) (Undone val hd els Ls) (rollbackCR n hd val' x j Ls)
  | [], xss, j, ok, f => Cost.done (by rintro ls b (h | h) <;> exact nomatch h)
  | L :: Ls, xss, j, ok, f => by
    obtain ⟨xs, yss, rfl, w, p, f2⟩ := f.cases
    have self : specs (L :: Ls) = specs (L :: Ls) ∧ ∃ xss, Fit val hd els (L :: Ls) xss := ⟨rfl, _, f⟩
    have selfT : specs Ls = specs Ls ∧ ∃ xss, Fit val hd els Ls xss := ⟨rfl, _, f2⟩
    simp only [rollbackCR, Runs.bind_def, Runs.pure_def, atIdx_cons]
    have ih := rollbackC_cost x0 hv hx nd hn (j := j + 1) ok.tail f2
    refine Cost.bind (Layer.inPlace_cost (κ := κ) (k := k) (j := j) ok.head w p)
      (b2 := (if k = j then placeCost val els false false κ L.spec else 0) + atIdx (fun L => stayCost val els κ L.spec + placeCost val els false false κ L.spec) (j + 1) k Ls) ?_ ?_
    · intro r _
      rcases r with (_ | _) | _ | _ | _
      · by_cases kd : L.keyed = true
        · obtain ⟨L1, sv, h1, h2, h3, -, -, L2, g1, g2, g3, -⟩ := Layer.takeOut_spec (val' := val') (n := n) kd w (p.mem_iff.2 hx) x0 hv (by rw [p.length_eq]; exact hn)
          simp only [h1]
          have pc := Layer.point_cost (κ := κ) (k := k) (j := j) (n := n) (hashed := false) (hint := none) (x := x) (L := L1) (els := els.erase x) (by rw [h2]; exact ok.head) h3
            (p.erase x)
          rw [h2] at pc
          refine Cost.bind (pc.mono (b' := if k = j then placeCost val els false false κ L.spec else 0) ?_ fun _ h => h)
            (b2 := atIdx (fun L => stayCost val els κ L.spec + placeCost val els false false κ L.spec) (j + 1) k Ls) ?_ (Nat.le_refl _)
          · split
            · exact placeCost_erase ok.head nd hv
            · exact Nat.le_refl _
          · intro o _
            rcases o with pt | y | _ | _
            · refine Cost.bind ih (b2 := 0) (fun r hr => Cost.done ?_) (Nat.le_refl _)
              intro ls b hl
              rcases r with ⟨ls', _ | _⟩ | ⟨ls', b'⟩ | _ | _
              · simp only [rollEnd, g1, Out.ok.injEq, Prod.mk.injEq, and_true, reduceCtorEq, or_false] at hl
                subst hl
                exact Undone.cons (b := b) g2 g3 p (hr ls' b (Or.inl rfl))
              · simp only [rollEnd] at hl
                split at hl <;> rcases hl with hl | hl <;> exact nomatch hl
              · simp only [rollEnd, g1, Out.threw.injEq, Prod.mk.injEq, reduceCtorEq, false_or] at hl
                obtain ⟨rfl, -⟩ := hl
                exact Undone.cons (b := b) g2 g3 p (hr ls' b' (Or.inr rfl))
              · rcases hl with hl | hl <;> exact nomatch hl
              · rcases hl with hl | hl <;> exact nomatch hl
            · refine Cost.done ?_
              intro ls b hl
              simp only [rollStop, g1, Out.ok.injEq, Prod.mk.injEq, and_true, reduceCtorEq, or_false] at hl
              subst hl
              exact Undone.cons (b := b) g2 g3 p selfT
            · refine Cost.done ?_
              intro ls b hl
              simp only [rollStop, g1, Out.threw.injEq, Prod.mk.injEq, reduceCtorEq, false_or] at hl
              obtain ⟨rfl, -⟩ := hl
              exact Undone.cons (b := b) g2 g3 p selfT
            · refine Cost.done ?_
              rintro ls b (hl | hl) <;> exact nomatch hl
        · have : L.takeOut n hd x = none := by
            cases L with
            | ord => exact absurd rfl kd
            | hash => exact absurd rfl kd
            | seq => rfl
            | rnd => rfl
          simp only [this]
          exact Cost.done (by rintro ls b (h | h) <;> exact nomatch h)
      · refine Cost.bind ih (b2 := 0) (fun r hr => Cost.done ?_) (Nat.le_add_left _ _)
        intro ls b hl
        rcases r with ⟨ls', b'⟩ | ⟨ls', b'⟩ | _ | _
        · simp only [rollKeep, Out.ok.injEq, Prod.mk.injEq, reduceCtorEq, or_false] at hl
          obtain ⟨rfl, rfl⟩ := hl
          exact Undone.cons (b := b) rfl w p (hr ls' b (Or.inl rfl))
        · simp only [rollKeep, Out.threw.injEq, Prod.mk.injEq, reduceCtorEq, false_or] at hl
          obtain ⟨rfl, -⟩ := hl
          exact Undone.cons (b := b) rfl w p (hr ls' b' (Or.inr rfl))
        · rcases hl with hl | hl <;> exact nomatch hl
        · rcases hl with hl | hl <;> exact nomatch hl
      · refine Cost.done ?_
        intro ls b hl
        simp only [rollFail, Out.threw.injEq, Prod.mk.injEq, reduceCtorEq, false_or] at hl
        obtain ⟨rfl, -⟩ := hl
        exact self
      all_goals exact Cost.done (by rintro ls b (h | h) <;> exact nomatch h)
    · split <;> omega

theorem checkC_cost : ∀ {Ls : List (Layer V)} {xss : List (List Id)} {j : Nat}, OkAll (specs Ls) → Fit val hd els Ls xss →
    Cost (UserCall.is κ k) (atIdx (fun L => stayCost val els κ L.spec) j k Ls) (fun _ => True) (checkCR n hd val' x j Ls)
  | [], xss, j, ok, f => Cost.done trivial
  | L :: Ls, xss, j, ok, f => by
    obtain ⟨xs, yss, rfl, w, p, f2⟩ := f.cases
    simp only [checkCR, Runs.bind_def, Runs.pure_def, atIdx_cons]
    refine Cost.bind (Layer.inPlace_cost (κ := κ) (k := k) (j := j) ok.head w p) (b2 := atIdx (fun L => stayCost val els κ L.spec) (j + 1) k Ls) ?_ (Nat.le_refl _)
    intro r _
    rcases r with (_ | _) | _ | _ | _
    · exact Cost.done trivial
    · exact checkC_cost ok.tail f2
    all_goals exact Cost.done trivial

/-- Calls made by the comparison of the old and the new value in `replace`. -/
def keepCost (κ : CallKind) : Spec V → Nat
  | .ord _ _ => if κ = .less then 2 else 0
  | .hash _ _ _ => if κ = .same then 1 else 0
  | _ => 0

theorem Layer.keeps_cost {L : Layer V} {v0 : V} (ok : L.spec.Ok) (w : L.Holds val hd xs) (hp : xs.Perm els) :
    Cost (UserCall.is κ k) (if k = j then keepCost κ L.spec else 0) (fun _ => True) (L.keepsR j n hd val' v0 x) := by
  cases L with
  | seq h => exact Cost.done trivial
  | rnd s => exact Cost.done trivial
  | ord u lt h => exact Layer.inPlace_cost (els := els) ok w hp
  | hash c eq hf pol ml h a =>
    intro fate t
    refine ⟨?_, trivial⟩
    simp only [keepsR, exec, Layer.spec, keepCost]
    cases fate t (.same j (val' x) v0) <;> simp only [exec, List.countP_cons, List.countP_nil, UserCall.is] <;> by_cases h1 : k = j <;> cases κ <;> simp [h1]

theorem replaceC_cost {v : V} {t : Bool} (hx : x ∈ els) (x0 : x ≠ 0) (nd : els.Nodup) (hn : els.length + 3 ≤ n) :
    ∀ {Ls : List (Layer V)} {xss : List (List Id)} {j : Nat}, OkAll (specs Ls) → Fit val hd els Ls xss →
    Cost (UserCall.is κ k) (atIdx (fun L => keepCost κ L.spec + placeCost val els true false κ L.spec) j k Ls) (fun _ => True) (replaceCR n hd val x v t j Ls)
  | [], xss, j, ok, f => by
    simp only [replaceCR]
    split <;> exact Cost.done trivial
  | L :: Ls, xss, j, ok, f => by
    obtain ⟨xs, yss, rfl, w, p, f2⟩ := f.cases
    have hv : ∀ y, y ≠ x → (upd val x v) y = val y := fun y hy => upd_other _ _ hy
    simp only [replaceCR, Runs.bind_def, Runs.pure_def, atIdx_cons]
    have ih := replaceC_cost (v := v) (t := t) hx x0 nd hn (j := j + 1) ok.tail f2
    by_cases kd : L.keyed = true
    · rw [if_neg (show ¬ L.keyed = false by simp [kd])]
      refine Cost.bind (Layer.keeps_cost (κ := κ) (k := k) (j := j) ok.head w p)
        (b2 := (if k = j then placeCost val els true false κ L.spec else 0) + atIdx (fun L => keepCost κ L.spec + placeCost val els true false κ L.spec) (j + 1) k Ls) ?_ ?_
      · intro r _
        rcases r with (_ | _) | _ | _ | _
        · obtain ⟨L1, sv, h1, h2, h3, -⟩ := Layer.takeOut_spec (val' := upd val x v) (n := n) kd w (p.mem_iff.2 hx) x0 hv (by rw [p.length_eq]; exact hn)
          simp only [h1]
          have pc := Layer.point_cost (κ := κ) (k := k) (j := j) (n := n) (hashed := true) (hint := none) (x := x) (L := L1) (els := els.erase x) (by rw [h2]; exact ok.head) h3
            (p.erase x)
          rw [h2] at pc
          refine Cost.bind (pc.mono (b' := if k = j then placeCost val els true false κ L.spec else 0) ?_ fun _ h => h)
            (b2 := atIdx (fun L => keepCost κ L.spec + placeCost val els true false κ L.spec) (j + 1) k Ls) ?_ (Nat.le_refl _)
          · split
            · exact placeCost_erase ok.head nd hv
            · exact Nat.le_refl _
          · intro o _
            rcases o with pt | _ | _ | _
            · exact Cost.bind ih (b2 := 0) (fun _ _ => Cost.done trivial) (Nat.le_refl _)
            all_goals exact Cost.done trivial
        · exact Cost.bind ih (b2 := 0) (fun _ _ => Cost.done trivial) (Nat.le_add_left _ _)
        all_goals exact Cost.done trivial
      · split <;> omega
    · rw [if_pos (show L.keyed = false by simpa using kd)]
      exact Cost.bind ih (b2 := 0) (fun _ _ => Cost.done trivial) (Nat.le_add_left _ _)

end MI.Cont
