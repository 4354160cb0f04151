import Verif.Cont.EffectLemmas2
/-!
A concrete program, used to show that the hypotheses of the theorems can be met. `Legal` is decidable for all operations but
construction, so that the kernel can check a run.
-/
set_option linter.unusedVariables false
namespace MI.Cont
open MI
variable {V : Type}

instance (z : Id) (L : Layer V) : Decidable (L.Avoids z) := by
  cases L <;> unfold Layer.Avoids <;> infer_instance

theorem newMem_iff {oa na : Hash.Arr} {hd cpy : Id} {xs : List Id} : Hash.NewMem oa na hd cpy xs ↔
    0 < na.base ∧ cpy ≠ 0 ∧ cpy ∉ hd :: xs ∧ (cpy < oa.base ∨ oa.endB < cpy) ∧ (cpy < na.base ∨ na.endB < cpy) ∧
      (∀ z ∈ hd :: xs, z < na.base ∨ na.endB < z) ∧ (oa.endB < na.base ∨ na.endB < oa.base) :=
  ⟨fun ⟨a, b, c, d, e, f, g⟩ => ⟨a, b, c, d, e, f, g⟩, fun ⟨a, b, c, d, e, f, g⟩ => ⟨a, b, c, d, e, f, g⟩⟩

instance (oa na : Hash.Arr) (hd cpy : Id) (xs : List Id) : Decidable (Hash.NewMem oa na hd cpy xs) := decidable_of_iff _ newMem_iff.symm

instance (hd : Id) (size : Nat) (pool : List Id) (e : Env) (L : Layer V) : Decidable (L.EnvOk hd size pool e) := by
  cases L <;> unfold Layer.EnvOk <;> infer_instance

instance (hd : Id) (size n : Nat) (pool : List Id) (e : Env) (L : Layer V) : Decidable (L.RehashOk hd size n pool e) := by
  cases L <;> unfold Layer.RehashOk <;> infer_instance

def decEnvAll (hd : Id) (size : Nat) (pool : List Id) : ∀ (e : Nat → Env) (Ls : List (Layer V)), Decidable (EnvAll hd size pool e Ls)
  | _, [] => isTrue trivial
  | e, L :: Ls => @instDecidableAnd _ _ inferInstance (decEnvAll hd size pool (fun i => e (i + 1)) Ls)

instance (hd : Id) (size : Nat) (pool : List Id) (e : Nat → Env) (Ls : List (Layer V)) : Decidable (EnvAll hd size pool e Ls) := decEnvAll hd size pool e Ls

instance (pool : List Id) (e : Env) (L : Layer V) : Decidable (L.CopyOk pool e) := by
  cases L <;> unfold Layer.CopyOk <;> infer_instance

def decCopyAll (pool : List Id) : ∀ (e : Nat → Env) (Ls : List (Layer V)), Decidable (CopyAll pool e Ls)
  | _, [] => isTrue trivial
  | e, L :: Ls => @instDecidableAnd _ _ inferInstance (decCopyAll pool (fun i => e (i + 1)) Ls)

instance (pool : List Id) (e : Nat → Env) (Ls : List (Layer V)) : Decidable (CopyAll pool e Ls) := decCopyAll pool e Ls

instance (pool : List Id) (e : Env) (L : Layer V) : Decidable (L.BlankOk pool e) := by
  cases L <;> unfold Layer.BlankOk <;> infer_instance

def decBlankAll (pool : List Id) : ∀ (e : Nat → Env) (Ls : List (Layer V)), Decidable (BlankAll pool e Ls)
  | _, [] => isTrue trivial
  | e, L :: Ls => @instDecidableAnd _ _ inferInstance (decBlankAll pool (fun i => e (i + 1)) Ls)

instance (pool : List Id) (e : Nat → Env) (Ls : List (Layer V)) : Decidable (BlankAll pool e Ls) := decBlankAll pool e Ls

instance (w : World V) (x : Id) : Decidable (w.Fresh x) := by unfold World.Fresh; infer_instance

instance (c : Container V) (hint : Option Id) : Decidable (c.HintOk hint) :=
  match hint with
  | none => isTrue (fun _ h => nomatch h)
  | some p => if h : p ∈ c.hd :: c.elems then isTrue (fun q e => Option.some.inj e ▸ h) else isFalse (fun k => h (k p rfl))

def decSome {α : Type} {P : α → Prop} (d : ∀ a, Decidable (P a)) : ∀ o : Option α, Decidable (∃ a, o = some a ∧ P a)
  | none => isFalse (fun ⟨_, h, _⟩ => nomatch h)
  | some a => match d a with
    | isTrue h => isTrue ⟨a, rfl, h⟩
    | isFalse h => isFalse (fun ⟨b, e, k⟩ => h (Option.some.inj e ▸ k))

instance {α : Type} {P : α → Prop} [d : ∀ a, Decidable (P a)] (o : Option α) : Decidable (∃ a, o = some a ∧ P a) := decSome d o

/-- A legality check for the operations used in examples; `false` for the others. -/
def legalB (w : World V) : Op V → Bool
  | .insert i _ x _ hint e => decide (∃ c, w.cs[i]? = some c ∧ w.Fresh x ∧ c.HintOk hint ∧ EnvAll c.hd c.count (x :: w.m.alloc) e c.ls)
  | .emplace i _ x _ hint e => decide (∃ c, w.cs[i]? = some c ∧ w.Fresh x ∧ c.HintOk hint ∧ EnvAll c.hd c.count (x :: w.m.alloc) e c.ls)
  | .extract i x => decide (∃ c, w.cs[i]? = some c ∧ x ∈ c.elems)
  | .insertNh i h hint e => decide (∃ c, w.cs[i]? = some c ∧ h < w.hs.length ∧ c.HintOk hint ∧ EnvAll c.hd c.count w.m.alloc e c.ls)
  | .dropHandle h => decide (h < w.hs.length)
  | .moveHandle h g => decide (h < w.hs.length ∧ g < w.hs.length)
  | .newHandle => true
  | .swapHandles h g => decide (h < w.hs.length ∧ g < w.hs.length)
  | .erase i x => decide (∃ c, w.cs[i]? = some c ∧ x ∈ c.elems)
  | .clear i => decide (i < w.cs.length)
  | .destroy i => decide (i < w.cs.length)
  | .replace i x _ _ _ => decide (∃ c, w.cs[i]? = some c ∧ x ∈ c.elems)
  | .modify i x _ _ => decide (∃ c, w.cs[i]? = some c ∧ x ∈ c.elems)
  | .swap i j => decide (∃ c, w.cs[i]? = some c ∧ ∃ d, w.cs[j]? = some d ∧ c.kinds = d.kinds)
  | .copy i hd _ ns e _ => decide (∃ c, w.cs[i]? = some c ∧ ns.length = c.count ∧ (hd :: ns).Nodup ∧ (∀ n ∈ hd :: ns, w.Fresh n) ∧ CopyAll (hd :: ns ++ w.m.alloc) e c.ls)
  | .newLike i hd _ _ e _ => decide (∃ c, w.cs[i]? = some c ∧ w.Fresh hd ∧ BlankAll (hd :: w.m.alloc) e c.ls)
  | .transfer i j x e => i ≠ j && decide (∃ c, w.cs[i]? = some c ∧ EnvAll c.hd c.count w.m.alloc e c.ls) && decide (∃ d, w.cs[j]? = some d ∧ x ∈ d.elems)
  | .relocate i k pos x => decide (∃ c, w.cs[i]? = some c ∧ x ∈ c.elems ∧ pos ∈ c.hd :: c.elems ∧ ∃ L, c.ls[k]? = some L ∧ L.keyed = false)
  | .place i k _ ins => decide (∃ c, w.cs[i]? = some c ∧ (∀ a ∈ ins, a.2 ∈ c.elems ∧ ∀ q ∈ a.1, q ∈ c.elems ∧ q ≠ a.2) ∧ ∃ L, c.ls[k]? = some L ∧ True)
  | .rehash i k n e => decide (∃ c, w.cs[i]? = some c ∧ ∃ L, c.ls[k]? = some L ∧ L.RehashOk c.hd c.count n w.m.alloc e)
  | _ => false

theorem legalB_sound {w : World V} {o : Op V} (h : legalB w o = true) : w.Legal o := by
  cases o with
  | new => exact nomatch h
  | modifyRb => exact nomatch h
  | rearrange => exact nomatch h
  | swapElements => exact nomatch h
  | swap i j =>
    simp only [legalB, decide_eq_true_eq] at h
    obtain ⟨c, h1, d, h2, h3⟩ := h
    exact ⟨c, d, h1, h2, h3⟩
  | transfer i j x e =>
    simp only [legalB, Bool.and_eq_true, decide_eq_true_eq, ne_eq] at h
    obtain ⟨⟨h1, c, h2, h3⟩, d, h4, h5⟩ := h
    exact ⟨h1, c, d, h2, h4, h5, h3⟩
  | relocate i k pos x =>
    simp only [legalB, decide_eq_true_eq] at h
    obtain ⟨c, h1, h2, h3, L, h4, h5⟩ := h
    exact ⟨c, L, h1, h4, h5, h2, h3⟩
  | place i k fail ins =>
    simp only [legalB, decide_eq_true_eq] at h
    obtain ⟨c, h1, h2, L, h3, -⟩ := h
    exact ⟨c, L, h1, h3, h2⟩
  | rehash i k n e =>
    simp only [legalB, decide_eq_true_eq] at h
    obtain ⟨c, h1, L, h2, h3⟩ := h
    exact ⟨c, L, h1, h2, h3⟩
  | _ => simp only [legalB, decide_eq_true_eq] at h; exact h

/-- Executes legal operations, going on after exceptions. -/
def runs : World V → List (Op V) → Option (World V)
  | w, [] => some w
  | w, o :: os =>
    if legalB w o then
      match w.step o with
      | .ok (w, _) => runs w os
      | .threw (w, _) => runs w os
      | _ => none
    else none

theorem runs_reach : ∀ {os : List (Op V)} {w w' : World V}, Reach w → runs w os = some w' → Reach w'
  | [], w, w', r, h => by obtain rfl := Option.some.inj h; exact r
  | o :: os, w, w', r, h => by
    unfold runs at h
    split at h
    · rename_i l
      split at h
      · rename_i k; exact runs_reach (.step r (legalB_sound l) (Or.inl k)) h
      · rename_i k; exact runs_reach (.step r (legalB_sound l) (Or.inr k)) h
      · exact nomatch h
    · exact nomatch h

namespace Ex

abbrev Val := Nat × Nat

/-- Indices: ordered unique by the first component, hashed non-unique by the second, sequenced, random access. -/
def is1 (base : Id) : List (Init Val) :=
  [.ord true (fun a b => a.1 < b.1), .hash .multi (fun a b => a.2 == b.2) (fun a => a.2) ⟨fun n => n + 1, fun n => n⟩ 0 base, .seq, .rnd (fun _ => 0)]

def env : Nat → Env := fun _ => { allocFail := false, base := 5000, junk := fun _ => 0, cpy := 4000, hashThrow := none, point := false, place := false }

def w0 : World Val := ⟨⟨fun _ => (0, 0), [], []⟩, [], []⟩
/-- Two containers. -/
def w2 : World Val := ⟨⟨fun _ => (0, 0), [2, 1], []⟩, [Container.new 1 7 (is1 1000), Container.new 2 7 (is1 2000)], []⟩

theorem sw_fst : StrictWeak (fun a b : Val => decide (a.1 < b.1)) :=
  ⟨by intro x; simp, by intro x y z; simp; omega, by intro x y z; simp; omega⟩

theorem eh_snd : EqHash (fun a b : Val => a.2 == b.2) (fun a => a.2) :=
  ⟨by intro x; simp, by intro x y; simp; intro h; exact h.symm, by intro x y z; simp; intro h k; exact h.trans k, by intro x y; simp⟩

theorem init_ok (w : World Val) {hd base : Id} (b0 : 0 < base) (h : ∀ z ∈ hd :: w.m.alloc, z < base) : ∀ a ∈ is1 base, a.Ok w hd := by
  intro a ha
  simp only [is1, List.mem_cons, List.not_mem_nil, or_false] at ha
  rcases ha with rfl | rfl | rfl | rfl
  · exact sw_fst
  · exact ⟨eh_snd, b0, fun z hz => Or.inl (h z hz)⟩
  · trivial
  · trivial

theorem w2_reach : Reach w2 := by
  have r0 : Reach w0 := .init _
  have r1 : Reach (⟨⟨fun _ => (0, 0), [1], []⟩, [Container.new 1 7 (is1 1000)], []⟩ : World Val) :=
    .step (o := .new 1 7 (is1 1000)) (r := ⟨0, true⟩) r0 ⟨⟨by decide, by decide, by decide⟩, by simp [is1], init_ok _ (by decide) (by decide)⟩ (Or.inl rfl)
  exact .step (o := .new 2 7 (is1 2000)) (r := ⟨0, true⟩) r1
    ⟨⟨by decide, by decide, by decide +kernel⟩, by simp [is1], init_ok _ (by decide) (by decide)⟩ (Or.inl rfl)

/-- A run with acceptances, a rejection and an exception. -/
def ops : List (Op Val) :=
  [.insert 0 (3, 7) 11 {} none env, .insert 0 (1, 5) 12 {} none env, .emplace 0 (2, 7) 13 {} none env, .insert 0 (3, 5) 14 {} none env,
   .insert 0 (4, 4) 15 { construct := true } none env, .insert 1 (2, 2) 16 {} none env, .insert 1 (9, 7) 17 {} none env,
   .extract 0 13, .relocate 0 2 12 11]

def w3 : World Val := (runs w2 ops).getD w0

theorem w3_some : (runs w2 ops).isSome = true := by decide +kernel

theorem w3_reach : Reach w3 := by
  obtain ⟨w', h⟩ := Option.isSome_iff_exists.1 w3_some
  have : w3 = w' := by unfold w3; rw [h]; rfl
  rw [this]
  exact runs_reach w2_reach h

/-- What the run leaves: in container 0 the elements 11 and 12, in container 1 the elements 16 and 17, in a handle the element 13. -/
theorem w3_seqs : w3.cs.map (·.seqs) = [[[12, 11], [11, 12], [11, 12], [11, 12]], [[16, 17], [16, 17], [16, 17], [16, 17]]] ∧ w3.hs = [some 13] := by
  decide +kernel

theorem w3_cs : ∃ c, w3.cs[0]? = some c := Option.isSome_iff_exists.1 (by decide +kernel : (w3.cs[0]?).isSome = true)

theorem w3_asked {c : Container Val} (h : w3.cs[0]? = some c) : c.asked = [.ord true (fun a b => a.1 < b.1), .hash .multi (fun a b => a.2 == b.2) (fun a => a.2), .seq, .rnd] := by
  have : (w3.cs[0]?).map (·.asked) = some [.ord true (fun a b => a.1 < b.1), .hash .multi (fun a b => a.2 == b.2) (fun a => a.2), .seq, .rnd] := rfl
  rw [h] at this
  exact Option.some.inj this

theorem w3_val : w3.m.val 12 = (1, 5) ∧ w3.m.val 11 = (3, 7) ∧ w3.m.val 13 = (2, 7) := by decide +kernel

theorem w3_elems : (w3.cs[0]?).map (·.elems) = some [12, 11] := by decide +kernel

theorem elems0 {c : Container Val} (h : w3.cs[0]? = some c) : c.elems = [12, 11] := by
  have := w3_elems
  rw [h] at this
  exact Option.some.inj this

theorem at0 : w3.cs[0]? = some (w3.cs[0]?.getD ⟨0, [], 0⟩) := by
  obtain ⟨c, h⟩ := w3_cs
  rw [h]; rfl

/-- Container 0. -/
def c0 : Container Val := w3.cs[0]?.getD ⟨0, [], 0⟩

theorem hc0 : w3.cs[0]? = some c0 := at0

theorem mem0 : c0 ∈ w3.cs := List.mem_of_getElem? hc0

/-- Which values container 0 bans. -/
theorem bans0 (v : Val) : c0.Bans w3.m.val [] v ↔ v.1 = 1 ∨ v.1 = 3 := by
  unfold Container.Bans
  rw [w3_asked hc0, elems0 hc0]
  simp only [List.mem_cons, List.not_mem_nil, or_false, not_false_eq_true, true_and]
  constructor
  · rintro ⟨S, rfl | rfl | rfl | rfl, h2, y, rfl | rfl, h3⟩
    · left; simp [Spec.equiv, equivOf, w3_val.1] at h3; omega
    · right; simp [Spec.equiv, equivOf, w3_val.2.1] at h3; omega
    all_goals exact nomatch h2
  · rintro (h | h)
    · exact ⟨_, Or.inl rfl, rfl, 12, Or.inl rfl, by simp [Spec.equiv, equivOf, w3_val.1, h]⟩
    · exact ⟨_, Or.inl rfl, rfl, 11, Or.inr rfl, by simp [Spec.equiv, equivOf, w3_val.2.1, h]⟩

theorem bans0' (v : Val) : c0.Bans w3.m.val [12] v ↔ v.1 = 3 := by
  unfold Container.Bans
  rw [w3_asked hc0, elems0 hc0]
  simp only [List.mem_cons, List.not_mem_nil, or_false]
  constructor
  · rintro ⟨S, rfl | rfl | rfl | rfl, h2, y, rfl | rfl, h3, h4⟩
    · exact absurd rfl h3
    · simp [Spec.equiv, equivOf, w3_val.2.1] at h4; omega
    · exact absurd rfl h3
    all_goals exact nomatch h2
  · intro h
    exact ⟨_, Or.inl rfl, rfl, 11, Or.inr rfl, by decide, by simp [Spec.equiv, equivOf, w3_val.2.1, h]⟩

theorem env_quiet (k : Nat) : (env k).Quiet := ⟨rfl, rfl, rfl, rfl⟩

theorem no_trouble : ¬ Trouble {} env := by
  rintro (h | h | ⟨k, h⟩)
  · exact nomatch h
  · exact nomatch h
  · exact h (env_quiet k)

end Ex
end MI.Cont
