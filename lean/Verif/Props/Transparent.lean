import Verif.Meta.TransparentSpec
import Verif.Cont.Promote
import Mathlib.Tactic.ByContra
/-! C93: detection of conversions in the calls of function objects. -/
namespace MI.Meta
variable {T : Type} [DecidableEq T] {f : Callee T} {a b : T}

theorem transparentClass_iff {ops : List (Overload T)} : transparentClass ops a b = true ↔ ∃ o ∈ ops, o.Takes a b 0 0 ∧ o.pref ≠ .general := by
  unfold transparentClass
  simp only [Bool.not_eq_true', ← Bool.not_eq_true, List.all_eq_true, List.mem_filter, Overload.viable, Overload.loses, Overload.Takes]
  constructor
  · intro h
    by_contra hn
    refine h fun o ho => ?_
    by_contra hl
    simp at hl
    exact hn ⟨o, ho.1, ⟨by have := ho.2; simp at this; exact this.1.1, hl.1.1, hl.1.2⟩, hl.2⟩
  · rintro ⟨o, ho, ⟨hc, h1, h2⟩, hp⟩ h
    have := h o ⟨ho, by simp [hc, h1, h2]⟩
    simp [h1, h2, hp] at this

/-- C93: if a call is held to convert no argument, by what could be found out about it, it does not convert any. -/
theorem C93_sound (k : f.Known) (h : isTransparent f a b = true) : ¬ Converts f a b := by
  intro c
  cases c with
  | @cls fin ops _ _ o m n s t ne =>
    cases k
    obtain ⟨p, hp, tp, -⟩ := transparentClass_iff.1 h
    obtain ⟨-, m', n', t', best⟩ := s
    have := best p hp 0 0 tp
    have e1 := t.2.1.symm.trans t'.2.1
    have e2 := t.2.2.symm.trans t'.2.2
    cases e1; cases e2
    omega
  | fn hc =>
    simp [isTransparent, transparentFunction, Param.isFor] at h
    rcases hc with hc | hc
    · exact hc h.1.symm
    · exact hc h.2.symm

/-- The full claim: a call that converts no argument is held to convert none. -/
def C93_complete_full : Prop := ∀ (f : Callee Nat) (a b : Nat), NoConversion false f a b → isTransparent f a b = true

/-- `std::less<>` and the like: the only overload takes all arguments as they are, by `T&&,Q&&`. -/
def forwarding : Overload Nat := ⟨fun _ => some 0, fun _ => some 0, .general, true⟩

/-- C93: the full claim is false of the code, for function objects such as `std::less<>`. -/
theorem C93_complete_full_false : ¬ C93_complete_full := by
  intro h
  have := h (.cls false [forwarding]) 0 1 (.cls (o := forwarding) ⟨by simp, 0, 0, ⟨rfl, rfl, rfl⟩, by simp⟩ ⟨rfl, rfl, rfl⟩ (by simp))
  exact absurd this (by decide)

/-- C93: a call that converts no argument is held to convert none, unless it goes to an overload that is more general than `const T&,const Q&`. -/
theorem C93_complete_partial (h : NoConversion true f a b) : isTransparent f a b = true := by
  cases h with
  | @cls fin ops _ _ o s t p =>
    cases fin
    · exact transparentClass_iff.2 ⟨o, s.1, t, p rfl⟩
    · rfl
  | fn h1 h2 => simp [isTransparent, transparentFunction, Param.isFor, h1.symm, h2.symm]

/-- C93: what cannot be examined is held to convert nothing, so that lookup arguments are passed on as they are. -/
theorem C93_default (k : ¬ f.Known) (conv : T → T → Bool) : isTransparent f a b = true ∧ promotes1 conv f a b = false ∧ promotes2 conv f a b = false := by
  have : ∀ a b, isTransparent f a b = true := by
    intro a b
    cases f with
    | cls fin ops => cases fin; exact absurd rfl k; rfl
    | fn => exact absurd trivial k
    | other => rfl
  simp [promotes1, promotes2, this]

/-- C93: a lookup argument (type `a`) is converted to a key (type `b`) in advance only if there is such a conversion, the call with the converted argument
converts nothing more, and the call with the argument as it is would have converted an argument, be invalid, or go to an overload more general than `const T&,const Q&`. -/
theorem C93_promotes {conv : T → T → Bool} : 
    (promotes1 conv f a b = true → conv a b = true ∧ ¬ Converts f b b ∧ ¬ NoConversion true f a b) ∧
    (promotes2 conv f b a = true → conv a b = true ∧ ¬ Converts f b b ∧ ¬ NoConversion true f b a) := by
  have hk : ∀ {x y : T}, isTransparent f x y = false → f.Known := by
    intro x y h
    by_contra k
    rw [(C93_default k fun _ _ => true).1] at h
    cases h
  have main : ∀ {x y : T}, isTransparent f x y = false → isTransparent f b b = true → ¬ Converts f b b ∧ ¬ NoConversion true f x y := by
    intro x y h1 h2
    refine ⟨C93_sound (hk h1) h2, fun n => ?_⟩
    rw [C93_complete_partial n] at h1
    cases h1
  constructor
  · intro h
    simp only [promotes1, Bool.and_eq_true, Bool.not_eq_true'] at h
    exact ⟨h.1.2, main h.1.1 h.2⟩
  · intro h
    simp only [promotes2, Bool.and_eq_true, Bool.not_eq_true'] at h
    exact ⟨h.1.2, main h.1.1 h.2⟩

/-- C93: a call that converts arguments, of a function object that takes keys as they are, is given the converted argument if there is a conversion. -/
theorem C93_promoted {conv : T → T → Bool} (k : f.Known) (n : NoConversion true f b b) (hc : conv a b = true) :
    (Converts f a b → promotes1 conv f a b = true) ∧ (Converts f b a → promotes2 conv f b a = true) := by
  have main : ∀ {x y : T}, Converts f x y → isTransparent f x y = false := by
    intro x y c
    by_contra h
    exact C93_sound k (by simpa using h) c
  constructor
  · intro c; simp [promotes1, main c, hc, C93_complete_partial n]
  · intro c; simp [promotes2, main c, hc, C93_complete_partial n]

/-- C93: the lookups of C80 make this decision, if what they are given about the function object is what the code finds out. -/
theorem C93_lookups {K CK : Type} {conv : T → T → Bool} {g : Fn K CK} (h1 : g.exactLeft = isTransparent f a b) (h2 : g.exactRight = isTransparent f b a)
    (h3 : g.exactBoth = isTransparent f b b) (hc : g.conv.isSome = conv a b) :
    g.first.isSome = promotes1 conv f a b ∧ g.second.isSome = promotes2 conv f b a := by
  simp only [Fn.first, Fn.second, promotes1, promotes2, h1, h2, h3, ← hc]
  cases isTransparent f a b <;> cases isTransparent f b a <;> cases isTransparent f b b <;> simp

/-- Arguments are converted in advance only if the call would convert them. -/
def C93_promotes_full : Prop := ∀ (conv : Nat → Nat → Bool) (f : Callee Nat) (a b : Nat), promotes1 conv f a b = true → ¬ NoConversion false f a b

/-- `operator()(const K&,const K&)` for keys of type 1; arguments of type 0 are converted. -/
def forKeys : Overload Nat :=
  ⟨fun t => if t = 1 then some 0 else if t = 0 then some 2 else none, fun t => if t = 1 then some 0 else if t = 0 then some 2 else none, .special, true⟩

/-- C93: false of the code, for a function object with one overload for keys and a forwarding one for everything else. -/
theorem C93_promotes_full_false : ¬ C93_promotes_full := by
  intro h
  refine h (fun _ _ => true) (.cls false [forKeys, forwarding]) 0 1 (by decide) (.cls (o := forwarding) ⟨by simp, 0, 0, ⟨rfl, rfl, rfl⟩, by simp⟩ ⟨rfl, rfl, rfl⟩ (by simp))

/-- A class with the overload for keys only: arguments are converted in advance. `std::less<>`: they are not. -/
example : promotes1 (fun _ _ => true) (.cls false [forKeys]) 0 1 = true ∧ promotes1 (fun _ _ => true) (.cls false [forwarding]) 0 1 = false ∧
    promotes1 (fun _ _ => true) (.cls true [forKeys]) 0 1 = false ∧ promotes2 (fun _ _ => true) (.fn (.cref 1) (.value 1)) 1 0 = true := by decide

/-- The hypotheses of `C93_lookups` are met: keys are strings, arguments numbers of digits. -/
example : (Fn.first (K := String) (CK := Nat) ⟨fun x k => x < k.length, fun k x => k.length < x, fun k l => k.length < l.length, false, false, true,
    some fun x => String.ofList (List.replicate x 'a')⟩).isSome = promotes1 (fun _ _ => true) (.cls false [forKeys]) 0 1 :=
  (C93_lookups (by decide) (by decide) (by decide) rfl).1

/-- The hypotheses of `C93_promoted` are met. -/
example : NoConversion true (.cls false [forKeys]) 1 1 ∧ Converts (.cls false [forKeys]) 0 1 :=
  ⟨.cls (o := forKeys) ⟨by simp, 0, 0, ⟨rfl, rfl, rfl⟩, by simp⟩ ⟨rfl, rfl, rfl⟩ (by decide),
   .cls (o := forKeys) (m := 2) (n := 0)
     ⟨by simp, 2, 0, ⟨rfl, rfl, rfl⟩, by rintro o' ho m' n' ⟨-, h1, h2⟩; cases List.mem_singleton.1 ho; cases h1; cases h2; omega⟩ ⟨rfl, rfl, rfl⟩ (by decide)⟩
end MI.Meta
