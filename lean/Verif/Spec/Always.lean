import Verif.Spec.Runs
/-!
# Computations whatever user functions do

`Always P c`: however the calls of user functions made by `c` end — any answers, consistent with each other or not, and, for `Runs`, any exceptions — the result of
`c` satisfies `P`.
-/
namespace MI

namespace Asks
variable {Q α β : Type}

/-- Whatever the answers are, the result satisfies `P`. -/
def Always (P : α → Prop) : Asks Q α → Prop
  | done a => P a
  | call _ k => ∀ b, (k b).Always P

theorem Always.mono {P R : α → Prop} (h : ∀ a, P a → R a) : ∀ {c : Asks Q α}, c.Always P → c.Always R
  | done a, k => h a k
  | call _ _, k => fun b => (k b).mono h

theorem Always.of {P : α → Prop} (h : ∀ a, P a) : ∀ c : Asks Q α, c.Always P
  | done a => h a
  | call _ k => fun b => Always.of h (k b)

theorem Always.bind {P : α → Prop} {R : β → Prop} {f : α → Asks Q β} (h : ∀ a, P a → (f a).Always R) :
    ∀ {c : Asks Q α}, c.Always P → (c.bind f).Always R
  | done a, k => h a k
  | call _ _, k => fun b => Always.bind h (k b)

/-- A computation that begins with one whose result does not matter. -/
theorem Always.any {R : β → Prop} (c : Asks Q α) {f : α → Asks Q β} (h : ∀ a, (f a).Always R) : (c >>= f).Always R :=
  Always.bind (P := fun _ => True) (fun a _ => h a) (Always.of (fun _ => trivial) c)

theorem Always.then {P : α → Prop} {R : β → Prop} {c : Asks Q α} {f : α → Asks Q β} (k : c.Always P) (h : ∀ a, P a → (f a).Always R) :
    (c >>= f).Always R := Always.bind h k

theorem Always.ret {P : α → Prop} {a : α} (h : P a) : (pure a : Asks Q α).Always P := h

end Asks

namespace Runs
variable {Q Q' α β : Type}

/-- Whatever the calls return, and whichever of them throw, the result satisfies `P`. -/
def Always (P : α → Prop) : Runs Q α → Prop
  | done a => P a
  | call _ ok threw => (∀ b, (ok b).Always P) ∧ threw.Always P

theorem Always.mono {P R : α → Prop} (h : ∀ a, P a → R a) : ∀ {c : Runs Q α}, c.Always P → c.Always R
  | done a, k => h a k
  | call _ _ _, k => ⟨fun b => (k.1 b).mono h, k.2.mono h⟩

theorem Always.bind {P : α → Prop} {R : β → Prop} {f : α → Runs Q β} (h : ∀ a, P a → (f a).Always R) :
    ∀ {c : Runs Q α}, c.Always P → (c.bind f).Always R
  | done a, k => h a k
  | call _ _ _, k => ⟨fun b => Always.bind h (k.1 b), Always.bind h k.2⟩

theorem Always.then {P : α → Prop} {R : β → Prop} {c : Runs Q α} {f : α → Runs Q β} (k : c.Always P) (h : ∀ a, P a → (f a).Always R) :
    (c >>= f).Always R := Always.bind h k

theorem Always.ret {P : α → Prop} {a : α} (h : P a) : (pure a : Runs Q α).Always P := h

theorem Always.of {P : α → Prop} (h : ∀ a, P a) : ∀ c : Runs Q α, c.Always P
  | done a => h a
  | call _ ok threw => ⟨fun b => Always.of h (ok b), Always.of h threw⟩

/-- A search that may be cut short by an exception. -/
theorem Always.attempt {P : α → Prop} (q : Q' → Q) : ∀ {c : Asks Q' α}, c.Always P →
    (attempt q c).Always (fun r => r = none ∨ ∃ a, r = some a ∧ P a)
  | .done a, k => Or.inr ⟨a, rfl, k⟩
  | .call _ _, k => ⟨fun b => Always.attempt q (k b), Or.inl rfl⟩

theorem Always.exec {P : α → Prop} (fate : Nat → Q → Option Bool) : ∀ {c : Runs Q α} (t : Nat), c.Always P → P (c.exec fate t).1
  | done a, t, k => k
  | call q ok threw, t, k => by
    rw [Runs.exec]
    cases h : fate t q with
    | none => exact Always.exec fate (t + 1) k.2
    | some b => exact Always.exec fate (t + 1) (k.1 b)

/-- Whatever the calls return, if none of them throws, the result satisfies `P`. -/
def Calm (P : α → Prop) : Runs Q α → Prop
  | done a => P a
  | call _ ok _ => ∀ b, (ok b).Calm P

theorem Always.calm {P : α → Prop} : ∀ {c : Runs Q α}, c.Always P → c.Calm P
  | done _, k => k
  | call _ _ _, k => fun b => (k.1 b).calm

theorem Calm.and {P R : α → Prop} : ∀ {c : Runs Q α}, c.Calm P → c.Calm R → c.Calm fun a => P a ∧ R a
  | done _, k, l => ⟨k, l⟩
  | call _ _ _, k, l => fun b => (k b).and (l b)

theorem Calm.bind {P : α → Prop} {R : β → Prop} {f : α → Runs Q β} (h : ∀ a, P a → (f a).Calm R) :
    ∀ {c : Runs Q α}, c.Calm P → (c.bind f).Calm R
  | done a, k => h a k
  | call _ _ _, k => fun b => Calm.bind h (k b)

theorem Calm.then {P : α → Prop} {R : β → Prop} {c : Runs Q α} {f : α → Runs Q β} (k : c.Calm P) (h : ∀ a, P a → (f a).Calm R) :
    (c >>= f).Calm R := Calm.bind h k

theorem Calm.attempt {P : α → Prop} (q : Q' → Q) : ∀ {c : Asks Q' α}, c.Always P → (attempt q c).Calm (fun r => ∃ a, r = some a ∧ P a)
  | .done a, k => ⟨a, rfl, k⟩
  | .call _ _, k => fun b => Calm.attempt q (k b)

theorem Calm.exec {P : α → Prop} (fate : Nat → Q → Option Bool) : ∀ {c : Runs Q α} (t : Nat), c.Calm P → (¬ ∃ p ∈ (c.exec fate t).2, p.2 = true) → P (c.exec fate t).1
  | done a, t, k, _ => k
  | call q ok threw, t, k, n => by
    rw [Runs.exec] at n ⊢
    cases h : fate t q with
    | none => simp [h] at n
    | some b =>
      rw [h] at n
      exact Calm.exec fate (t + 1) (k b) fun ⟨p, hp, e⟩ => n ⟨p, List.mem_cons_of_mem _ hp, e⟩

theorem Calm.result {P : α → Prop} {c : Runs Q α} (k : c.Calm P) {fate : Nat → Q → Option Bool} (n : ¬ c.throws fate) : P (c.result fate) := k.exec fate 0 n

/-- `Always` speaks about all fates. -/
theorem Always.result {P : α → Prop} {c : Runs Q α} (k : c.Always P) (fate : Nat → Q → Option Bool) : P (c.result fate) := k.exec fate 0

end Runs
end MI
