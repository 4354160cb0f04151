import Mathlib.Data.List.Forall2
import Verif.Meta.Key
/-!
# C87: the alias template `key`

Documented in doc/reference/key_extraction.html:2161-2229. `key<K>` is the extractor for the type of pointer `K` is; `key<K0,…,Kn>` is a `composite_key` of the extractors of its arguments, for the least generic
of their classes. Elements of the container are passed to all the extractors, so it has to be convertible to all the classes.
-/
namespace MI.Meta
variable {T P : Type} {conv : T → T → Bool}

/-- The class, or the argument, that a pointer is for. -/
def Ptr.owner : Ptr T P → T
  | .data a _ => a
  | .memFun a _ _ _ _ _ => a
  | .fn a _ _ => a

/-- The documented extractor for a pointer. -/
inductive Documented : Ptr T P → Extractor T P → Prop
  | member (a p) : Documented (.data a p) (.member a p)
  | memFun (a p n) : Documented (.memFun a p false false none n) (.memFun a p)
  | constMemFun (a p n) : Documented (.memFun a p true false none n) (.constMemFun a p)
  | volatileMemFun (a p n) : Documented (.memFun a p false true none n) (.volatileMemFun a p)
  | cvMemFun (a p n) : Documented (.memFun a p true true none n) (.cvMemFun a p)
  | refMemFun (a p n) : Documented (.memFun a p false false (some false) n) (.refMemFun a p)
  | crefMemFun (a p n) : Documented (.memFun a p true false (some false) n) (.crefMemFun a p)
  | vrefMemFun (a p n) : Documented (.memFun a p false true (some false) n) (.vrefMemFun a p)
  | cvrefMemFun (a p n) : Documented (.memFun a p true true (some false) n) (.cvrefMemFun a p)
  | globalFun (a p n) : Documented (.fn a p n) (.globalFun a p)

theorem keyImpl1_iff (k : Ptr T P) (a : T) (e : Extractor T P) : keyImpl1 k = some (a, e) ↔ a = k.owner ∧ Documented k e := by
  constructor
  · intro h
    cases k with
    | data b p => cases h; exact ⟨rfl, .member _ _⟩
    | fn b p n => cases h; exact ⟨rfl, .globalFun _ _ _⟩
    | memFun b p c v r n =>
      cases c <;> cases v <;> rcases r with _ | r <;> (try cases r) <;> cases h <;> exact ⟨rfl, by constructor⟩
  · rintro ⟨rfl, h⟩
    cases h <;> rfl

theorem keyImpls_iff : ∀ {ks : List (Ptr T P)} {es : List (T × Extractor T P)}, keyImpls ks = some es ↔ es.map (·.1) = ks.map Ptr.owner ∧ List.Forall₂ Documented ks (es.map (·.2))
  | [], es => by cases es <;> simp [keyImpls]
  | k :: ks, es => by
    simp only [keyImpls]
    constructor
    · intro h
      rcases e1 : keyImpl1 k with _ | ⟨a, e⟩
      · rw [e1] at h; cases h
      rcases e2 : keyImpls ks with _ | fs
      · rw [e1, e2] at h; cases h
      rw [e1, e2] at h; cases h
      obtain ⟨rfl, d⟩ := (keyImpl1_iff k a e).1 e1
      obtain ⟨i1, i2⟩ := keyImpls_iff.1 e2
      exact ⟨by simp [i1], .cons d i2⟩
    · rintro ⟨h1, h2⟩
      cases es with
      | nil => cases h1
      | cons f fs =>
        obtain ⟨a, e⟩ := f
        simp only [List.map_cons, List.cons.injEq] at h1 h2
        cases h2 with
        | cons d ds =>
          rw [(keyImpl1_iff k a e).2 ⟨h1.1, d⟩, keyImpls_iff.2 ⟨h1.2, ds⟩]

/-- C87: one argument. `key<K>` is the documented extractor, for pointers with and without `noexcept`, and nothing else is accepted. -/
theorem C87_single (conv : T → T → Bool) (decay : T → T) {limit : Nat} (hl : 0 < limit) (k : Ptr T P) (r : KeyType T P) :
    key conv decay limit [k] = some r ↔ ∃ e, r = .single e ∧ Documented k e := by
  have h1 : [k].length ≤ limit := hl
  rw [key, if_pos h1]
  constructor
  · intro h
    rcases e1 : keyImpl1 k with _ | ⟨a, e⟩
    · simp only [keyImpls, e1] at h; cases h
    · simp only [keyImpls, e1] at h; cases h
      exact ⟨e, rfl, ((keyImpl1_iff k a e).1 e1).2⟩
  · rintro ⟨e, rfl, d⟩
    simp only [keyImpls, (keyImpl1_iff k _ e).2 ⟨rfl, d⟩]

/-- One class is convertible to another, as classes are to their bases. -/
structure Derives (conv : T → T → Bool) : Prop where
  refl : ∀ t, conv t t = true
  trans : ∀ a b c, conv a b = true → conv b c = true → conv a c = true

theorem least_spec (D : Derives conv) : ∀ {l : List T} {t r : T}, leastGeneric conv t l = some r → r ∈ t :: l ∧ ∀ q ∈ t :: l, conv r q = true
  | [], t, r, h => by cases h; simp [D.refl]
  | q :: l, t, r, h => by
    simp only [leastGeneric] at h
    split at h
    case isFalse => cases h
    rename_i hc
    obtain ⟨i1, i2⟩ := least_spec D h
    by_cases c : conv t q = true
    · rw [if_pos c] at i1 i2
      refine ⟨?_, fun z hz => ?_⟩
      · rcases List.mem_cons.1 i1 with rfl | i1 <;> simp [*]
      · rcases List.mem_cons.1 hz with rfl | hz
        · exact i2 _ (by simp)
        rcases List.mem_cons.1 hz with rfl | hz
        · exact D.trans _ _ _ (i2 _ (by simp)) c
        · exact i2 _ (by simp [hz])
    · rw [if_neg c] at i1 i2
      have c' : conv q t = true := by simpa [c] using hc
      refine ⟨?_, fun z hz => ?_⟩
      · rcases List.mem_cons.1 i1 with rfl | i1 <;> simp [*]
      · rcases List.mem_cons.1 hz with rfl | hz
        · exact D.trans _ _ _ (i2 _ (by simp)) c'
        rcases List.mem_cons.1 hz with rfl | hz
        · exact i2 _ (by simp)
        · exact i2 _ (by simp [hz])

theorem least_total : ∀ {l : List T} {t : T}, (∀ a ∈ t :: l, ∀ b ∈ t :: l, conv a b = true ∨ conv b a = true) → ∃ r, leastGeneric conv t l = some r
  | [], t, _ => ⟨t, rfl⟩
  | q :: l, t, h => by
    have h1 := h t (by simp) q (by simp)
    have : ∃ r, leastGeneric conv (if conv t q then t else q) l = some r := by
      apply least_total
      intro a ha b hb
      have sub : ∀ z ∈ (if conv t q then t else q) :: l, z ∈ t :: q :: l := by
        intro z hz
        rcases List.mem_cons.1 hz with rfl | hz
        · split <;> simp
        · simp [hz]
      exact h a (sub a ha) b (sub b hb)
    obtain ⟨r, e⟩ := this
    exact ⟨r, by rw [leastGeneric, if_pos (by simpa using h1)]; exact e⟩

/-- C87: two or more arguments. The extractors are the documented ones, one for each argument and in their order; the value type is one of the classes of the arguments, and is convertible to all of them. -/
theorem C87_composite (D : Derives conv) {decay : T → T} {limit : Nat} {ks : List (Ptr T P)} (h2 : 2 ≤ ks.length) {r : KeyType T P} (h : key conv decay limit ks = some r) :
    ks.length ≤ limit ∧ ∃ v es, r = .composite v es ∧ List.Forall₂ Documented ks es ∧ (∃ k ∈ ks, v = decay k.owner) ∧ ∀ k ∈ ks, conv v (decay k.owner) = true := by
  unfold key at h
  split at h
  case isFalse => cases h
  rename_i hl
  refine ⟨hl, ?_⟩
  rcases e : keyImpls ks with _ | es
  · rw [e] at h; cases h
  obtain ⟨o, d⟩ := keyImpls_iff.1 e
  have len : es.length = ks.length := by simpa using congrArg List.length o
  match es, len, e, o, d, h with
  | [], len, _, _, _, _ => simp at len; omega
  | [_], len, _, _, _, _ => simp at len; omega
  | (a, f) :: g :: es, len, e, o, d, h =>
    rw [e] at h
    simp only at h
    split at h
    · cases h
    rename_i v hv
    cases h
    obtain ⟨m1, m2⟩ := least_spec D hv
    have o' : decay a :: (g :: es).map (fun x => decay x.1) = ks.map (fun k => decay k.owner) := by
      have := congrArg (List.map decay) o
      simpa [Function.comp_def] using this
    rw [o'] at m1 m2
    refine ⟨v, _, rfl, d, ?_, fun k hk => m2 _ (List.mem_map.2 ⟨k, hk, rfl⟩)⟩
    obtain ⟨k, hk, rfl⟩ := List.mem_map.1 m1
    exact ⟨k, hk, rfl⟩

/-- C87: pointers for which there is an extractor are accepted, up to the limit of `composite_key`, if of any two of their classes one is convertible to the other, as when all are bases of each other in a line. The order of the arguments does not matter then: the value
types for two orders are convertible to each other. -/
theorem C87_accepted (D : Derives conv) {decay : T → T} {limit : Nat} {ks : List (Ptr T P)} (h0 : ks ≠ []) (hl : ks.length ≤ limit) (hd : ∀ k ∈ ks, ∃ e, Documented k e)
    (hc : ∀ j ∈ ks, ∀ k ∈ ks, conv (decay j.owner) (decay k.owner) = true ∨ conv (decay k.owner) (decay j.owner) = true) :
    (∃ r, key conv decay limit ks = some r) ∧
    ∀ ks' v v' es es', ks.Perm ks' → key conv decay limit ks = some (.composite v es) → key conv decay limit ks' = some (.composite v' es') → conv v v' = true ∧ conv v' v = true := by
  constructor
  · have : ∃ es, keyImpls ks = some es := by
      clear h0 hl hc
      induction ks with
      | nil => exact ⟨[], rfl⟩
      | cons k ks ih =>
        obtain ⟨es, e⟩ := ih fun z hz => hd z (by simp [hz])
        obtain ⟨f, d⟩ := hd k (by simp)
        exact ⟨(k.owner, f) :: es, by simp only [keyImpls, (keyImpl1_iff k _ f).2 ⟨rfl, d⟩, e]⟩
    obtain ⟨es, e⟩ := this
    obtain ⟨o, -⟩ := keyImpls_iff.1 e
    rw [key, if_pos hl, e]
    match es, o with
    | [], o => exact absurd (List.map_eq_nil_iff.1 o.symm) h0
    | [(a, f)], _ => exact ⟨_, rfl⟩
    | (a, f) :: g :: es, o =>
      have o' : decay a :: (g :: es).map (fun x => decay x.1) = ks.map (fun k => decay k.owner) := by
        have := congrArg (List.map decay) o
        simpa [Function.comp_def] using this
      obtain ⟨v, hv⟩ := least_total (conv := conv) (t := decay a) (l := (g :: es).map fun x => decay x.1) (by
        rw [o']
        intro x hx y hy
        obtain ⟨j, hj, rfl⟩ := List.mem_map.1 hx
        obtain ⟨k, hk, rfl⟩ := List.mem_map.1 hy
        exact hc j hj k hk)
      simp only [hv]
      exact ⟨_, rfl⟩
  · intro ks' v v' es es' hp h h'
    have two : ∀ {ks : List (Ptr T P)} {v es}, key conv decay limit ks = some (.composite v es) → 2 ≤ ks.length := by
      intro ks v es h
      match ks, h with
      | [], h => simp [key, keyImpls] at h
      | [k], h =>
        exfalso
        unfold key at h
        split at h
        · rcases q : keyImpl1 k with _ | ⟨a, e⟩ <;> simp [keyImpls, q] at h
        · cases h
      | _ :: _ :: _, _ => simp
    obtain ⟨-, _, _, e1, -, ⟨k, hk, e2⟩, e3⟩ := C87_composite D (two h) h
    obtain ⟨-, _, _, f1, -, ⟨k', hk', f2⟩, f3⟩ := C87_composite D (two h') h'
    cases e1; cases f1
    exact ⟨f2 ▸ e3 k' (hp.mem_iff.2 hk'), e2 ▸ f3 k (hp.mem_iff.1 hk)⟩

/-- Three classes: 2 derives from 1, which derives from 0. -/
def exConv (a b : Nat) : Bool := decide (b ≤ a)

theorem exConv_derives : Derives exConv := ⟨by simp [exConv], by simp only [exConv, decide_eq_true_eq]; omega⟩

/-- `key<&Base::x,&Derived::f,&g>` with a member of class 0, a `const noexcept` member function of class 2 and a function of class 1. -/
example : key exConv id 10 [.data 0 "x", .memFun 2 "f" true false none true, .fn 1 "g" false] = some (.composite 2 [.member 0 "x", .constMemFun 2 "f", .globalFun 1 "g"]) := rfl

example : ∃ r, key exConv id 10 [Ptr.fn 1 "g" false, .data 0 "x", .memFun 2 "f" true false none true] = some r :=
  (C87_accepted (ks := [Ptr.fn 1 "g" false, .data 0 "x", .memFun 2 "f" true false none true]) exConv_derives (by simp) (by simp) (by
    intro k hk
    simp only [List.mem_cons, List.not_mem_nil, or_false] at hk
    rcases hk with rfl | rfl | rfl
    · exact ⟨_, .globalFun _ _ _⟩
    · exact ⟨_, .member _ _⟩
    · exact ⟨_, .constMemFun _ _ _⟩) (by simp [exConv, Ptr.owner])).1

/-- The hypotheses of the theorem on two or more arguments are met by the first of these. -/
example : ∃ v es, List.Forall₂ Documented [Ptr.data 0 "x", .memFun 2 "f" true false none true, .fn 1 "g" false] es ∧ exConv v 0 = true ∧ exConv v 2 = true ∧ exConv v 1 = true := by
  obtain ⟨-, v, es, -, h1, -, h2⟩ := C87_composite (decay := id) (limit := 10) exConv_derives (ks := [Ptr.data 0 "x", .memFun 2 "f" true false none true, .fn 1 "g" false]) (by simp) rfl
  exact ⟨v, es, h1, h2 (.data 0 "x") (by simp), h2 (.memFun 2 "f" true false none true) (by simp), h2 (.fn 1 "g" false) (by simp)⟩

/-- A function that is not a documented argument: a member function for rvalues. -/
example : ¬ ∃ r, key exConv id 10 [Ptr.memFun 2 "f" true false (some true) false] = some r := by
  rintro ⟨r, h⟩
  obtain ⟨e, -, d⟩ := (C87_single exConv id (by decide) _ r).1 h
  cases d

/-- Class 3 derives from 1 and 2, which have nothing to do with each other: the order of the arguments decides whether they are accepted. -/
def exDiamond (a b : Nat) : Bool := a == b || a == 3

theorem C87_diamond : Derives exDiamond ∧ (∃ v es, key exDiamond id 10 [Ptr.data 3 "z", .data 1 "x", .data 2 "y"] = some (.composite v es)) ∧
    key exDiamond id 10 [Ptr.data 1 "x", .data 2 "y", .data 3 "z"] = none := by
  refine ⟨⟨by simp [exDiamond], fun a b c => ?_⟩, ⟨_, _, rfl⟩, rfl⟩
  simp only [exDiamond, Bool.or_eq_true, beq_iff_eq]
  omega

end MI.Meta
