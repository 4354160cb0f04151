import Verif.Alloc.Model
/-!
# Invariants of allocator use

One proof for several invariants: `R a s` is what is kept of an array `s` of a container with allocator `a`, `A` says that containers may be made from ones with
other allocators, `B` that the deallocation of arrays is followed too.
-/
set_option linter.unusedVariables false
set_option linter.unusedSimpArgs false
namespace MI.Alloc

/-- The step makes no container from one with another allocator: copies and moves get an allocator equal to that of the source, unless assignment propagates it. -/
def World.Keeps (T : Traits) (w : World) : Op → Prop
  | .copy i a _ => ∀ c, w.cs[i]? = some c → a.getD (T.soccc c.al) = c.al
  | .moveTo i a _ => ∀ c, w.cs[i]? = some c → a = c.al
  | .assign i j _ => T.pocca = true ∨ ∀ c d, w.cs[i]? = some c → w.cs[j]? = some d → c.al = d.al
  | .moveAssign i j _ => T.pocma = true ∨ ∀ c d, w.cs[i]? = some c → w.cs[j]? = some d → c.al = d.al
  | _ => True

structure Rules (T : Traits) (R : Al → Space → Prop) (A B : Prop) : Prop where
  new : ∀ k a, R a ⟨k, a, a⟩
  free : ∀ a s, R a s → B → s.org = s.al
  like : ∀ k x a, A → R a ⟨k, x, x⟩
  kind : ∀ k k' a p q, R a ⟨k, p, q⟩ → R a ⟨k', p, q⟩
  own : ∀ k a p q, R a ⟨k, p, q⟩ → R a ⟨k, p, p⟩
  ex : (T.pocs = false ∨ T.pocma = false) → ∀ k k' a p q p' q', R a ⟨k, p, q⟩ → R a ⟨k', p', q'⟩ → R a ⟨k, p, q'⟩

def Cont.Ok (R : Al → Space → Prop) (c : Cont) : Prop := c.hdr = c.al ∧ (∀ n ∈ c.nodes, n = c.al) ∧ ∀ s ∈ c.arrs, R c.al s

def Freed.Ok (B : Prop) (f : Freed) : Prop := (f.array = true → B) → f.org = f.by_

structure Inv (R : Al → Space → Prop) (B : Prop) (w : World) : Prop where
  cs : ∀ c ∈ w.cs, c.Ok R
  hs : ∀ h ∈ w.hs, h.al = h.node
  freed : ∀ f ∈ w.freed, f.Ok B

variable {T : Traits} {R : Al → Space → Prop} {A B : Prop} (r : Rules T R A B)
include r

theorem like_ok {x : Cont} {a : Al} (h : A ∨ a = x.al) : (x.like a).Ok R := by
  refine ⟨rfl, by simp [Cont.like], fun s hs => ?_⟩
  obtain ⟨t, -, rfl⟩ := List.mem_map.1 hs
  rcases h with h | rfl
  · exact r.like _ _ _ h
  · exact r.new _ _

omit r in
theorem clones_ok {c : Cont} (h : c.Ok R) (n : Nat) : (c.clones n).Ok R := by
  refine ⟨h.1, fun y hy => ?_, h.2.2⟩
  rcases List.mem_append.1 hy with hy | hy
  · exact (List.mem_replicate.1 hy).2
  · exact h.2.1 y hy

omit r in
theorem clear_ok {c : Cont} (h : c.Ok R) : c.clear.1.Ok R ∧ ∀ f ∈ c.clear.2, f.Ok B := by
  refine ⟨⟨h.1, by simp [Cont.clear], h.2.2⟩, fun f hf => ?_⟩
  obtain ⟨o, ho, rfl⟩ := List.mem_map.1 hf
  exact fun _ => h.2.1 o ho

theorem destroy_ok {c : Cont} (h : c.Ok R) : ∀ f ∈ c.destroy, f.Ok B := by
  intro f hf
  rcases List.mem_append.1 hf with hf | hf
  · rcases List.mem_append.1 hf with hf | hf
    · exact (clear_ok h).2 f hf
    · obtain ⟨s, hs, rfl⟩ := List.mem_map.1 hf
      exact fun b => r.free _ s (h.2.2 s hs) (b rfl)
  · obtain rfl := List.mem_singleton.1 hf
    exact fun _ => h.1

theorem swapArrs_true {a b : Al} : ∀ {ss ts : List Space}, (∀ s ∈ ss, R a s) → (∀ t ∈ ts, R b t) →
    (∀ s ∈ (swapArrs true ss ts).1, R b s) ∧ ∀ t ∈ (swapArrs true ss ts).2, R a t
  | [], _, _, _ => ⟨by simp [swapArrs], by simp [swapArrs]⟩
  | _ :: _, [], _, _ => ⟨by simp [swapArrs], by simp [swapArrs]⟩
  | s :: ss, t :: ts, h1, h2 => by
    have ih := swapArrs_true (ss := ss) (ts := ts) (fun x hx => h1 x (by simp [hx])) (fun x hx => h2 x (by simp [hx]))
    refine ⟨fun x hx => ?_, fun x hx => ?_⟩
    · rcases List.mem_cons.1 hx with rfl | hx
      · exact r.kind _ _ _ _ _ (h2 t (by simp))
      · exact ih.1 x hx
    · rcases List.mem_cons.1 hx with rfl | hx
      · exact r.kind _ _ _ _ _ (h1 s (by simp))
      · exact ih.2 x hx

theorem swapArrs_false {a : Al} (p : T.pocs = false ∨ T.pocma = false) : ∀ {ss ts : List Space}, (∀ s ∈ ss, R a s) → (∀ t ∈ ts, R a t) →
    (∀ s ∈ (swapArrs false ss ts).1, R a s) ∧ ∀ t ∈ (swapArrs false ss ts).2, R a t
  | [], _, _, _ => ⟨by simp [swapArrs], by simp [swapArrs]⟩
  | _ :: _, [], _, _ => ⟨by simp [swapArrs], by simp [swapArrs]⟩
  | s :: ss, t :: ts, h1, h2 => by
    have ih := swapArrs_false p (ss := ss) (ts := ts) (fun x hx => h1 x (by simp [hx])) (fun x hx => h2 x (by simp [hx]))
    refine ⟨fun x hx => ?_, fun x hx => ?_⟩
    · rcases List.mem_cons.1 hx with rfl | hx
      · exact r.ex p _ _ _ _ _ _ _ (h1 s (by simp)) (h2 t (by simp))
      · exact ih.1 x hx
    · rcases List.mem_cons.1 hx with rfl | hx
      · exact r.ex p _ _ _ _ _ _ _ (h2 t (by simp)) (h1 s (by simp))
      · exact ih.2 x hx

theorem swapArrs_pocs {a : Al} {ss ts : List Space} (h1 : ∀ s ∈ ss, R a s) (h2 : ∀ t ∈ ts, R a t) :
    (∀ s ∈ (swapArrs T.pocs ss ts).1, R a s) ∧ ∀ t ∈ (swapArrs T.pocs ss ts).2, R a t := by
  cases h : T.pocs
  · exact swapArrs_false r (Or.inl h) h1 h2
  · exact swapArrs_true r h1 h2

theorem swap_true {c d : Cont} (h1 : c.Ok R) (h2 : d.Ok R) : (c.swap true d).1.Ok R ∧ (c.swap true d).2.Ok R := by
  have q := swapArrs_true r h1.2.2 h2.2.2
  exact ⟨⟨h2.1, h2.2.1, q.1⟩, ⟨h1.1, h1.2.1, q.2⟩⟩

theorem swap_false {c d : Cont} (p : T.pocs = false ∨ T.pocma = false) (h1 : c.Ok R) (h2 : d.Ok R) (e : c.al = d.al) :
    (c.swap false d).1.Ok R ∧ (c.swap false d).2.Ok R := by
  have q := swapArrs_false r p h1.2.2 (fun t ht => (e ▸ h2.2.2 t ht : R c.al t))
  refine ⟨⟨h2.1.trans e.symm, fun n hn => (h2.2.1 n hn).trans e.symm, q.1⟩, ⟨h1.1.trans e, fun n hn => (h1.2.1 n hn).trans e, fun t ht => ?_⟩⟩
  have := q.2 t ht
  rw [e] at this
  exact this

theorem swapElements_ok {c d : Cont} (h1 : c.Ok R) (h2 : d.Ok R) (e : c.al = d.al) : (c.swapElements T d).1.Ok R ∧ (c.swapElements T d).2.Ok R := by
  have q := swapArrs_pocs r h1.2.2 (fun t ht => (e ▸ h2.2.2 t ht : R c.al t))
  refine ⟨⟨h2.1.trans e.symm, fun n hn => (h2.2.1 n hn).trans e.symm, q.1⟩, ⟨h1.1.trans e, fun n hn => (h1.2.1 n hn).trans e, fun t ht => ?_⟩⟩
  have := q.2 t ht
  rw [e] at this
  exact this

theorem renew_ok {a : Al} {s : Space} (h : R a s) : R a (s.renew T a).1 ∧ (s.renew T a).2.Ok B := by
  obtain ⟨k, p, q⟩ := s
  cases k <;> cases e : T.pocs <;> simp only [Space.renew, Space.swap, Space.new, Space.free, e, if_true, Bool.false_eq_true, if_false]
  · exact ⟨r.ex (Or.inl e) _ _ _ _ _ _ _ h (r.new .buckets a), fun b => r.free a ⟨.buckets, a, q⟩ (r.ex (Or.inl e) _ _ _ _ _ _ _ (r.new .buckets a) h) (b rfl)⟩
  · exact ⟨r.new _ _, fun b => r.free _ _ h (b rfl)⟩
  · exact ⟨r.own _ _ _ _ h, fun b => r.free _ _ h (b rfl)⟩
  · exact ⟨r.own _ _ _ _ h, fun b => r.free _ _ h (b rfl)⟩

theorem copy_ok {x : Cont} {a : Option Al} {fail : Option Nat} (k : A ∨ a.getD (T.soccc x.al) = x.al) :
    (∀ c ∈ (x.copy T a fail).1, c.Ok R ∧ c.al = a.getD (T.soccc x.al)) ∧ ∀ f ∈ (x.copy T a fail).2, f.Ok B := by
  cases fail with
  | none =>
    refine ⟨fun c hc => ?_, by simp [Cont.copy]⟩
    obtain rfl := Option.some.inj hc
    exact ⟨clones_ok (like_ok r k) _, rfl⟩
  | some n => exact ⟨fun c hc => (nomatch hc), destroy_ok r (clones_ok (like_ok r k) _)⟩

theorem moveTo_ok {x : Cont} {a : Al} {fail : Option Nat} (h : x.Ok R) (k : A ∨ a = x.al) :
    (∀ c ∈ (x.moveTo T a fail).1, c.Ok R ∧ c.al = a) ∧ (x.moveTo T a fail).2.1.Ok R ∧ ∀ f ∈ (x.moveTo T a fail).2.2, f.Ok B := by
  unfold Cont.moveTo
  by_cases e : a = x.al
  · simp only [if_pos e]
    have q := swapElements_ok r (like_ok r k) h e
    refine ⟨fun c hc => ?_, q.2, by simp⟩
    obtain rfl := Option.some.inj hc
    exact ⟨q.1, rfl⟩
  · simp only [if_neg e]
    cases fail with
    | none =>
      have q := swapElements_ok r (like_ok r k) (clones_ok (like_ok r k) x.nodes.length) rfl
      refine ⟨fun c hc => ?_, (clear_ok h (B := B)).1, fun f hf => ?_⟩
      · obtain rfl := Option.some.inj hc
        exact ⟨q.1, rfl⟩
      · rcases List.mem_append.1 hf with hf | hf
        · exact (clear_ok h).2 f hf
        · exact destroy_ok r q.2 f hf
    | some n =>
      refine ⟨fun c hc => (nomatch hc), (clear_ok h (B := B)).1, fun f hf => ?_⟩
      rcases List.mem_append.1 hf with hf | hf
      · rcases List.mem_append.1 hf with hf | hf
        · exact destroy_ok r (clones_ok (like_ok r k) _) f hf
        · exact (clear_ok h).2 f hf
      · exact destroy_ok r (like_ok r k) f hf

theorem assign_ok {c x : Cont} {fail : Option Nat} (h : c.Ok R) (k : A ∨ T.pocca = true ∨ c.al = x.al) :
    (c.assign T x fail).1.Ok R ∧ ∀ f ∈ (c.assign T x fail).2, f.Ok B := by
  have q := copy_ok r (x := x) (a := some (if T.pocca then x.al else c.al)) (fail := fail) (by
    rcases k with k | k | k
    · exact Or.inl k
    · right; simp [k]
    · right; simp only [Option.getD_some]; split
      · rfl
      · exact k)
  unfold Cont.assign
  rcases e : x.copy T (some (if T.pocca then x.al else c.al)) fail with ⟨_ | y, f⟩ <;> rw [e] at q
  · exact ⟨h, q.2⟩
  · have s := swap_true r h (q.1 y rfl).1
    refine ⟨s.1, fun g hg => ?_⟩
    rcases List.mem_append.1 hg with hg | hg
    · exact q.2 g hg
    · exact destroy_ok r s.2 g hg

theorem moveAssign_ok {c x : Cont} {fail : Option Nat} (h : c.Ok R) (hx : x.Ok R) (k : A ∨ T.pocma = true ∨ c.al = x.al) :
    (c.moveAssign T x fail).1.Ok R ∧ (c.moveAssign T x fail).2.1.Ok R ∧ ∀ f ∈ (c.moveAssign T x fail).2.2, f.Ok B := by
  unfold Cont.moveAssign
  cases p : T.pocma
  · simp only [Bool.false_eq_true, if_false]
    by_cases e : c.al = x.al
    · simp only [if_pos e]
      have s := swap_false r (Or.inr p) h hx e
      exact ⟨s.1, s.2, by simp⟩
    · simp only [if_neg e]
      have q := moveTo_ok r (a := c.al) (fail := fail) hx (by
        rcases k with k | k | k
        · exact Or.inl k
        · rw [p] at k; exact nomatch k
        · exact Or.inr k)
      rcases e : x.moveTo T c.al fail with ⟨_ | y, x', f⟩ <;> rw [e] at q
      · exact ⟨h, q.2⟩
      · have s := swap_false r (Or.inr p) h (q.1 y rfl).1 (q.1 y rfl).2.symm
        refine ⟨s.1, q.2.1, fun g hg => ?_⟩
        rcases List.mem_append.1 hg with hg | hg
        · exact q.2.2 g hg
        · exact destroy_ok r s.2 g hg
  · have s := swap_true r h hx
    simp only [if_true]
    exact ⟨s.1, s.2, by simp⟩

/-! ## Handles -/
omit r

theorem hmove_ok {x : Handle} (h : x.al = x.node) : ∃ p, x.move = some p ∧ p.1.al = p.1.node ∧ p.2.al = p.2.node := by
  obtain ⟨_ | o, a⟩ := x <;> cases h
  · exact ⟨_, rfl, rfl, rfl⟩
  · exact ⟨_, rfl, rfl, rfl⟩

theorem hdestroy_ok {x : Handle} (h : x.al = x.node) : ∃ f, x.destroy = some f ∧ ∀ g ∈ f, g.Ok B := by
  obtain ⟨_ | o, a⟩ := x <;> cases h
  · exact ⟨[], rfl, by simp⟩
  · exact ⟨_, rfl, fun g hg => by obtain rfl := List.mem_singleton.1 hg; exact fun _ => rfl⟩

theorem hassign_ok {x y : Handle} (hx : x.al = x.node) (hy : y.al = y.node) (l : x.node = none ∨ y.node = none ∨ T.pocma = true ∨ x.al = y.al) :
    ∃ p, x.assign T y = some p ∧ p.1 = y ∧ p.2.1 = ⟨none, none⟩ ∧ ∀ g ∈ p.2.2, g.Ok B := by
  obtain ⟨_ | o, a⟩ := x <;> obtain ⟨_ | o', a'⟩ := y <;> cases hx <;> cases hy
  · exact ⟨_, rfl, rfl, rfl, by simp⟩
  · exact ⟨_, rfl, rfl, rfl, by simp⟩
  · exact ⟨_, rfl, rfl, rfl, fun g hg => by obtain rfl := List.mem_singleton.1 hg; exact fun _ => rfl⟩
  · rcases l with l | l | l | l
    · exact nomatch l
    · exact nomatch l
    · refine ⟨(⟨some o', some o'⟩, ⟨none, none⟩, [⟨false, o, o⟩]), ?_, rfl, rfl, fun g hg => by obtain rfl := List.mem_singleton.1 hg; exact fun _ => rfl⟩
      simp [Handle.assign, Handle.delete, Handle.destroyAl, l]
    · obtain rfl : o = o' := Option.some.inj l
      refine ⟨(⟨some o, some o⟩, ⟨none, none⟩, [⟨false, o, o⟩]), ?_, rfl, rfl, fun g hg => by obtain rfl := List.mem_singleton.1 hg; exact fun _ => rfl⟩
      simp [Handle.assign, Handle.delete, Handle.destroyAl]

theorem hswap_ok {x y : Handle} (hx : x.al = x.node) (hy : y.al = y.node) (l : x.node = none ∨ y.node = none ∨ T.pocs = true ∨ x.al = y.al) :
    x.swap T y = some (y, x) := by
  obtain ⟨_ | o, a⟩ := x <;> obtain ⟨_ | o', a'⟩ := y <;> cases hx <;> cases hy
  · rfl
  · rfl
  · rfl
  · rcases l with l | l | l | l
    · exact nomatch l
    · exact nomatch l
    · simp [Handle.swap, l]
    · obtain rfl : o = o' := Option.some.inj l
      simp [Handle.swap]

/-! ## Steps -/

theorem mem_get {α : Type} {l : List α} {i : Nat} {a : α} (h : l[i]? = some a) : a ∈ l := List.mem_of_getElem? h

theorem all_set {α : Type} {P : α → Prop} {l : List α} {i : Nat} {a : α} (h : ∀ x ∈ l, P x) (ha : P a) : ∀ x ∈ l.set i a, P x := by
  intro x hx
  rcases List.mem_or_eq_of_mem_set hx with hx | rfl
  · exact h x hx
  · exact ha

theorem all_append {α : Type} {P : α → Prop} {l m : List α} (h : ∀ x ∈ l, P x) (h' : ∀ x ∈ m, P x) : ∀ x ∈ l ++ m, P x := by
  intro x hx
  rcases List.mem_append.1 hx with hx | hx
  · exact h x hx
  · exact h' x hx

theorem all_one {α : Type} {P : α → Prop} {a : α} (h : P a) : ∀ x ∈ [a], P x := by
  intro x hx
  obtain rfl := List.mem_singleton.1 hx
  exact h

include r in
theorem step_ok {w : World} {o : Op} (h : Inv R B w) (l : w.Legal T o) (k : A ∨ w.Keeps T o) : ∃ w', w.step T o = some w' ∧ Inv R B w' := by
  cases o with
  | new ks a =>
    refine ⟨_, rfl, all_append h.cs (all_one ⟨rfl, by simp [Cont.new], fun s hs => ?_⟩), h.hs, h.freed⟩
    obtain ⟨t, -, rfl⟩ := List.mem_map.1 hs
    exact r.new _ _
  | insert i acc =>
    obtain ⟨c, hc⟩ := l
    have q := h.cs c (mem_get hc)
    cases acc
    · refine ⟨_, by simp only [World.step, hc, Option.bind_eq_bind, Option.bind_some, Bool.false_eq_true, if_false, if_true]; rfl, ?_⟩
      refine ⟨h.cs, h.hs, all_append h.freed (all_one fun _ => rfl)⟩
    · refine ⟨_, by simp only [World.step, hc, Option.bind_eq_bind, Option.bind_some, Bool.false_eq_true, if_false, if_true]; rfl, ?_⟩
      refine ⟨all_set h.cs ⟨q.1, fun n hn => ?_, q.2.2⟩, h.hs, h.freed⟩
      rcases List.mem_cons.1 hn with rfl | hn
      · rfl
      · exact q.2.1 n hn
  | erase i k =>
    obtain ⟨c, o, hc, ho⟩ := l
    have q := h.cs c (mem_get hc)
    refine ⟨_, by simp only [World.step, hc, ho, Option.bind_eq_bind, Option.bind_some, Bool.false_eq_true, if_false, if_true]; rfl, ?_⟩
    refine ⟨all_set h.cs ⟨q.1, fun n hn => q.2.1 n ((List.eraseIdx_sublist ..).subset hn), q.2.2⟩, h.hs,
      all_append h.freed (all_one fun _ => q.2.1 o (mem_get ho))⟩
  | clear i =>
    obtain ⟨c, hc⟩ := l
    have q := clear_ok (B := B) (h.cs c (mem_get hc))
    refine ⟨_, by simp only [World.step, hc, Option.bind_eq_bind, Option.bind_some, Bool.false_eq_true, if_false, if_true]; rfl, ?_⟩
    exact ⟨all_set h.cs q.1, h.hs, all_append h.freed q.2⟩
  | renew i k =>
    obtain ⟨c, s, hc, hs⟩ := l
    have q := h.cs c (mem_get hc)
    have q' := renew_ok r (q.2.2 s (mem_get hs))
    refine ⟨_, by simp only [World.step, hc, hs, Option.bind_eq_bind, Option.bind_some, Bool.false_eq_true, if_false, if_true]; rfl, ?_⟩
    exact ⟨all_set h.cs ⟨q.1, q.2.1, all_set q.2.2 q'.1⟩, h.hs, all_append h.freed (all_one q'.2)⟩
  | copy i a fail =>
    obtain ⟨c, hc⟩ := l
    have q := copy_ok r (x := c) (a := a) (fail := fail) (k.imp_right fun k => k c hc)
    refine ⟨_, by simp only [World.step, hc, Option.bind_eq_bind, Option.bind_some, Bool.false_eq_true, if_false, if_true]; rfl, ?_⟩
    exact ⟨all_append h.cs (fun x hx => (q.1 x (Option.mem_toList.1 hx)).1), h.hs, all_append h.freed q.2⟩
  | move i =>
    obtain ⟨c, hc⟩ := l
    have q := swapElements_ok r (like_ok r (x := c) (a := c.al) (Or.inr rfl)) (h.cs c (mem_get hc)) rfl
    refine ⟨_, by simp only [World.step, hc, Option.bind_eq_bind, Option.bind_some, Bool.false_eq_true, if_false, if_true]; rfl, ?_⟩
    exact ⟨all_append (all_set h.cs q.2) (all_one q.1), h.hs, h.freed⟩
  | moveTo i a fail =>
    obtain ⟨c, hc⟩ := l
    have q := moveTo_ok r (x := c) (a := a) (fail := fail) (h.cs c (mem_get hc)) (k.imp_right fun k => k c hc)
    refine ⟨_, by simp only [World.step, hc, Option.bind_eq_bind, Option.bind_some, Bool.false_eq_true, if_false, if_true]; rfl, ?_⟩
    exact ⟨all_append (all_set h.cs q.2.1) (fun x hx => (q.1 x (Option.mem_toList.1 hx)).1), h.hs, all_append h.freed q.2.2⟩
  | assign i j fail =>
    obtain ⟨-, c, d, hc, hd, -⟩ := l
    have q := assign_ok r (c := c) (x := d) (fail := fail) (h.cs c (mem_get hc)) (k.imp_right fun k => k.imp_right fun k => k c d hc hd)
    refine ⟨_, by simp only [World.step, hc, hd, Option.bind_eq_bind, Option.bind_some, Bool.false_eq_true, if_false, if_true]; rfl, ?_⟩
    exact ⟨all_set h.cs q.1, h.hs, all_append h.freed q.2⟩
  | moveAssign i j fail =>
    obtain ⟨-, c, d, hc, hd, -⟩ := l
    have q := moveAssign_ok r (c := c) (x := d) (fail := fail) (h.cs c (mem_get hc)) (h.cs d (mem_get hd)) (k.imp_right fun k => k.imp_right fun k => k c d hc hd)
    refine ⟨_, by simp only [World.step, hc, hd, Option.bind_eq_bind, Option.bind_some, Bool.false_eq_true, if_false, if_true]; rfl, ?_⟩
    exact ⟨all_set (all_set h.cs q.1) q.2.1, h.hs, all_append h.freed q.2.2⟩
  | likeFor i =>
    obtain ⟨c, hc⟩ := l
    refine ⟨_, by simp only [World.step, hc, Option.bind_eq_bind, Option.bind_some, Bool.false_eq_true, if_false, if_true]; rfl, ?_⟩
    exact ⟨all_append h.cs (all_one (like_ok r (Or.inr rfl))), h.hs, h.freed⟩
  | swapElements i j =>
    obtain ⟨-, c, d, hc, hd, -, e⟩ := l
    have q := swapElements_ok r (h.cs c (mem_get hc)) (h.cs d (mem_get hd)) e
    refine ⟨_, by simp only [World.step, hc, hd, Option.bind_eq_bind, Option.bind_some, Bool.false_eq_true, if_false, if_true]; rfl, ?_⟩
    exact ⟨all_set (all_set h.cs q.1) q.2, h.hs, h.freed⟩
  | swap i j =>
    obtain ⟨-, c, d, hc, hd, -, e⟩ := l
    have q : (c.swap T.pocs d).1.Ok R ∧ (c.swap T.pocs d).2.Ok R := by
      cases p : T.pocs
      · exact swap_false r (Or.inl p) (h.cs c (mem_get hc)) (h.cs d (mem_get hd)) (by rcases e with e | e; (rw [p] at e; exact nomatch e); exact e)
      · exact swap_true r (h.cs c (mem_get hc)) (h.cs d (mem_get hd))
    refine ⟨_, by simp only [World.step, hc, hd, Option.bind_eq_bind, Option.bind_some, Bool.false_eq_true, if_false, if_true]; rfl, ?_⟩
    exact ⟨all_set (all_set h.cs q.1) q.2, h.hs, h.freed⟩
  | destroy i =>
    obtain ⟨c, hc⟩ := l
    refine ⟨_, by simp only [World.step, hc, Option.bind_eq_bind, Option.bind_some, Bool.false_eq_true, if_false, if_true]; rfl, ?_⟩
    exact ⟨fun x hx => h.cs x ((List.eraseIdx_sublist ..).subset hx), h.hs,
      all_append h.freed (destroy_ok r (h.cs c (mem_get hc)))⟩
  | extract i k =>
    obtain ⟨c, o, hc, ho⟩ := l
    have q := h.cs c (mem_get hc)
    have := q.2.1 o (mem_get ho)
    refine ⟨_, by simp only [World.step, hc, ho, Option.bind_eq_bind, Option.bind_some, Bool.false_eq_true, if_false, if_true]; rfl, ?_⟩
    exact ⟨all_set h.cs ⟨q.1, fun n hn => q.2.1 n ((List.eraseIdx_sublist ..).subset hn), q.2.2⟩,
      all_append h.hs (all_one (congrArg some this.symm)), h.freed⟩
  | insertHandle i g =>
    obtain ⟨c, x, hc, hx, n, a⟩ := l
    have q := h.cs c (mem_get hc)
    have e := h.hs x (mem_get hx)
    obtain ⟨o, ho⟩ := Option.ne_none_iff_exists'.1 n
    have hr : x.release = some ⟨none, none⟩ := by
      unfold Handle.release
      rw [if_pos n]
      simp only [Handle.destroyAl]
      rw [if_neg (by rw [e]; exact n)]
    rw [e, ho] at a
    refine ⟨_, by simp only [World.step, hc, hx, ho, hr, Option.bind_eq_bind, Option.bind_some, Bool.false_eq_true, if_false, if_true]; rfl, ?_⟩
    refine ⟨all_set h.cs ⟨q.1, fun m hm => ?_, q.2.2⟩, all_set h.hs rfl, h.freed⟩
    rcases List.mem_cons.1 hm with rfl | hm
    · exact Option.some.inj a
    · exact q.2.1 m hm
  | transfer i j k =>
    obtain ⟨-, c, d, o, hc, hd, ho, e⟩ := l
    have q := h.cs c (mem_get hc)
    have q' := h.cs d (mem_get hd)
    refine ⟨_, by simp only [World.step, hc, hd, ho, Option.bind_eq_bind, Option.bind_some, Bool.false_eq_true, if_false, if_true]; rfl, ?_⟩
    refine ⟨all_set (all_set h.cs ⟨q.1, fun m hm => ?_, q.2.2⟩) ⟨q'.1, fun n hn => q'.2.1 n ((List.eraseIdx_sublist ..).subset hn), q'.2.2⟩, h.hs, h.freed⟩
    rcases List.mem_cons.1 hm with rfl | hm
    · exact (q'.2.1 _ (mem_get ho)).trans e.symm
    · exact q.2.1 m hm
  | hmove g =>
    obtain ⟨x, hx⟩ := l
    obtain ⟨p, hp, h1, h2⟩ := hmove_ok (h.hs x (mem_get hx))
    refine ⟨_, by simp only [World.step, hx, hp, Option.bind_eq_bind, Option.bind_some, Bool.false_eq_true, if_false, if_true]; rfl, ?_⟩
    exact ⟨h.cs, all_append (all_set h.hs h2) (all_one h1), h.freed⟩
  | hassign g g' =>
    obtain ⟨-, x, y, hx, hy, e⟩ := l
    obtain ⟨p, hp, h1, h2, h3⟩ := hassign_ok (B := B) (h.hs x (mem_get hx)) (h.hs y (mem_get hy)) e
    refine ⟨_, by simp only [World.step, hx, hy, hp, Option.bind_eq_bind, Option.bind_some, Bool.false_eq_true, if_false, if_true]; rfl, ?_⟩
    exact ⟨h.cs, all_set (all_set h.hs (h1 ▸ h.hs y (mem_get hy))) (h2 ▸ rfl), all_append h.freed h3⟩
  | hswap g g' =>
    obtain ⟨-, x, y, hx, hy, e⟩ := l
    have hp := hswap_ok (h.hs x (mem_get hx)) (h.hs y (mem_get hy)) e
    refine ⟨_, by simp only [World.step, hx, hy, hp, Option.bind_eq_bind, Option.bind_some, Bool.false_eq_true, if_false, if_true]; rfl, ?_⟩
    exact ⟨h.cs, all_set (all_set h.hs (h.hs y (mem_get hy))) (h.hs x (mem_get hx)), h.freed⟩
  | hdestroy g =>
    obtain ⟨x, hx⟩ := l
    obtain ⟨f, hf, h1⟩ := hdestroy_ok (B := B) (h.hs x (mem_get hx))
    refine ⟨_, by simp only [World.step, hx, hf, Option.bind_eq_bind, Option.bind_some, Bool.false_eq_true, if_false, if_true]; rfl, ?_⟩
    exact ⟨h.cs, fun y hy => h.hs y ((List.eraseIdx_sublist ..).subset hy), all_append h.freed h1⟩

theorem inv_init : Inv R B ⟨[], [], []⟩ := ⟨by simp, by simp, by simp⟩

end MI.Alloc
