import Verif.Cont.Calls
import Verif.Cont.LayerLemmas
import Verif.Cont.DeleteLemmas
import Verif.Ord.AnyLemmas
import Verif.Hash.AnyLemmas
import Verif.Spec.Always
/-!
# One index, whatever its user functions do

`L.Held hd xs`: the links of the index are in order and `xs` is what a traversal meets. Nothing is said about the order of `xs` or about keys. Said with the help of the
shadow of the index: an index of addresses with the same links, whose comparison object says that nothing is less than anything, whose equality predicate
is equality of addresses and whose hash function is whatever the distribution of the elements over the buckets happens to be.
-/
namespace MI.Cont
open MI
variable {V : Type}

namespace Layer

/-- The same links, other functions. -/
def shadow (g : Id → Nat) : Layer V → Layer Id
  | .ord _ _ h => .ord false (fun _ _ => false) h
  | .hash c _ _ pol ml h a => .hash c (fun x y => x == y) g pol ml h a
  | .seq h => .seq h
  | .rnd s => .rnd s

/-- All indices but non-unique hashed ones. -/
def Sturdy : Layer V → Prop
  | .hash c .. => c = .uniq
  | _ => True

/-- The links of the index are in order, and its elements are `xs`, in traversal order. -/
def Held (hd : Id) (xs : List Id) (L : Layer V) : Prop := L.Sturdy ∧ ∃ g, (L.shadow g).Holds id hd xs

theorem held_ord {u : Bool} {lt : V → V → Bool} {h : Ord.Heap} {hd : Id} {xs : List Id} : (Layer.ord u lt h).Held hd xs ↔ Ord.Rep h hd xs := by
  refine ⟨fun k => k.2.choose_spec.1, fun k => ⟨trivial, fun _ => 0, k, ?_⟩⟩
  show xs.Pairwise _
  exact List.pairwise_of_forall fun _ _ => rfl

theorem held_hash {c : Hash.Cat} {eq : V → V → Bool} {hf : V → Nat} {pol : Pol} {ml : Nat} {h : Hash.Heap} {a : Hash.Arr} {hd : Id} {xs : List Id} :
    (Layer.hash c eq hf pol ml h a).Held hd xs ↔ c = .uniq ∧ a.size ∈ Hash.sizes ∧ ∃ T, Hash.Rep h a hd T ∧ Hash.OfCat .uniq T ∧ T.nodes = xs := by
  constructor
  · rintro ⟨cu, g, s1, -, T, r, gd, e⟩
    cases (cu : c = .uniq)
    exact ⟨rfl, s1, T, r, gd.cat, e⟩
  · rintro ⟨rfl, s1, T, r, oc, e⟩
    obtain ⟨g, gd⟩ := Hash.good_exists r oc
    exact ⟨rfl, g, s1, (by decide : ∀ s ∈ Hash.sizes, 0 < s) _ s1, T, r, gd, e⟩

theorem held_seq {h : Seq.Heap} {hd : Id} {xs : List Id} : (Layer.seq (V := V) h).Held hd xs ↔ Seq.Fam h [(hd, xs)] :=
  ⟨fun k => k.2.choose_spec, fun k => ⟨trivial, fun _ => 0, k⟩⟩

theorem held_rnd {s : Rnd.Arr} {hd : Id} {xs : List Id} : (Layer.rnd (V := V) s).Held hd xs ↔ Rnd.Rep s hd xs :=
  ⟨fun k => k.2.choose_spec, fun k => ⟨trivial, fun _ => 0, k⟩⟩

/-- Well formed indices are in order. -/
theorem Holds.held {L : Layer V} {val : Id → V} {hd : Id} {xs : List Id} (w : L.Holds val hd xs) (st : L.Sturdy) : L.Held hd xs := by
  cases L with
  | ord u lt h => exact held_ord.2 w.1
  | hash c eq hf pol ml h a =>
    cases (st : c = .uniq)
    obtain ⟨s1, -, T, r, gd, e⟩ := w
    exact held_hash.2 ⟨rfl, s1, T, r, gd.cat, e⟩
  | seq h => exact held_seq.2 w
  | rnd s => exact held_rnd.2 w

section
variable {L : Layer V} {hd : Id} {xs : List Id}

theorem Held.nodup (w : L.Held hd xs) : (hd :: xs).Nodup := w.2.choose_spec.nodup
theorem Held.xs_nodup (w : L.Held hd xs) : xs.Nodup := w.2.choose_spec.xs_nodup

/-! ## The shadow does the same -/

theorem shadow_spec {L L' : Layer V} {g : Id → Nat} (h : L'.spec = L.spec) : (L'.shadow g).spec = (L.shadow g).spec := by
  cases L <;> cases L' <;> simp_all [spec, shadow]

theorem shadow_avoids (g : Id → Nat) (z : Id) : (L.shadow g).Avoids z ↔ L.Avoids z := by cases L <;> rfl
theorem shadow_ready (g : Id → Nat) : (L.shadow g).Ready ↔ L.Ready := by cases L <;> rfl
theorem shadow_envOk (g : Id → Nat) (size : Nat) (pool : List Id) (e : Env) : (L.shadow g).EnvOk hd size pool e ↔ L.EnvOk hd size pool e := by cases L <;> rfl
theorem shadow_keyed (g : Id → Nat) : (L.shadow g).keyed = L.keyed := by cases L <;> rfl
theorem shadow_first (g : Id → Nat) : (L.shadow g).first hd = L.first hd := by cases L <;> rfl
theorem shadow_next (g : Id → Nat) (n : Nat) (x : Id) : (L.shadow g).next n x = L.next n x := by cases L <;> rfl
theorem shadow_clear (g : Id → Nat) : (L.shadow g).clear hd = (L.clear hd).shadow g := by cases L <;> rfl
theorem shadow_deleteAll (g : Id → Nat) (n : Nat) : (L.shadow g).deleteAll n hd = L.deleteAll n hd := by cases L <;> rfl

theorem shadow_walkFrom (g : Id → Nat) (n : Nat) : ∀ (m : Nat) (x : Id), (L.shadow g).walkFrom n hd m x = L.walkFrom n hd m x
  | 0, x => rfl
  | m + 1, x => by
    simp only [walkFrom, shadow_next]
    split
    · rfl
    · cases L.next n x with
      | none => rfl
      | some y => simp only [shadow_walkFrom g n m y]

theorem shadow_walk (g : Id → Nat) (n : Nat) : (L.shadow g).walk n hd = L.walk n hd := by
  simp only [walk, shadow_walkFrom, shadow_first]

theorem shadow_unlink (g : Id → Nat) (n : Nat) (x : Id) : (L.shadow g).unlink n hd x = (L.unlink n hd x).map (shadow g) := by
  cases L with
  | ord u lt h => simp only [shadow, unlink, Option.map_map]; rfl
  | hash => rfl
  | seq => rfl
  | rnd => rfl

theorem shadow_takeOut (g : Id → Nat) (n : Nat) (x : Id) :
    (L.shadow g).takeOut n hd x = (L.takeOut n hd x).map fun p => (p.1.shadow g, p.2) := by
  cases L with
  | ord u lt h =>
    simp only [shadow, takeOut]
    cases Ord.increment h n x with
    | none => rfl
    | some y => simp only [Option.map_map]; rfl
  | hash => rfl
  | seq => rfl
  | rnd => rfl

theorem shadow_putBack (g : Id → Nat) (n : Nat) (x : Id) (sv : Saved) :
    (L.shadow g).putBack n hd x sv = (L.putBack n hd x sv).map (shadow g) := by
  cases L <;> cases sv <;> simp only [shadow, putBack, Option.map_map] <;> rfl

theorem unlink_sturdy {L' : Layer V} {n : Nat} {x : Id} (h : L.unlink n hd x = some L') : (L'.Sturdy ↔ L.Sturdy) ∧ L'.spec = L.spec := by
  cases L with
  | ord u lt h0 =>
    simp only [unlink, Option.map_eq_some_iff] at h
    obtain ⟨_, -, rfl⟩ := h
    exact ⟨Iff.rfl, rfl⟩
  | hash => cases h; exact ⟨Iff.rfl, rfl⟩
  | seq => cases h; exact ⟨Iff.rfl, rfl⟩
  | rnd => cases h; exact ⟨Iff.rfl, rfl⟩

/-- Whether an index is sturdy depends on its kind. -/
theorem sturdy_spec {L L' : Layer V} (h : L'.spec = L.spec) : L'.Sturdy ↔ L.Sturdy := by
  cases L <;> cases L' <;> simp_all [spec, Sturdy]

/-! ## Traversal -/

theorem walk_any {n : Nat} (w : L.Held hd xs) (hn : xs.length + 3 ≤ n) : L.walk n hd = some xs := by
  obtain ⟨-, g, h⟩ := w
  rw [← shadow_walk g]
  exact walk_spec h hn

theorem first_any (w : L.Held hd xs) : L.first hd = hdOr hd xs := by
  obtain ⟨-, g, h⟩ := w
  rw [← shadow_first g]
  exact first_spec h

theorem next_any {n : Nat} {x : Id} {u v : List Id} (w : L.Held hd (u ++ x :: v)) (hn : (u ++ x :: v).length + 3 ≤ n) : L.next n x = some (hdOr hd v) := by
  obtain ⟨-, g, h⟩ := w
  rw [← shadow_next g]
  exact next_spec h hn

/-! ## Operations without calls -/

theorem unlink_any {x : Id} {n : Nat} (w : L.Held hd xs) (hx : x ∈ xs) (hn : xs.length + 3 ≤ n) :
    ∃ L', L.unlink n hd x = some L' ∧ L'.spec = L.spec ∧ L'.Held hd (xs.erase x) ∧ (∀ z, L.Avoids z → L'.Avoids z) ∧ (L.Ready → L'.Ready) := by
  obtain ⟨st, g, h⟩ := w
  obtain ⟨M, e1, e2, e3, e4, e5⟩ := unlink_spec (val' := id) h hx (fun _ _ => rfl) hn
  rw [shadow_unlink, Option.map_eq_some_iff] at e1
  obtain ⟨L', k1, rfl⟩ := e1
  have := unlink_sturdy k1
  refine ⟨L', k1, this.2, ⟨this.1.2 st, g, e3⟩, fun z hz => ?_, fun q => ?_⟩
  · exact (shadow_avoids g z).1 (e4 z ((shadow_avoids g z).2 hz))
  · exact (shadow_ready g).1 (e5 ((shadow_ready g).2 q))

theorem takeOut_kept {L' : Layer V} {sv : Saved} {n : Nat} {x : Id} (h : L.takeOut n hd x = some (L', sv)) : L'.spec = L.spec := by
  cases L with
  | ord u lt h0 =>
    simp only [takeOut] at h
    split at h
    · exact nomatch h
    · simp only [Option.map_eq_some_iff] at h
      obtain ⟨_, -, h⟩ := h
      cases h
      rfl
  | hash => cases h; rfl
  | seq => cases h
  | rnd => cases h

theorem putBack_kept {L' : Layer V} {sv : Saved} {n : Nat} {x : Id} (h : L.putBack n hd x sv = some L') : L'.spec = L.spec := by
  cases L <;> cases sv <;> simp only [putBack, Option.map_eq_some_iff, reduceCtorEq, Option.some.injEq] at h
  · obtain ⟨_, -, rfl⟩ := h
    rfl
  · subst h
    rfl

theorem takeOut_any {x : Id} {n : Nat} (kd : L.keyed = true) (w : L.Held hd xs) (hx : x ∈ xs) (x0 : x ≠ 0) (hn : xs.length + 3 ≤ n) :
    ∃ L' sv, L.takeOut n hd x = some (L', sv) ∧ L'.spec = L.spec ∧ L'.Held hd (xs.erase x) ∧ (∀ z, L.Avoids z → L'.Avoids z) ∧ L'.Ready ∧
      ∃ L'', L'.putBack n hd x sv = some L'' ∧ L''.spec = L.spec ∧ L''.Held hd xs ∧ (∀ z, L.Avoids z → L''.Avoids z) := by
  obtain ⟨st, g, h⟩ := w
  obtain ⟨M, sv, e1, e2, e3, e4, e5, M2, e6, e7, e8, e9⟩ := takeOut_spec (val' := id) ((shadow_keyed g).trans kd) h hx x0 (fun _ _ => rfl) hn
  rw [shadow_takeOut, Option.map_eq_some_iff] at e1
  obtain ⟨⟨L', sv'⟩, k1, e1⟩ := e1
  obtain ⟨rfl, rfl⟩ := Prod.mk.inj e1
  rw [shadow_putBack, Option.map_eq_some_iff] at e6
  obtain ⟨L'', k2, rfl⟩ := e6
  have s1 := takeOut_kept k1
  have s2 := (putBack_kept k2).trans s1
  refine ⟨L', sv', k1, s1, ⟨(sturdy_spec s1).2 st, g, e3⟩, fun z hz => ?_, (shadow_ready g).1 e5, L'', k2, s2, ⟨(sturdy_spec s2).2 st, g, e8⟩, fun z hz => ?_⟩
  · exact (shadow_avoids g z).1 (e4 z ((shadow_avoids g z).2 hz))
  · exact (shadow_avoids g z).1 (e9 z ((shadow_avoids g z).2 hz))

/-! ## Preparation -/

theorem hash_new {c : Hash.Cat} {eq : V → V → Bool} {hf : V → Nat} {pol : Pol} {ml : Nat} {h : Hash.Heap} {a na : Hash.Arr} {cpy : Id} {pool : List Id}
    {t : Option Nat} {f : Id → Nat} (w : (Layer.hash c eq hf pol ml h a).Held hd xs) (nm : Hash.NewMem a na hd cpy pool) (sub : ∀ z ∈ xs, z ∈ pool)
    (ns : na.size ∈ Hash.sizes) :
    ∃ h' b, Hash.rehash c f xs.length t h a na hd cpy = .ok (h', b) ∧ ∃ xs', xs'.Perm xs ∧
      ∀ ml', (Layer.hash c eq hf pol ml' h' (if b then a else na)).Held hd xs' := by
  obtain ⟨rfl, s1, T, r, oc, rfl⟩ := held_hash.1 w
  have pos := (by decide : ∀ s ∈ Hash.sizes, 0 < s)
  have nm' : Hash.NewMem a na hd cpy T.nodes := by
    obtain ⟨b0, c0, cn, co, cna, xn, ar⟩ := nm
    exact ⟨b0, c0, fun q => cn (by simp only [List.mem_cons] at q ⊢; exact q.imp id (sub _)), co, cna,
      fun z hz => xn z (by simp only [List.mem_cons] at hz ⊢; exact hz.imp id (sub _)), ar⟩
  obtain ⟨h', b, e1, T', e2, e3, e4⟩ := Hash.rehashU_any (hash := f) (t := t) r oc (pos _ s1) (pos _ ns) nm'
  refine ⟨h', b, e1, T'.nodes, e4, fun ml' => held_hash.2 ⟨rfl, ?_, T', e2, e3, rfl⟩⟩
  cases b
  · exact ns
  · exact s1

/-- What preparations leave behind. -/
def Prepared (L : Layer V) (hd : Id) (xs pool : List Id) (o : Out (Layer V)) : Prop :=
  ∃ L' xs', (o = .ok L' ∧ L'.Ready ∨ o = .threw L') ∧ L'.spec = L.spec ∧ (∀ z ∈ pool, L'.Avoids z) ∧ L'.Held hd xs' ∧ xs'.Perm xs

theorem reserve_any {val : Id → V} {pool : List Id} {e : Env} (w : L.Held hd xs)
    (le : L.EnvOk hd xs.length pool e) (sub : ∀ z ∈ xs, z ∈ pool) (av : ∀ z ∈ pool, L.Avoids z) : L.Prepared hd xs pool (L.reserve hd val xs.length e) := by
  cases L with
  | ord u lt h => exact ⟨_, xs, Or.inl ⟨rfl, trivial⟩, rfl, av, w, .refl _⟩
  | seq h => exact ⟨_, xs, Or.inl ⟨rfl, trivial⟩, rfl, av, w, .refl _⟩
  | rnd s =>
    by_cases k : s.size = s.cap ∧ e.allocFail = true
    · exact ⟨.rnd s, xs, Or.inr (by simp only [reserve, if_pos k]), rfl, av, w, .refl _⟩
    · have r := Rnd.rep_roomForOne e.junk (held_rnd.1 w)
      refine ⟨.rnd (Rnd.roomForOne e.junk s), xs, Or.inl ⟨by simp only [reserve, if_neg k], ?_⟩, rfl, av, held_rnd.2 r.1, .refl _⟩
      have := r.1.1
      simp only [Ready]
      omega
  | hash c eq hf pol ml h a =>
    by_cases k : xs.length + 1 > ml
    · cases ka : e.allocFail with
      | true => exact ⟨.hash c eq hf pol ml h a, xs, Or.inr (by simp only [reserve, if_pos k, ka, if_true]), rfl, av, w, .refl _⟩
      | false =>
        obtain ⟨h', b, e1, xs', p, k3⟩ := hash_new (t := e.hashThrow) (f := fun x => hf (val x)) w le sub (Hash.sizeFor_mem _)
        cases b with
        | true =>
          refine ⟨.hash c eq hf pol ml h' a, xs', Or.inr ?_, rfl, av, k3 ml, p⟩
          simp only [reserve, if_pos k, ka, Bool.false_eq_true, if_false]
          rw [e1]
        | false =>
          refine ⟨.hash c eq hf pol (pol.load (Hash.sizeFor Hash.sizes (pol.grow (xs.length + 1)))) h' ⟨e.base, Hash.sizeFor Hash.sizes (pol.grow (xs.length + 1))⟩, xs',
            Or.inl ⟨?_, trivial⟩, rfl, fun z hz => le.xn z (by simp [hz]), k3 _, p⟩
          simp only [reserve, if_pos k, ka, Bool.false_eq_true, if_false]
          rw [e1]
    · exact ⟨.hash c eq hf pol ml h a, xs, Or.inl ⟨by simp only [reserve, if_neg k], trivial⟩, rfl, av, w, .refl _⟩

theorem reserveR_any {k : Nat} {val : Id → V} {pool : List Id} {size : Nat} {e : Env} (w : L.Held hd xs) (hs : size = xs.length)
    (le : L.EnvOk hd size pool e) (sub : ∀ z ∈ xs, z ∈ pool) (av : ∀ z ∈ pool, L.Avoids z) : (L.reserveR k hd val size e).Always (L.Prepared hd xs pool) := by
  subst hs
  cases L with
  | ord u lt h => exact reserve_any w le sub av
  | seq h => exact reserve_any w le sub av
  | rnd s => exact reserve_any w le sub av
  | hash c eq hf pol ml h a =>
    simp only [reserveR]
    split
    · refine Runs.Always.then (P := fun _ => True) (.of (fun _ => trivial) _) fun t _ => ?_
      exact reserve_any (e := { e with hashThrow := t }) w le sub av
    · exact reserve_any w le sub av

/-- What a rehash leaves behind. -/
def Rehashed (L : Layer V) (hd : Id) (xs pool : List Id) (o : Out (Layer V)) : Prop :=
  ∃ L' xs', (o = .ok L' ∨ o = .threw L') ∧ L'.spec = L.spec ∧ (∀ z ∈ pool, L'.Avoids z) ∧ L'.Held hd xs' ∧ xs'.Perm xs

theorem rehash_any {val : Id → V} {pool : List Id} {n : Nat} {e : Env} (w : L.Held hd xs)
    (le : L.RehashOk hd xs.length n pool e) (sub : ∀ z ∈ xs, z ∈ pool) (av : ∀ z ∈ pool, L.Avoids z) : L.Rehashed hd xs pool (L.rehash hd val xs.length n e) := by
  cases L with
  | ord u lt h => exact le.elim
  | seq h => exact le.elim
  | rnd s => exact le.elim
  | hash c eq hf pol ml h a =>
    by_cases k : xs.length ≤ ml ∧ n ≤ a.size
    · exact ⟨.hash c eq hf pol ml h a, xs, Or.inl (by simp only [Layer.rehash, if_pos k]), rfl, av, w, .refl _⟩
    · cases ka : e.allocFail with
      | true => exact ⟨.hash c eq hf pol ml h a, xs, Or.inr (by simp only [Layer.rehash, if_neg k, ka, if_true]), rfl, av, w, .refl _⟩
      | false =>
        obtain ⟨h', b, e1, xs', p, k3⟩ := hash_new (t := e.hashThrow) (f := fun x => hf (val x)) w le sub (Hash.sizeFor_mem _)
        cases b with
        | true =>
          refine ⟨.hash c eq hf pol ml h' a, xs', Or.inr ?_, rfl, av, k3 ml, p⟩
          simp only [Layer.rehash, if_neg k, ka, Bool.false_eq_true, if_false]
          rw [e1]
        | false =>
          refine ⟨.hash c eq hf pol (pol.load (Hash.sizeFor Hash.sizes (max (pol.grow xs.length) n))) h' ⟨e.base, Hash.sizeFor Hash.sizes (max (pol.grow xs.length) n)⟩, xs',
            Or.inl ?_, rfl, fun z hz => le.xn z (by simp [hz]), k3 _, p⟩
          simp only [Layer.rehash, if_neg k, ka, Bool.false_eq_true, if_false]
          rw [e1]

theorem rehashR_any {k : Nat} {val : Id → V} {pool : List Id} {size n : Nat} {e : Env} (w : L.Held hd xs) (hs : size = xs.length)
    (le : L.RehashOk hd size n pool e) (sub : ∀ z ∈ xs, z ∈ pool) (av : ∀ z ∈ pool, L.Avoids z) : (L.rehashR k hd val size n e).Always (L.Rehashed hd xs pool) := by
  subst hs
  cases L with
  | ord u lt h => exact rehash_any w le sub av
  | seq h => exact rehash_any w le sub av
  | rnd s => exact rehash_any w le sub av
  | hash c eq hf pol ml h a =>
    simp only [rehashR]
    split
    · refine Runs.Always.then (P := fun _ => True) (.of (fun _ => trivial) _) fun t _ => ?_
      exact rehash_any (e := { e with hashThrow := t }) w le sub av
    · exact rehash_any w le sub av

/-! ## Link points -/

/-- The link point is one: linking there adds one element. -/
def PointFor (L : Layer V) (n : Nat) (hd x : Id) (xs : List Id) (pt : Pt) : Prop :=
  L.Ready → ∃ L' xs', L.link n hd x pt = some L' ∧ L'.spec = L.spec ∧ L'.Held hd xs' ∧ xs'.Perm (x :: xs) ∧ ∀ z, L.Avoids z → L'.Avoids z

/-- The possible outcomes of the search for a link point. -/
def Pointed (L : Layer V) (n : Nat) (hd x : Id) (xs : List Id) (r : PtRes) : Prop :=
  r = .threw ∨ (∃ y ∈ xs, r = .reject y) ∨ ∃ pt, r = .accept pt ∧ L.PointFor n hd x xs pt

theorem ord_pointFor {u : Bool} {lt : V → V → Bool} {h : Ord.Heap} {n : Nat} {x : Id} {side : Ord.Side} {pos : Id} {s t : List Id}
    (x0 : x ≠ 0) (hx : x ∉ hd :: (s ++ t)) (hn : (s ++ t).length + 3 ≤ n) (p : Ord.PointAt h hd side pos s t) :
    (Layer.ord u lt h).PointFor n hd x (s ++ t) (.ord side pos) := by
  intro _
  obtain ⟨h', l1, l2, -⟩ := Ord.link_at (N := n) p hx x0 (by omega)
  exact ⟨.ord u lt h', s ++ x :: t, by simp only [link, l1, Option.map_some], rfl, held_ord.2 l2, List.perm_middle, fun _ _ => trivial⟩

theorem hash_pointFor {c : Hash.Cat} {eq : V → V → Bool} {hf : V → Nat} {pol : Pol} {ml : Nat} {h : Hash.Heap} {a : Hash.Arr} {n : Nat} {x : Id} {i : Nat}
    (w : (Layer.hash c eq hf pol ml h a).Held hd xs) (x0 : x ≠ 0) (hx : x ∉ hd :: xs) (av : x < a.base ∨ a.endB < x) (hi : i < a.size) :
    (Layer.hash c eq hf pol ml h a).PointFor n hd x xs (.hash (.bucket (a.base + i))) := by
  intro _
  obtain ⟨rfl, s1, T, r, oc, rfl⟩ := held_hash.1 w
  have r' := (r.linkBucket .uniq hi ⟨x0, hx, av⟩).1
  refine ⟨_, _, rfl, rfl, held_hash.2 ⟨rfl, s1, _, r', fun _ => ?_, rfl⟩, ?_, fun _ q => q⟩
  · refine Hash.put_one (oc rfl) ?_
    intro g hg
    rcases List.mem_cons.1 hg with q | q
    · exact ⟨x, q⟩
    · exact oc rfl _ g q
  · have nd := (List.nodup_cons.1 r'.nd).2
    have nd2 : (x :: T.nodes).Nodup := by
      rw [List.nodup_cons]
      exact ⟨fun k => hx (by simp [k]), (List.nodup_cons.1 r.nd).2⟩
    rw [List.perm_ext_iff_of_nodup nd nd2]
    intro y
    rw [Hash.mem_put_nodes r r' (x := x) (by intro y; simp)]
    simp

theorem pointR_any {k n : Nat} {val : Id → V} {hashed : Bool} {hint : Option Id} {x : Id} (w : L.Held hd xs) (x0 : x ≠ 0) (hx : x ∉ hd :: xs) (av : L.Avoids x)
    (hh : ∀ p, hint = some p → p ∈ hd :: xs) (hn : xs.length + 3 ≤ n) : (L.pointR k n hd val hashed hint x).Always (L.Pointed n hd x xs) := by
  cases L with
  | seq h =>
    refine Or.inr (Or.inr ⟨.tail, rfl, fun _ => ⟨.seq (h.link x hd), xs ++ [x], rfl, rfl, ?_, ?_, fun _ _ => trivial⟩⟩)
    · exact held_seq.2 (Seq.fam_link (held_seq.1 w) (by simpa [Seq.famIds] using hx))
    · exact List.perm_append_singleton x xs
  | rnd s =>
    refine Or.inr (Or.inr ⟨.tail, rfl, fun r => ?_⟩)
    obtain ⟨s', e1, e2, -⟩ := Rnd.rep_pushBack (held_rnd.1 w) hx (by have := (held_rnd.1 w).1; simp only [Ready] at r; omega)
    exact ⟨.rnd s', xs ++ [x], by simp only [link, e1, Option.map_some], rfl, held_rnd.2 e2, List.perm_append_singleton x xs, fun _ _ => trivial⟩
  | ord u lt h =>
    have hr := held_ord.1 w
    have sr : (ordPointA u n hd val hint (val x) h).Always (Ord.AnyPoint h hd xs) := by
      unfold ordPointA
      split
      · exact Ord.linkPointUA_any val hr hn _
      · exact Ord.hintedPointUA_any val hr hn _ (hh _ rfl)
      · exact Ord.linkPointNA_any val hr hn _
      · exact Ord.hintedPointNA_any val hr hn _ (hh _ rfl)
    simp only [pointR]
    refine Runs.Always.then (P := fun _ => True) (.of (fun _ => trivial) _) fun b _ => ?_
    cases b with
    | false => exact Or.inl rfl
    | true =>
      refine Runs.Always.then (Runs.Always.attempt _ sr) ?_
      rintro r (rfl | ⟨q, rfl, ⟨y, hy, rfl⟩ | ⟨side, pos, s, t, rfl, rfl, p⟩⟩)
      · exact Or.inl rfl
      · exact Or.inr (Or.inl ⟨y, hy, rfl⟩)
      · exact Or.inr (Or.inr ⟨_, rfl, ord_pointFor x0 hx hn p⟩)
  | hash c eq hf pol ml h a =>
    have w' := w
    obtain ⟨rfl, s1, T, r, oc, rfl⟩ := held_hash.1 w'
    have s0 := (by decide : ∀ s ∈ Hash.sizes, 0 < s) _ s1
    simp only [pointR]
    refine Runs.Always.then (P := fun _ => True) (.of (fun _ => trivial) _) fun b _ => ?_
    cases b with
    | false => exact Or.inl rfl
    | true =>
      refine Runs.Always.then (Runs.Always.attempt _ (Hash.linkPointA_any r oc s0 _ _ _ (by omega))) ?_
      rintro q (rfl | ⟨q, rfl, ⟨y, hy, rfl⟩ | rfl⟩)
      · exact Or.inl rfl
      · exact Or.inr (Or.inl ⟨y, hy, rfl⟩)
      · exact Or.inr (Or.inr ⟨_, rfl, hash_pointFor w x0 hx av (Nat.mod_lt _ s0)⟩)

/-! ## Tests -/

theorem inPlaceR_any {k n : Nat} {val : Id → V} {x : Id} (w : L.Held hd xs) (hx : x ∈ xs) (hn : xs.length + 3 ≤ n) :
    (L.inPlaceR k n hd val x).Always fun o => (o = .threw false ∧ L.keyed = true) ∨ ∃ b, o = .ok b ∧ (L.keyed = false → b = true) := by
  cases L with
  | seq h => exact Or.inr ⟨true, rfl, fun _ => rfl⟩
  | rnd s => exact Or.inr ⟨true, rfl, fun _ => rfl⟩
  | ord u lt h =>
    have hr := held_ord.1 w
    have sr : (if u then Ord.inPlaceUA val n h hd (val x) x else Ord.inPlaceNA val n h hd (val x) x).Always fun r => ∃ b, r = some b := by
      split
      · exact Ord.inPlaceUA_any val hr hn _ hx
      · exact Ord.inPlaceNA_any val hr hn _ hx
    simp only [inPlaceR]
    refine Runs.Always.then (Runs.Always.attempt _ sr) ?_
    rintro r (rfl | ⟨_, rfl, b, rfl⟩)
    · exact Or.inl ⟨rfl, rfl⟩
    · exact Or.inr ⟨b, rfl, fun q => nomatch q⟩
  | hash c eq hf pol ml h a =>
    obtain ⟨rfl, s1, T, r, oc, rfl⟩ := held_hash.1 w
    have s0 := (by decide : ∀ s ∈ Hash.sizes, 0 < s) _ s1
    simp only [inPlaceR]
    refine Runs.Always.then (P := fun _ => True) (.of (fun _ => trivial) _) fun b _ => ?_
    cases b with
    | false => exact Or.inl ⟨rfl, rfl⟩
    | true =>
      refine Runs.Always.then (Runs.Always.attempt _ (Hash.inPlaceA_any r oc s0 _ _ _ (by omega))) ?_
      rintro q (rfl | ⟨_, rfl, b, rfl⟩)
      · exact Or.inl ⟨rfl, rfl⟩
      · exact Or.inr ⟨b, rfl, fun q => nomatch q⟩

/-- Nothing is thrown unless a user function throws. -/
theorem pointR_calm {k n : Nat} {val : Id → V} {hashed : Bool} {hint : Option Id} {x : Id} : (L.pointR k n hd val hashed hint x).Calm (· ≠ .threw) := by
  cases L with
  | seq h => exact fun q => nomatch q
  | rnd s => exact fun q => nomatch q
  | ord u lt h =>
    simp only [pointR]
    refine Runs.Calm.then (P := fun b => b = true) (fun _ => rfl) ?_
    rintro b rfl
    refine Runs.Calm.then (Runs.Calm.attempt (P := fun _ => True) _ (Asks.Always.of (fun _ => trivial) _)) ?_
    rintro r ⟨q, rfl, -⟩
    rcases q with _ | (_ | _) <;> exact fun q => nomatch q
  | hash c eq hf pol ml h a =>
    simp only [pointR]
    refine Runs.Calm.then (P := fun b => b = true) ?_ ?_
    · unfold noteIf
      split
      · exact fun _ => rfl
      · exact rfl
    rintro b rfl
    refine Runs.Calm.then (Runs.Calm.attempt (P := fun _ => True) _ (Asks.Always.of (fun _ => trivial) _)) ?_
    rintro r ⟨q, rfl, -⟩
    rcases q with (_ | _) | _ | _ | _ <;> exact fun q => nomatch q

theorem inPlaceR_calm {k n : Nat} {val : Id → V} {x : Id} (w : L.Held hd xs) (hx : x ∈ xs) (hn : xs.length + 3 ≤ n) :
    (L.inPlaceR k n hd val x).Calm fun o => ∃ b, o = .ok b ∧ (L.keyed = false → b = true) := by
  cases L with
  | seq h => exact ⟨true, rfl, fun _ => rfl⟩
  | rnd s => exact ⟨true, rfl, fun _ => rfl⟩
  | ord u lt h =>
    have hr := held_ord.1 w
    have sr : (if u then Ord.inPlaceUA val n h hd (val x) x else Ord.inPlaceNA val n h hd (val x) x).Always fun r => ∃ b, r = some b := by
      split
      · exact Ord.inPlaceUA_any val hr hn _ hx
      · exact Ord.inPlaceNA_any val hr hn _ hx
    simp only [inPlaceR]
    refine Runs.Calm.then (Runs.Calm.attempt _ sr) ?_
    rintro r ⟨_, rfl, b, rfl⟩
    exact ⟨b, rfl, fun q => nomatch q⟩
  | hash c eq hf pol ml h a =>
    obtain ⟨rfl, s1, T, r, oc, rfl⟩ := held_hash.1 w
    have s0 := (by decide : ∀ s ∈ Hash.sizes, 0 < s) _ s1
    simp only [inPlaceR]
    refine Runs.Calm.then (P := fun b => b = true) (fun _ => rfl) ?_
    rintro b rfl
    refine Runs.Calm.then (Runs.Calm.attempt _ (Hash.inPlaceA_any r oc s0 _ _ _ (by omega))) ?_
    rintro q ⟨_, rfl, b, rfl⟩
    exact ⟨b, rfl, fun q => nomatch q⟩

theorem keepsR_any {k n : Nat} {val : Id → V} {old : V} {x : Id} (w : L.Held hd xs) (hx : x ∈ xs) (hn : xs.length + 3 ≤ n) :
    (L.keepsR k n hd val old x).Always fun o => o = .threw false ∨ ∃ b, o = .ok b := by
  have := (inPlaceR_any (k := k) (val := val) w hx hn).mono (R := fun o => o = .threw false ∨ ∃ b, o = .ok b) (by
    rintro o (q | ⟨b, q, -⟩)
    · exact Or.inl q.1
    · exact Or.inr ⟨b, q⟩)
  cases L with
  | hash c eq hf pol ml h a => exact ⟨fun b => Or.inr ⟨b, rfl⟩, Or.inl rfl⟩
  | ord u lt h => exact this
  | seq h => exact this
  | rnd s => exact this

end
end Layer
end MI.Cont
