import Verif.Key.Extract
import Verif.Props.Cont
/-!
# C71: key extractors and `modify_key`

Specification vocabulary: the object an element designates, parts of an object that do not overlap, indices that look only at some function of
the elements.
-/
namespace MI.Key
variable {V C K L : Type}

/-- The object at the end of the chain of pointers. -/
def Arg.object : Arg C → C
  | .obj c => c
  | .ref c => c
  | .ptr t => t.object

/-- How many times one has to dereference. -/
def Arg.depth : Arg C → Nat
  | .ptr t => t.depth + 1
  | _ => 0

/-- An assignment to the one part does not change what `g` computes. -/
def Part.Apart (p : Part V K) (g : V → L) : Prop := ∀ v k, g (p.set v k) = g v

/-- C71: a key extractor reads the object at the end of the chain of pointers, whatever the length of the chain; an assignment through a read/write
key extractor reaches that object, and changes nothing but the part. -/
theorem C71_chained (f : C → K) (p : Part C L) (x : Arg C) (l : L) :
    extract f x = f x.object ∧ extract p.get (assign p x l) = l ∧ (assign p x l).object = p.set x.object l ∧ (assign p x l).depth = x.depth ∧
      (p.Apart f → extract f (assign p x l) = extract f x) := by
  induction x with
  | obj c => exact ⟨rfl, p.get_set c l, rfl, rfl, fun h => h c l⟩
  | ref c => exact ⟨rfl, p.get_set c l, rfl, rfl, fun h => h c l⟩
  | ptr t ih =>
    obtain ⟨h1, h2, h3, h4, h5⟩ := ih
    exact ⟨h1, h2, h3, congrArg (· + 1) h4, h5⟩

/-- The part of an element, object or chained pointer, that a read/write key extractor gives. -/
def Part.chain (p : Part C K) : Part (Arg C) K where
  get := extract p.get
  set := assign p
  get_set x k := (C71_chained p.get p x k).2.1
  set_get x := by
    induction x with
    | obj c => exact congrArg Arg.obj (p.set_get c)
    | ref c => exact congrArg Arg.ref (p.set_get c)
    | ptr t ih => exact congrArg Arg.ptr ih
  set_set x k l := by
    induction x with
    | obj c => exact congrArg Arg.obj (p.set_set c k l)
    | ref c => exact congrArg Arg.ref (p.set_set c k l)
    | ptr t ih => exact congrArg Arg.ptr ih

/-- First and second member of a pair. -/
def Part.first : Part (K × L) K := ⟨(·.1), fun v k => (k, v.2), fun _ _ => rfl, fun _ => rfl, fun _ _ _ => rfl⟩
def Part.second : Part (K × L) L := ⟨(·.2), fun v k => (v.1, k), fun _ _ => rfl, fun _ => rfl, fun _ _ _ => rfl⟩

/-- A pointer to a pointer to a pair. -/
example : extract (·.2) (assign Part.first (.ptr (.ptr (.obj (1, 2)))) 5) = 2 ∧ extract (·.1) (assign Part.first (.ptr (.ptr (.obj (1, 2)))) 5) = 5 ∧
    (Part.first (K := Nat) (L := Nat)).Apart (·.2) := ⟨rfl, rfl, fun _ _ => rfl⟩
end MI.Key

namespace MI.Cont
open MI.Key
variable {V K L : Type} {w w' : World V} {i : Nat} {c : Container V} {x : Id} {p : Part V K} {f back : K → K × Bool} {e e' : Nat → Env}

/-- The keys of an index depend on nothing but `g`. -/
def Spec.Sees (S : Spec V) (g : V → L) : Prop := ∀ v v', g v = g v' → S.SameKey v v'

/-- C71: `modify_key(position,mod)`, with a read/write key extractor that gives the part `p` of elements. If it returns true, the key of the element is
the one computed by `mod`, all of the element that does not overlap the key is as it was, the element is in its place in every index and only it
may have moved, and nothing has moved in indices that look at something else. If it returns false, some other element has an equivalent key in a unique index,
and the element has been removed and deleted; likewise, if it throws, and then a user function threw. -/
theorem C71_modify_key (r : Reach w) (hc : w.cs[i]? = some c) (hx : x ∈ c.elems) :
    (∃ w', w.modifyKey i x p f e = .ok (w', ⟨x, true⟩) ∧ ¬ c.Bans w.m.val [x] (p.set (w.m.val x) (f (p.get (w.m.val x))).1) ∧
      Changed w w' i x (p.set (w.m.val x) (f (p.get (w.m.val x))).1) ∧ p.get (w'.m.val x) = (f (p.get (w.m.val x))).1 ∧
      (∀ (L : Type) (g : V → L), p.Apart g → g (w'.m.val x) = g (w.m.val x) ∧
        ∃ c', w'.cs[i]? = some c' ∧ ∀ (k : Nat) (S : Spec V), c.asked[k]? = some S → S.Sees g → c'.seqs[k]? = c.seqs[k]?)) ∨
    (∃ w' q, w.modifyKey i x p f e = .ok (w', ⟨q, false⟩) ∧ c.Bans w.m.val [x] (p.set (w.m.val x) (f (p.get (w.m.val x))).1) ∧ Lost w w' i x ∧
      Deleted w w' x) ∨
    (∃ w' ret, w.modifyKey i x p f e = .threw (w', ret) ∧ ((∃ k, ¬ (e k).Quiet) ∨ (f (p.get (w.m.val x))).2 = true) ∧ Lost w w' i x ∧ Deleted w w' x) := by
  have l : w.Legal (.modify i x (adaptor p f) e) := ⟨c, hc, hx⟩
  rcases C07_modify r l hc with ⟨w', k1, k2, k3⟩ | k | k
  · have hv : w'.m.val x = p.set (w.m.val x) (f (p.get (w.m.val x))).1 := k3.2.2.2.1
    refine Or.inl ⟨w', k1, k2, k3, by rw [hv, p.get_set], fun L g hg => ⟨by rw [hv]; exact hg _ _, ?_⟩⟩
    obtain ⟨-, -, -, -, -, c1, c', o, -, -⟩ := id k3
    obtain rfl := Option.some.inj (hc.symm.trans o.pre)
    have hc' : w'.cs[i]? = some c' := by rw [o.cs, List.getElem?_set_self (List.getElem?_eq_some_iff.1 hc).1]
    refine ⟨c', hc', fun k S hS hs => ?_⟩
    obtain ⟨c2, h1, h2⟩ := C07_keeps_position r l hc k1 hS (hs _ _ (hg _ _))
    obtain rfl := Option.some.inj (hc'.symm.trans h1)
    exact h2
  · exact Or.inr (Or.inl k)
  · exact Or.inr (Or.inr k)

/-- C71: `modify_key(position,mod,back)`, where `back` undoes `mod`. If it returns true, as above. If it returns false, some other element has an
equivalent key in a unique index, and every element and every index is as it was. If it throws, a user function threw, and the
element has been removed and deleted. -/
theorem C71_modify_key_rollback (r : Reach w) (hc : w.cs[i]? = some c) (hx : x ∈ c.elems) (hb : (back (f (p.get (w.m.val x))).1).1 = p.get (w.m.val x)) :
    (∃ w', w.modifyKeyRb i x p f back e e' = .ok (w', ⟨x, true⟩) ∧ ¬ c.Bans w.m.val [x] (p.set (w.m.val x) (f (p.get (w.m.val x))).1) ∧
      Changed w w' i x (p.set (w.m.val x) (f (p.get (w.m.val x))).1) ∧ p.get (w'.m.val x) = (f (p.get (w.m.val x))).1 ∧
      (∀ (L : Type) (g : V → L), p.Apart g → g (w'.m.val x) = g (w.m.val x) ∧
        ∃ c', w'.cs[i]? = some c' ∧ ∀ (k : Nat) (S : Spec V), c.asked[k]? = some S → S.Sees g → c'.seqs[k]? = c.seqs[k]?)) ∨
    (∃ w', w.modifyKeyRb i x p f back e e' = .ok (w', ⟨x, false⟩) ∧ c.Bans w.m.val [x] (p.set (w.m.val x) (f (p.get (w.m.val x))).1) ∧ Identical w w' i) ∨
    (∃ w' ret, w.modifyKeyRb i x p f back e e' = .threw (w', ret) ∧ ((∃ k, ¬ (e k).Quiet) ∨ (∃ k, ¬ (e' k).Quiet) ∨ (f (p.get (w.m.val x))).2 = true ∨
      (back (f (p.get (w.m.val x))).1).2 = true) ∧ Lost w w' i x ∧ Deleted w w' x) := by
  have hval : (adaptor p back (adaptor p f (w.m.val x)).1).1 = w.m.val x := by
    show p.set (p.set _ _) (back (p.get (p.set _ _))).1 = _
    rw [p.get_set, p.set_set, hb, p.set_get]
  have hthr : (adaptor p back (adaptor p f (w.m.val x)).1).2 = (back (f (p.get (w.m.val x))).1).2 := by
    show (back (p.get (p.set _ _))).2 = _
    rw [p.get_set]
  have hres : Restores c.asked (adaptor p f) (adaptor p back) (w.m.val x) := fun S hS => by
    rw [hval]
    exact sameKey_refl ((r.sound (List.mem_of_getElem? hc)).ok S hS) _
  rcases C08_modify_rollback_partial (e' := e') r hc hx (Or.inl hres : Restores c.asked (adaptor p f) (adaptor p back) (w.m.val x) ∨ ∀ k, (e k).Quiet) with
    ⟨w', k1, k2, k3⟩ | ⟨w', k1, k2, k3, k4, c', o, q1, q2⟩ | ⟨w', q, k1, k2, k3, -⟩ | ⟨w', ret, k1, k2, k3⟩
  · have hv : w'.m.val x = p.set (w.m.val x) (f (p.get (w.m.val x))).1 := k3.2.2.2.1
    refine Or.inl ⟨w', k1, k2, k3, by rw [hv, p.get_set], fun L g hg => ⟨by rw [hv]; exact hg _ _, ?_⟩⟩
    obtain ⟨-, -, -, -, -, c1, c', o, -, -⟩ := id k3
    obtain rfl := Option.some.inj (hc.symm.trans o.pre)
    have hc' : w'.cs[i]? = some c' := by rw [o.cs, List.getElem?_set_self (List.getElem?_eq_some_iff.1 hc).1]
    refine ⟨c', hc', fun k S hS hs => ?_⟩
    obtain ⟨c2, h1, h2⟩ := changed_keeps r hc k3 hS (hs _ _ (hg _ _))
    obtain rfl := Option.some.inj (hc'.symm.trans h1)
    exact h2
  · refine Or.inr (Or.inl ⟨w', k1, k2, ?_, k4, c, c', o, q1, q2⟩)
    rw [k3, hval]
    show ({ w.m with val := upd w.m.val x (w.m.val x) } : Mem V) = w.m
    have : upd w.m.val x (w.m.val x) = w.m.val := by
      funext y
      by_cases h : y = x
      · rw [h, upd_same]
      · rw [upd_other _ _ h]
    rw [this]
  · exact absurd hres k3
  · rw [hthr] at k2
    exact Or.inr (Or.inr ⟨w', ret, k1, k2, k3⟩)

section
open Ex
/-- The first index sees the first component, the second index the second; `modify_key` of the first index with a free key, the key of another element,
an exception; and with rollback. -/
example : Spec.Sees (.ord true (fun a b : Val => decide (a.1 < b.1))) (·.1) ∧ Spec.Sees (.hash .multi (fun a b : Val => a.2 == b.2) (·.2)) (·.2) ∧
    (Part.first (K := Nat) (L := Nat)).Apart (·.2) ∧ okB (w3.modifyKey 0 12 Part.first (fun k => (k + 10, false)) env) = some true ∧
    okB (w3.modifyKey 0 12 Part.first (fun k => (k + 2, false)) env) = some false ∧ threwB (w3.modifyKey 0 12 Part.first (fun k => (k, true)) env) = true ∧
    okB (w3.modifyKeyRb 0 12 Part.first (fun k => (k + 2, false)) (fun k => (k - 2, false)) env env) = some false := by
  refine ⟨fun v v' h => ?_, fun v v' h => ?_, fun _ _ => rfl, by decide +kernel, by decide +kernel, by decide +kernel, by decide +kernel⟩
  · have h' : v.1 = v'.1 := h
    simp [Spec.SameKey, equivOf, h']
  · have h' : v.2 = v'.2 := h
    simp [Spec.SameKey, h']
example : c0 ∈ w3.cs ∧ (12 : Id) ∈ c0.elems := ⟨mem0, by rw [elems0 hc0]; simp⟩
end
end MI.Cont
