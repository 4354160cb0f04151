import Verif.Cont.Promote
import Verif.Props.Lookups
/-!
# C80: lookup arguments that have to be converted

Lookups are documented to be exact for every compatible extension of the comparison object, or of hash function and equality predicate, of the index
(`CompatExt`, `CompatHash`: the requirements of the documentation, C12 and C20). Here `f` is the comparison object or predicate given to the lookup function,
or that of the index; `f.left x k` is the result of the call `f(x,k)` in the program of the user.
-/
namespace MI.Cont
open MI

variable {V K CK : Type} {w : World V} {c : Container V} {k : Nat} {xs : List Id}

/-- If a call of `f` with an argument `x` has to convert it, then it converts `x` to a key. (Otherwise some overload takes another type that `x` can be converted to.) -/
def Honest (f : Fn K CK) : Prop := ∀ g, f.conv = some g →
  (f.exactLeft = false → ∀ x k, f.left x k = f.both (g x) k) ∧ (f.exactRight = false → ∀ k x, f.right k x = f.both k (g x))

theorem Honest.first {f : Fn K CK} (hf : Honest f) {g : CK → K} (h : f.first = some g) (x : CK) : f.both (g x) = f.left x := by
  unfold Fn.first at h
  by_cases q : f.exactLeft = false ∧ f.exactBoth = true
  · rw [if_pos q] at h; exact (funext fun k => (hf g h).1 q.1 x k).symm
  · rw [if_neg q] at h; cases h

theorem Honest.second {f : Fn K CK} (hf : Honest f) {g : CK → K} (h : f.second = some g) (x : CK) : (fun k => f.both k (g x)) = fun k => f.right k x := by
  unfold Fn.second at h
  by_cases q : f.exactRight = false ∧ f.exactBoth = true
  · rw [if_pos q] at h; exact (funext fun k => (hf g h).2 q.1 k x).symm
  · rw [if_neg q] at h; cases h

theorem twice_some {f : Fn K CK} {g : CK → K} (h : f.twice = some g) : f.first = some g ∧ f.second = some g := by
  unfold Fn.twice at h
  cases h1 : f.first with
  | none => simp [h1] at h
  | some g1 =>
    cases h2 : f.second with
    | none => simp [h1, h2] at h
    | some g2 =>
      simp only [h1, h2] at h
      have e1 : f.conv = some g1 := by unfold Fn.first at h1; split at h1 <;> simp_all
      have e2 : f.conv = some g2 := by unfold Fn.second at h2; split at h2 <;> simp_all
      rw [e1] at e2
      exact ⟨h, e2.symm.trans h⟩

section Ordered
variable {u : Bool} {comp : K → K → Bool} {key : V → K} {h : Ord.Heap}

/-- What the documentation promises of the lookup functions of an ordered index (with elements `xs`) for an argument `x` of any type and a comparison object `f`. -/
structure OrdExact (w : World V) (c : Container V) (key : V → K) (h : Ord.Heap) (xs : List Id) (f : Fn K CK) (x : CK) : Prop where
  find : Ord.findArg (fun i => key (w.m.val i)) f c.budget h c.hd x = some ((xs.find? (fun a => equivTo f.right f.left x (key (w.m.val a)))).getD c.hd)
  contains : Ord.containsArg (fun i => key (w.m.val i)) f c.budget h c.hd x = some (xs.any (fun a => equivTo f.right f.left x (key (w.m.val a))))
  lower : Ord.lowerBoundArg (fun i => key (w.m.val i)) f c.budget h c.hd x = some ((xs.find? (fun a => !f.right (key (w.m.val a)) x)).getD c.hd)
  upper : Ord.upperBoundArg (fun i => key (w.m.val i)) f c.budget h c.hd x = some ((xs.find? (fun a => f.left x (key (w.m.val a)))).getD c.hd)
  count : Ord.countArg (fun i => key (w.m.val i)) f c.budget h c.hd x = some (xs.countP (fun a => equivTo f.right f.left x (key (w.m.val a))))
  range : ∃ p m s, xs = p ++ m ++ s ∧ m = xs.filter (fun a => equivTo f.right f.left x (key (w.m.val a))) ∧ (∀ a ∈ p, f.right (key (w.m.val a)) x = true) ∧ (∀ a ∈ s, f.left x (key (w.m.val a)) = true) ∧
    Ord.equalRangeArg (fun i => key (w.m.val i)) f c.budget h c.hd x = some ((m ++ s).headD c.hd, s.headD c.hd)
  findRank : Ord.findRankArg (fun i => key (w.m.val i)) f c.budget h c.hd x = some (xs.findIdx (fun a => equivTo f.right f.left x (key (w.m.val a))))
  lowerRank : Ord.lowerBoundRankArg (fun i => key (w.m.val i)) f c.budget h c.hd x = some (xs.countP (fun a => f.right (key (w.m.val a)) x))
  upperRank : Ord.upperBoundRankArg (fun i => key (w.m.val i)) f c.budget h c.hd x = some (xs.countP (fun a => !f.left x (key (w.m.val a))))
  rangeRank : Ord.equalRangeRankArg (fun i => key (w.m.val i)) f c.budget h c.hd x =
    some (xs.countP (fun a => f.right (key (w.m.val a)) x), xs.countP (fun a => !f.left x (key (w.m.val a))))

/-- C80, partial, for ordered and ranked indices: all lookups are exact for every compatible extension, whether the argument is converted in advance or not, if a
call that converts it converts it to a key. Without this the claim is false (`C80_ordered_full_false`). -/
theorem C80_ordered_partial (r : Reach w) (hc : c ∈ w.cs) (hL : c.ls[k]? = some (.ord u (fun a b => comp (key a) (key b)) h)) (hx : c.seqs[k]? = some xs)
    {f : Fn K CK} (ce : CompatExt comp f.right f.left) (hf : Honest f) (x : CK) : OrdExact w c key h xs f x := by
  have ce' : CompatExt (fun a b => comp (key a) (key b)) (fun v x => f.right (key v) x) (fun x v => f.left x (key v)) :=
    ⟨fun q v => ce.asymm q _, fun q _ _ => ce.upper q _ _, fun q _ _ => ce.lower q _ _⟩
  obtain ⟨a1, a2, a3, a4, a5, p, m, s, e1, e2, e3, e4, e5⟩ := C12_container r hc hL hx ce' x
  obtain ⟨b1, b2, b3, b4, -⟩ := C19_container r hc hL hx ce' x
  have hfind : Ord.findArg (fun i => key (w.m.val i)) f c.budget h c.hd x = Ord.find w.m.val (fun v x => f.right (key v) x) (fun x v => f.left x (key v)) c.budget h c.hd x := by
    unfold Ord.findArg
    split
    · next g hg =>
      obtain ⟨h1, h2⟩ := twice_some hg
      unfold Ord.find
      have q1 := hf.first h1 x
      have q2 := fun k => congrFun (hf.second h2 x) k
      simp only [q1, q2]
    · rfl
  have hrange : Ord.equalRangeArg (fun i => key (w.m.val i)) f c.budget h c.hd x =
      Ord.equalRange w.m.val (fun v x => f.right (key v) x) (fun x v => f.left x (key v)) c.budget h c.hd x := by
    unfold Ord.equalRangeArg
    split
    · next g hg =>
      obtain ⟨h1, h2⟩ := twice_some hg
      unfold Ord.equalRange
      have q1 := hf.first h1 x
      have q2 := fun k => congrFun (hf.second h2 x) k
      simp only [q1, q2]
    · rfl
  have hfr : Ord.findRankArg (fun i => key (w.m.val i)) f c.budget h c.hd x = Ord.findRank w.m.val (fun v x => f.right (key v) x) (fun x v => f.left x (key v)) c.budget h c.hd x := by
    unfold Ord.findRankArg
    split
    · next g hg =>
      obtain ⟨h1, h2⟩ := twice_some hg
      unfold Ord.findRank
      have q1 := hf.first h1 x
      have q2 := fun k => congrFun (hf.second h2 x) k
      simp only [q1, q2]
    · rfl
  have herr : Ord.equalRangeRankArg (fun i => key (w.m.val i)) f c.budget h c.hd x =
      Ord.equalRangeRank w.m.val (fun v x => f.right (key v) x) (fun x v => f.left x (key v)) c.budget h c.hd x := by
    unfold Ord.equalRangeRankArg
    split
    · next g hg =>
      obtain ⟨h1, h2⟩ := twice_some hg
      unfold Ord.equalRangeRank
      have q1 := hf.first h1 x
      have q2 := fun k => congrFun (hf.second h2 x) k
      simp only [q1, q2]
    · rfl
  refine ⟨hfind.trans a1, ?_, ?_, ?_, ?_, ⟨p, m, s, e1, e3, e4, e5, hrange.trans e2⟩, hfr.trans b1, ?_, ?_, herr.trans b4⟩
  · unfold Ord.containsArg; rw [hfind]; exact a2
  · unfold Ord.lowerBoundArg
    split
    · next g hg =>
      have q2 := fun k => congrFun (hf.second hg x) k
      unfold Ord.lowerBound Ord.lowerBoundFrom at a3 ⊢
      simp only [q2]; exact a3
    · exact a3
  · unfold Ord.upperBoundArg
    split
    · next g hg =>
      unfold Ord.upperBound Ord.upperBoundFrom at a4 ⊢
      simp only [hf.first hg x]; exact a4
    · exact a4
  · unfold Ord.countArg; rw [hrange]; exact a5
  · unfold Ord.lowerBoundRankArg
    split
    · next g hg =>
      have q2 := fun k => congrFun (hf.second hg x) k
      unfold Ord.lowerBoundRank at b2 ⊢
      simp only [q2]; exact b2
    · exact b2
  · unfold Ord.upperBoundRankArg
    split
    · next g hg =>
      unfold Ord.upperBoundRank at b3 ⊢
      simp only [hf.first hg x]; exact b3
    · exact b3

end Ordered

/-- C80 in full, for ordered indices: lookups are exact for every compatible extension. -/
def C80Ordered : Prop := ∀ (V K CK : Type) (w : World V) (c : Container V) (k : Nat) (xs : List Id) (u : Bool) (comp : K → K → Bool) (key : V → K) (h : Ord.Heap) (f : Fn K CK) (x : CK),
  Reach w → c ∈ w.cs → c.ls[k]? = some (.ord u (fun a b => comp (key a) (key b)) h) → c.seqs[k]? = some xs → CompatExt comp f.right f.left →
  OrdExact w c key h xs f x

section Hashed
variable {cat : Hash.Cat} {eq : K → K → Bool} {hs : K → Nat} {key : V → K} {pol : Pol} {ml : Nat} {h : Hash.Heap} {a : Hash.Arr}

/-- What the documentation promises of the lookup functions of a hashed index (with elements `xs` and the predicate `eq`) for an argument `x` of any type, a predicate `f`
and a hash function `hf`. -/
structure HashExact (w : World V) (c : Container V) (cat : Hash.Cat) (eq : K → K → Bool) (key : V → K) (h : Hash.Heap) (a : Hash.Arr) (xs : List Id)
    (f : Fn K CK) (hf : HashFn K CK) (x : CK) : Prop where
  find : Hash.findArg (fun i => key (w.m.val i)) f hf c.budget cat h a c.hd x = .ok ((xs.find? (fun y => f.left x (key (w.m.val y)))).getD c.hd)
  count : Hash.countArg (fun i => key (w.m.val i)) eq f hf c.budget cat h a x = .ok (xs.countP (fun y => f.left x (key (w.m.val y))))
  range : ∃ p m s, xs = p ++ m ++ s ∧ m = xs.filter (fun y => f.left x (key (w.m.val y))) ∧
    Hash.equalRangeArg (fun i => key (w.m.val i)) eq f hf c.budget cat h a c.hd x = .ok (if m = [] then (c.hd, c.hd) else (m.headD c.hd, s.headD c.hd))

/-- C80, partial, for hashed indices: all lookups are exact for every compatible extension if a call of the predicate that converts its argument converts it to
a key, and converting the argument to a key does not change its hash value. Without the one or the other the claim is false (`C80_hashed_full_false`, `C80_hash_of_key_false`). -/
theorem C80_hashed_partial (r : Reach w) (hc : c ∈ w.cs) (hL : c.ls[k]? = some (.hash cat (fun a b => eq (key a) (key b)) (fun a => hs (key a)) pol ml h a)) (hx : c.seqs[k]? = some xs)
    {f : Fn K CK} {hf : HashFn K CK} (ce : CompatHash eq hs f.left hf.onArg) (ho : Honest f) (x : CK) (hh : ∀ g, f.first = some g → hf.onKey (g x) = hf.onArg x) :
    HashExact w c cat eq key h a xs f hf x := by
  have ce' : CompatHash (fun a b => eq (key a) (key b)) (fun a => hs (key a)) (fun x v => f.left x (key v)) hf.onArg := ⟨ce.ext, ce.one, ce.cons⟩
  obtain ⟨a1, a2, p, m, s, e1, e2, e3⟩ := C20_container r hc hL hx ce' x
  refine ⟨?_, ?_, p, m, s, e1, e2, ?_⟩
  · unfold Hash.findArg
    split
    · next g hg => simp only [ho.first hg x, hh g hg]; exact a1
    · exact a1
  · unfold Hash.countArg
    split
    · next g hg => simp only [ho.first hg x, hh g hg]; exact a2
    · exact a2
  · unfold Hash.equalRangeArg
    split
    · next g hg => simp only [ho.first hg x, hh g hg]; exact e3
    · exact e3

/-- C80 for lookups with the hash function and the predicate of the index itself (`find(x)`, `count(x)`, `equal_range(x)`): nothing is asked of hash values, since a key and the argument it is
converted from are equal. -/
theorem C80_hashed_own (r : Reach w) (hc : c ∈ w.cs) (hL : c.ls[k]? = some (.hash cat (fun a b => eq (key a) (key b)) (fun a => hs (key a)) pol ml h a)) (hx : c.seqs[k]? = some xs)
    {f : Fn K CK} {hf : HashFn K CK} (ce : CompatHash eq hs f.left hf.onArg) (ho : Honest f) (own : f.both = eq ∧ hf.onKey = hs) (er : ∀ k, eq k k = true) (x : CK) :
    HashExact w c cat eq key h a xs f hf x :=
  C80_hashed_partial r hc hL hx ce ho x fun g hg => by
    have h1 : f.left x (g x) = true := by rw [← ho.first hg x, own.1]; exact er _
    rw [own.2, ce.cons h1]

end Hashed

/-- C80 in full, for hashed indices: lookups are exact for every compatible extension. -/
def C80Hashed : Prop := ∀ (V K CK : Type) (w : World V) (c : Container V) (k : Nat) (xs : List Id) (cat : Hash.Cat) (eq : K → K → Bool) (hs : K → Nat) (key : V → K) (pol : Pol) (ml : Nat)
  (h : Hash.Heap) (a : Hash.Arr) (f : Fn K CK) (hf : HashFn K CK) (x : CK),
  Reach w → c ∈ w.cs → c.ls[k]? = some (.hash cat (fun a b => eq (key a) (key b)) (fun a => hs (key a)) pol ml h a) → c.seqs[k]? = some xs →
  CompatHash eq hs f.left hf.onArg → HashExact w c cat eq key h a xs f hf x

/-- The same, for predicates whose calls convert lookup arguments to keys. -/
def C80HashOfKey : Prop := ∀ (V K CK : Type) (w : World V) (c : Container V) (k : Nat) (xs : List Id) (cat : Hash.Cat) (eq : K → K → Bool) (hs : K → Nat) (key : V → K) (pol : Pol) (ml : Nat)
  (h : Hash.Heap) (a : Hash.Arr) (f : Fn K CK) (hf : HashFn K CK) (x : CK),
  Reach w → c ∈ w.cs → c.ls[k]? = some (.hash cat (fun a b => eq (key a) (key b)) (fun a => hs (key a)) pol ml h a) → c.seqs[k]? = some xs →
  CompatHash eq hs f.left hf.onArg → Honest f → HashExact w c cat eq key h a xs f hf x

section
open Ex

/-- A comparison object that compares a lookup argument by its value (through an overload for another type that the argument can be converted to), while the
conversion of the argument to a key adds 1. -/
def fOther (both : Nat → Nat → Bool) : Fn Nat Nat := ⟨both, both, both, false, false, true, some (· + 1)⟩

theorem lt_sw : StrictWeak (fun a b : Nat => decide (a < b)) := by
  constructor
  · intro a; simp
  · intro a b c; simp; omega
  · intro a b c; simp; omega

/-- C80 in full is false of the code: the argument 3 is converted to the key 4, so that element 11 with key 3 is not found. -/
theorem C80_ordered_full_false : ¬ C80Ordered := by
  intro H
  obtain ⟨h, hL⟩ := c0_ord
  have hx : c0.seqs[0]? = some [12, 11] := by decide +kernel
  have h1 := (H Val Nat Nat w3 c0 0 _ true (fun a b => decide (a < b)) Prod.fst h (fOther fun a b => decide (a < b)) 3 w3_reach mem0 hL hx lt_sw.compat).find
  have h2 := (C80_ordered_partial (f := ⟨fun a b => decide (a < b), fun a b => decide (a < b), fun a b => decide (a < b), true, true, true, none⟩) w3_reach mem0
    (comp := fun a b : Nat => decide (a < b)) (key := Prod.fst) hL hx lt_sw.compat (by intro g hg; cases hg) (4 : Nat)).find
  have h3 := h1.symm.trans h2
  simp [w3_val.1, w3_val.2.1, fOther, equivTo, List.find?] at h3
  exact absurd h3 (by decide +kernel)

/-- Equality predicate and hash function used as they are, on numbers: no conversion. -/
def fSame (both : Nat → Nat → Bool) : Fn Nat Nat := ⟨both, both, both, true, true, true, none⟩

theorem nat_eh : EqHash (fun a b : Nat => a == b) (fun a => a) := by
  constructor
  · intro a; simp
  · intro a b; simp; exact fun h => h.symm
  · intro a b c; simp; exact fun h g => h.trans g
  · intro a b; simp

/-- C80 in full is false of the code for hashed indices: the argument 7 is converted to the key 8, so that element 11 with key 7 is not found. -/
theorem C80_hashed_full_false : ¬ C80Hashed := by
  intro H
  obtain ⟨pol, ml, h, a, hL⟩ := c0_hash
  have hx : c0.seqs[1]? = some [11, 12] := by decide +kernel
  have h1 := (H Val Nat Nat w3 c0 1 _ .multi (fun a b => a == b) (fun a => a) Prod.snd pol ml h a (fOther fun a b => a == b) ⟨fun x => x, fun x => x⟩ 7
    w3_reach mem0 hL hx nat_eh.compat).find
  have h2 := (C80_hashed_partial (f := fSame fun a b => a == b) (hf := ⟨fun x => x, fun x => x⟩) w3_reach mem0
    (eq := fun a b : Nat => a == b) (hs := fun a => a) (key := Prod.snd) hL hx nat_eh.compat (by intro g hg; cases hg) (8 : Nat) (by intro g hg; cases hg)).find
  have h3 := h1.symm.trans h2
  simp [w3_val.1, w3_val.2.1, fOther, fSame, List.find?] at h3
  exact absurd h3 (by decide +kernel)

/-- The lookup in index 1 of `c0`, with the bucket of the hash value `hk`. -/
def findIn (p : Id → Bool) (hk : Nat) : Option Id :=
  match (c0.ls[1]? : Option (Layer Val)) with
  | some (.hash cat _ _ _ _ h a) =>
    match Hash.find c0.budget cat p hk h a c0.hd with
    | .ok x => some x
    | _ => none
  | _ => none

/-- C80 is false of the code even if the predicate takes keys only, and lookup arguments are converted to keys: a hash function given to the lookup is not called with the argument, as documented, but
with the key it has been converted to. The keys are numbers `n`, the arguments are numbers `n` which stand for the key `n+1`, and the hash function for arguments adds 1; called with a key it adds 1, too, so
that the argument 6 is looked for in the bucket of 8, not in that of 7. -/
theorem C80_hash_of_key_false : ¬ C80HashOfKey := by
  intro H
  obtain ⟨pol, ml, h, a, hL⟩ := c0_hash
  have hx : c0.seqs[1]? = some [11, 12] := by decide +kernel
  have ce : CompatHash (fun a b : Nat => a == b) (fun a => a) (fun x k => x + 1 == k) (fun x => x + 1) := by
    constructor
    · intro c k1 k2; simp; omega
    · intro c k1 k2; simp; omega
    · intro c k; simp
  have h1 := (H Val Nat Nat w3 c0 1 _ .multi (fun a b => a == b) (fun a => a) Prod.snd pol ml h a
    ⟨fun x k => x + 1 == k, fun k x => k == x + 1, fun a b => a == b, false, false, true, some (· + 1)⟩ ⟨fun x => x + 1, fun k => k + 1⟩ 6
    w3_reach mem0 hL hx ce (by intro g hg; cases hg; exact ⟨fun _ _ _ => rfl, fun _ _ _ => rfl⟩)).find
  have h2 : findIn (fun y => 6 + 1 == (w3.m.val y).2) 8 = some c0.hd := by decide +kernel
  have h3 : findIn (fun y => 6 + 1 == (w3.m.val y).2) 8 = some 11 := by
    unfold findIn
    rw [hL]
    simp only [Hash.findArg, Fn.first] at h1
    simp only [and_self, if_true] at h1
    simp only [h1]
    simp [w3_val.2.1, List.find?]
  rw [h2] at h3
  exact absurd h3 (by decide +kernel)

/-- A lookup that converts its argument: numbers `n` stand for the key `n+1`; 2 is the key of element 11 in the first index, 6 that in the second. -/
example : ∃ h, c0.ls[0]? = some (.ord true (fun a b => decide (a.1 < b.1)) h) ∧
    Ord.findArg (fun i => (w3.m.val i).1) (⟨fun x k => decide (x + 1 < k), fun k x => decide (k < x + 1), fun a b => decide (a < b), false, false, true, some (· + 1)⟩ : Fn Nat Nat)
      c0.budget h c0.hd 2 = some 11 := by
  obtain ⟨h, hL⟩ := c0_ord
  have hx : c0.seqs[0]? = some [12, 11] := by decide +kernel
  have ce : CompatExt (fun a b : Nat => decide (a < b)) (fun k x => decide (k < x + 1)) (fun x k => decide (x + 1 < k)) :=
    ⟨by intro a b; simp; omega, by intro a b d; simp; omega, by intro a b d; simp; omega⟩
  have h1 := (C80_ordered_partial (f := ⟨fun x k => decide (x + 1 < k), fun k x => decide (k < x + 1), fun a b => decide (a < b), false, false, true, some (· + 1)⟩) w3_reach mem0
    (comp := fun a b : Nat => decide (a < b)) (key := Prod.fst) hL hx ce (by intro g hg; cases hg; exact ⟨fun _ _ _ => rfl, fun _ _ _ => rfl⟩) (2 : Nat)).find
  exact ⟨h, hL, h1.trans (by simp [w3_val.1, w3_val.2.1, equivTo, List.find?])⟩

example : ∃ pol ml h a, c0.ls[1]? = some (.hash .multi (fun a b => a.2 == b.2) (fun a => a.2) pol ml h a) ∧
    Hash.findArg (fun i => (w3.m.val i).2) (⟨fun x k => x + 1 == k, fun k x => k == x + 1, fun a b => a == b, false, false, true, some (· + 1)⟩ : Fn Nat Nat) ⟨fun x => x + 1, fun k => k⟩
      c0.budget .multi h a c0.hd 6 = .ok 11 := by
  obtain ⟨pol, ml, h, a, hL⟩ := c0_hash
  have hx : c0.seqs[1]? = some [11, 12] := by decide +kernel
  have ce : CompatHash (fun a b : Nat => a == b) (fun a => a) (fun x k => x + 1 == k) (fun x => x + 1) :=
    ⟨by intro c k1 k2; simp; omega, by intro c k1 k2; simp; omega, by intro c k; simp⟩
  have h1 := (C80_hashed_own (f := ⟨fun x k => x + 1 == k, fun k x => k == x + 1, fun a b => a == b, false, false, true, some (· + 1)⟩) (hf := ⟨fun x => x + 1, fun k => k⟩) w3_reach mem0
    (eq := fun a b : Nat => a == b) (hs := fun a => a) (key := Prod.snd) hL hx ce (by intro g hg; cases hg; exact ⟨fun _ _ _ => rfl, fun _ _ _ => rfl⟩) ⟨rfl, rfl⟩
    (by intro k; simp) (6 : Nat)).find
  exact ⟨pol, ml, h, a, hL, h1.trans (by simp [w3_val.2.1, List.find?])⟩

end
end MI.Cont
