import Verif.Key.Lemmas
import Verif.Cont.ApiSpec
/-!
# Composite keys (C40)

A composite key of type `Composite V K` extracts from a value of type `V` a tuple of `len` components; component `j` has type `K j`.
`LexLess`, `AllEq`, `AllEquiv` (Verif/Spec/Lex.lean) say what comparing tuples means, `StrictWeak`, `CompatExt`, `EqHash`, `CompatHash`
what indices require of their functions. `Tup L` is a lookup tuple, with components of types `L j` possibly different from `K j`.
-/
namespace MI.Key
open MI MI.Cont
variable {V W : Type} {K L : Nat → Type}

/-- C40: comparing two composite keys, or a composite key and a tuple in either position, is the lexicographic comparison of their
components, as many as both have. -/
theorem C40_compare_lexicographic (c : Composite V K) (v : V) (d : Composite W L) (w : W) (t : Tup L)
    (comp : ∀ j, K j → L j → Bool) (comp' : ∀ j, L j → K j → Bool) :
    (c.less v d w comp comp' = true ↔ LexLess (min c.len d.len) comp comp' (fun j => c.ext j v) (fun j => d.ext j w)) ∧
    (c.lessTup v t comp comp' = true ↔ LexLess (min c.len t.len) comp comp' (fun j => c.ext j v) t.get) ∧
    (t.lessComposite c v comp comp' = true ↔ LexLess (min c.len t.len) comp' comp t.get (fun j => c.ext j v)) :=
  ⟨compareCC_iff .., compareCV_iff .., compareVC_iff ..⟩

/-- C40: if the component comparisons are strict weak orderings then so is the comparison of composite keys, so that it can be the
order of an ordered index; two values are equivalent for it if all components are. -/
theorem C40_strict_weak (c : Composite V K) (comp : ∀ j, K j → K j → Bool) (hc : ∀ j < c.len, StrictWeak (comp j)) :
    StrictWeak (fun v w => c.less v c w comp comp) ∧
    ∀ v w, equivOf (fun v w => c.less v c w comp comp) v w = true ↔ AllEquiv c.len comp comp (fun j => c.ext j v) (fun j => c.ext j w) := by
  have iff : ∀ v w, c.less v c w comp comp = true ↔ LexLess c.len comp comp (fun j => c.ext j v) (fun j => c.ext j w) := fun v w => by
    have := (C40_compare_lexicographic c v c w ⟨0, fun j => c.ext j w⟩ comp comp).1
    rwa [Nat.min_self] at this
  have niff : ∀ v w, c.less v c w comp comp = false ↔ ¬ LexLess c.len comp comp (fun j => c.ext j v) (fun j => c.ext j w) := fun v w => by
    rw [← iff, Bool.not_eq_true]
  have equiv : ∀ v w, c.less v c w comp comp = false ∧ c.less w c v comp comp = false ↔
      AllEquiv c.len comp comp (fun j => c.ext j v) (fun j => c.ext j w) := fun v w => by
    rw [niff, niff, equiv_lex]
  refine ⟨⟨fun v => ?_, fun {x y z} h1 h2 => ?_, fun {x y z} h1 h2 h3 h4 => ?_⟩, fun v w => ?_⟩
  · rw [niff]
    rintro ⟨k, hk, _, hl⟩
    rw [(hc k hk).irrefl] at hl; cases hl
  · rw [iff] at *
    exact lex_trans hc h1 h2
  · have e1 := (equiv x y).1 ⟨h1, h2⟩
    have e2 := (equiv y z).1 ⟨h3, h4⟩
    exact (equiv x z).2 (fun j hj => (hc j hj).incomp (e1 j hj).1 (e1 j hj).2 (e2 j hj).1 (e2 j hj).2)
  · rw [StrictWeak.equiv_iff]
    exact equiv v w

/-- C40: looking up a tuple of values, possibly fewer than the key has components and of other types than these, is a compatible extension of
the order of the index (what lookup functions require) if its components are, and all but the last compared do not match elements that
are not equivalent; the elements matched are those whose first components match the values of the tuple. (`Probe` is what a lookup
function sees of the tuple.) -/
theorem C40_prefix_lookup_compat (c : Composite V K) (t : Tup L) (comp : ∀ j, K j → K j → Bool) (ltk : ∀ j, K j → L j → Bool) (gtk : ∀ j, L j → K j → Bool)
    (hc : ∀ j < min c.len t.len, CompatExt (comp j) (ltk j) (gtk j))
    (hx : ∀ j, j + 1 < min c.len t.len → ∀ l a b, equivTo (ltk j) (gtk j) l a = true → equivTo (ltk j) (gtk j) l b = true → equivOf (comp j) a b = true)
    (u : Bool) (p : Probe V) (hl : p.lt = fun v => c.lessTup v t ltk gtk) (hg : p.gt = fun v => t.lessComposite c v ltk gtk) :
    p.Ok (.ord u (fun v w => c.less v c w comp comp)) ∧
    ∀ v, p.hits v (.ord u (fun v w => c.less v c w comp comp)) = true ↔
      AllEquiv (min c.len t.len) ltk gtk (fun j => c.ext j v) t.get := by
  have iff : ∀ v w, c.less v c w comp comp = false ↔ ¬ LexLess c.len comp comp (fun j => c.ext j v) (fun j => c.ext j w) := fun v w => by
    have := compareCC_iff (n1 := c.len) (n2 := c.len) c.ext v c.ext w comp comp
    rw [Nat.min_self] at this
    rw [← this, Bool.not_eq_true]
    exact Iff.rfl
  have il : ∀ v, p.lt v = true ↔ LexLess (min c.len t.len) ltk gtk (fun j => c.ext j v) t.get := fun v => by
    rw [hl]; exact compareCV_iff ..
  have ig : ∀ v, p.gt v = true ↔ LexLess (min c.len t.len) gtk ltk t.get (fun j => c.ext j v) := fun v => by
    rw [hg]; exact compareVC_iff ..
  have nl : ∀ v, p.lt v = false ↔ ¬ LexLess (min c.len t.len) ltk gtk (fun j => c.ext j v) t.get := fun v => by
    rw [← il, Bool.not_eq_true]
  have ng : ∀ v, p.gt v = false ↔ ¬ LexLess (min c.len t.len) gtk ltk t.get (fun j => c.ext j v) := fun v => by
    rw [← ig, Bool.not_eq_true]
  have ex : ∀ j, j + 1 < min c.len t.len → ∀ l a b, gtk j l a = false → ltk j a l = false → gtk j l b = false → ltk j b l = false →
      comp j a b = false ∧ comp j b a = false := fun j hj l a b h1 h2 h3 h4 =>
    StrictWeak.equiv_iff.1 (hx j hj l a b (by simp [equivTo, h1, h2]) (by simp [equivTo, h3, h4]))
  refine ⟨⟨fun _ v h => ?_, fun _ v w h1 h2 => ?_, fun _ v w h1 h2 => ?_⟩, fun v => ?_⟩
  · rw [nl]
    intro h'
    refine lex_not (fun j hj a b h => ?_) h' ((ig v).1 h)
    by_contra hn
    have := (hc j hj).asymm b a (by simpa using hn)
    rw [h] at this; cases this
  · rw [ng] at *
    rw [iff] at h2
    exact fun h3 => h1 (lex_compat (Nat.min_le_left _ _) hc (fun j hj k a b h1 h2 h3 h4 => (ex j hj k a b h1 h2 h3 h4).2) h3 h2)
  · rw [nl] at *
    rw [iff] at h2
    intro h3
    refine h1 (lex_compat (lt := fun j a b => comp j b a) (ltk := fun j k c => gtk j c k) (gtk := fun j c k => ltk j k c)
      (Nat.min_le_left _ _) (fun j hj => ?_) (fun j hj k a b h1 h2 h3 h4 => (ex j hj k a b h2 h1 h4 h3).1) h3 h2)
    have := hc j hj
    refine ⟨fun l k h => ?_, fun _ _ _ h1 h2 => this.lower _ _ _ h1 h2, fun _ _ _ h1 h2 => this.upper _ _ _ h1 h2⟩
    by_contra hn
    have := (hc j hj).asymm l k (by simpa using hn)
    rw [h] at this; cases this
  · show (!p.lt v && !p.gt v) = true ↔ _
    rw [Bool.and_eq_true, Bool.not_eq_true', Bool.not_eq_true', nl, ng, equiv_lex]

/-- C40: in particular a tuple of values of the types of the components themselves, possibly fewer, can be looked up: it matches the
elements whose first components are equivalent to its values. -/
theorem C40_prefix_lookup (c : Composite V K) (t : Tup K) (comp : ∀ j, K j → K j → Bool) (hc : ∀ j < c.len, StrictWeak (comp j)) (u : Bool)
    (p : Probe V) (hl : p.lt = fun v => c.lessTup v t comp comp) (hg : p.gt = fun v => t.lessComposite c v comp comp) :
    p.Ok (.ord u (fun v w => c.less v c w comp comp)) ∧
    ∀ v, p.hits v (.ord u (fun v w => c.less v c w comp comp)) = true ↔
      AllEquiv (min c.len t.len) comp comp (fun j => c.ext j v) t.get := by
  have hlt : ∀ {j}, j < min c.len t.len → j < c.len := fun h => Nat.lt_of_lt_of_le h (Nat.min_le_left _ _)
  refine C40_prefix_lookup_compat c t comp comp comp (fun j hj => (hc j (hlt hj)).compat) (fun j hj l a b h1 h2 => ?_) u p hl hg
  have sw := hc j (hlt (Nat.lt_of_succ_lt hj))
  simp only [equivTo, Bool.and_eq_true, Bool.not_eq_true'] at h1 h2
  exact StrictWeak.equiv_iff.2 (sw.incomp h1.1 h1.2 h2.2 h2.1)

/-- C40: why a component in the middle must not match elements that are not equivalent: the values `(1,5)` and `(2,0)` and the tuple `(x,3)`
whose first component matches 1 and 2. The tuple precedes `(1,5)`, which precedes `(2,0)`, but the tuple does not precede `(2,0)`. -/
theorem C40_prefix_lookup_needs_exact :
    let c : Composite (Nat × Nat) (fun _ => Nat) := ⟨2, fun | 0, v => v.1 | _ + 1, v => v.2⟩
    let t : Tup (fun _ => Nat) := ⟨2, fun _ => 3⟩
    let lt : Nat → Nat → Nat → Bool := fun _ a b => decide (a < b)
    let ltk : Nat → Nat → Nat → Bool := fun | 0, _, _ => false | _ + 1, a, b => decide (a < b)
    (∀ j, CompatExt (lt j) (ltk j) (ltk j)) ∧
    t.lessComposite c (1, 5) ltk ltk = true ∧ c.less (1, 5) c (2, 0) lt lt = true ∧ t.lessComposite c (2, 0) ltk ltk = false := by
  refine ⟨fun j => ?_, by decide, by decide, by decide⟩
  match j with
  | 0 => exact ⟨(fun _ _ h => nomatch h), (fun _ _ _ _ _ => rfl), (fun _ _ _ _ _ => rfl)⟩
  | j + 1 =>
    refine ⟨fun ck k => ?_, fun ck a b => ?_, fun ck a b => ?_⟩
    all_goals simp only [decide_eq_true_eq, decide_eq_false_iff_not]; omega

/-- C40: equality of composite keys, or of a composite key and a tuple in either position, is equality of all components (lengths agree:
anything else does not compile). -/
theorem C40_equal_componentwise (c : Composite V K) (v : V) (d : Composite W L) (w : W) (t : Tup L)
    (eq : ∀ j, K j → L j → Bool) (eq' : ∀ j, L j → K j → Bool) (hd : d.len = c.len) (ht : t.len = c.len) :
    (c.equal v d w eq = true ↔ AllEq c.len eq (fun j => c.ext j v) (fun j => d.ext j w)) ∧
    (c.equalTup v t eq = true ↔ AllEq c.len eq (fun j => c.ext j v) t.get) ∧
    (t.equalComposite c v eq' = true ↔ AllEq c.len eq' t.get (fun j => c.ext j v)) := by
  refine ⟨?_, ?_, ?_⟩
  · have := equalCC_iff (n1 := c.len) (n2 := d.len) c.ext v d.ext w eq
    unfold Composite.equal
    rw [hd, Nat.min_self] at this
    rwa [hd]
  · have := equalCV_iff (n1 := c.len) (n2 := t.len) c.ext v t.get eq
    unfold Composite.equalTup
    rw [ht, Nat.min_self] at this
    rwa [ht]
  · have := equalVC_iff (n1 := c.len) (n2 := t.len) t.get c.ext v eq'
    unfold Tup.equalComposite
    rw [ht, Nat.min_self] at this
    rwa [ht]

/-- C40: if each component's hash agrees with its equality then so do hash and equality of composite keys (for any width `b` of
`std::size_t`), so that they can be used in a hashed index; and looking up a tuple is a compatible extension of them. -/
theorem C40_hash_agrees {b : Nat} (c : Composite V K) (t : Tup K) (ht : t.len = c.len) (eq : ∀ j, K j → K j → Bool) (h : ∀ j, K j → BitVec b)
    (hc : ∀ j < c.len, EqHash (eq j) (fun k => (h j k).toNat)) (g : Hash.Cat)
    (p : Probe V) (he : p.eq = fun v => t.equalComposite c v eq) (hh : p.hash = (t.hash h).toNat) :
    EqHash (fun v w => c.equal v c w eq) (fun v => (c.hash v h).toNat) ∧
    p.Ok (.hash g (fun v w => c.equal v c w eq) (fun v => (c.hash v h).toNat)) := by
  have ie : ∀ v w, c.equal v c w eq = true ↔ AllEq c.len eq (fun j => c.ext j v) (fun j => c.ext j w) := fun v w =>
    (C40_equal_componentwise c v c w t eq eq rfl ht).1
  have ip : ∀ v, p.eq v = true ↔ AllEq c.len eq t.get (fun j => c.ext j v) := fun v => by
    rw [he]; exact (C40_equal_componentwise c v c v t eq eq rfl ht).2.2
  refine ⟨⟨fun v => ?_, fun {v w} h1 => ?_, fun {u v w} h1 h2 => ?_, fun {v w} h1 => ?_⟩, fun {_ v w} h1 h2 => ?_, fun {_ v w} h1 h2 => ?_,
    fun {_ v} h1 => ?_⟩
  · rw [ie]; exact fun j hj => (hc j hj).refl _
  · rw [ie] at *; exact fun j hj => (hc j hj).symm (h1 j hj)
  · rw [ie] at *; exact fun j hj => (hc j hj).trans (h1 j hj) (h2 j hj)
  · rw [ie] at h1
    have : c.hash v h = c.hash w h := hashC_congr _ _ _ _ _ _ (fun j hj => BitVec.eq_of_toNat_eq ((hc j hj).cons (h1 j hj)))
    show (c.hash v h).toNat = (c.hash w h).toNat
    rw [this]
  · rw [ie] at h2
    show p.eq w = true
    rw [ip]
    have h1 := (ip v).1 h1
    exact fun j hj => (hc j hj).trans (h1 j hj) (h2 j hj)
  · rw [ie]
    have h1 := (ip v).1 h1
    have h2 := (ip w).1 h2
    exact fun j hj => (hc j hj).trans ((hc j hj).symm (h1 j hj)) (h2 j hj)
  · have h1 := (ip v).1 h1
    have : t.hash h = c.hash v h := by
      unfold Tup.hash Composite.hash
      rw [hashV_eq, ht]
      exact hashC_congr _ _ _ _ _ _ (fun j hj => BitVec.eq_of_toNat_eq ((hc j hj).cons (h1 j hj)))
    show p.hash = (c.hash v h).toNat
    rw [hh, this]

/-- C40: the greater-than comparison (component comparisons reversed) is the reverse of the less-than comparison. -/
theorem C40_greater_is_reverse (c : Composite V K) (v : V) (d : Composite W K) (w : W) (lt : ∀ j, K j → K j → Bool) :
    c.less v d w (fun j a b => lt j b a) (fun j a b => lt j b a) = d.less w c v lt lt := by
  rw [Bool.eq_iff_iff, (C40_compare_lexicographic c v d w ⟨0, fun j => d.ext j w⟩ _ _).1,
    (C40_compare_lexicographic d w c v ⟨0, fun j => c.ext j v⟩ _ _).1, Nat.min_comm]
  exact Iff.rfl

/-- C40: the other comparison operators: `x != y`, `x > y`, `x >= y`, `x <= y` mean what their names say, when components are compared by
`<` and `==` that fit together (`==` is equivalence for `<`). -/
theorem C40_operators (c : Composite V K) (v : V) (d : Composite W L) (w : W) (hd : d.len = c.len)
    (eq : ∀ j, K j → L j → Bool) (lt : ∀ j, K j → L j → Bool) (lt' : ∀ j, L j → K j → Bool)
    (fit : ∀ j a b, eq j a b = (!lt j a b && !lt' j b a)) (asym : ∀ j a b, lt j a b = true → lt' j b a = false) :
    let e := c.equal v d w eq
    let l := c.less v d w lt lt'
    let g := d.less w c v lt' lt
    completeOps e l g = ⟨!e, g, e || g, e || l⟩ ∧ (e = true ∧ l = false ∧ g = false ∨ e = false ∧ l = true ∧ g = false ∨ e = false ∧ l = false ∧ g = true) := by
  have he : c.equal v d w eq = true ↔ AllEquiv c.len lt lt' (fun j => c.ext j v) (fun j => d.ext j w) := by
    have := equalCC_iff (n1 := c.len) (n2 := d.len) c.ext v d.ext w eq
    rw [hd, Nat.min_self] at this
    unfold Composite.equal
    rw [hd, this]
    unfold AllEq AllEquiv
    simp only [fit, Bool.and_eq_true, Bool.not_eq_true']
  have hl : c.less v d w lt lt' = true ↔ LexLess c.len lt lt' (fun j => c.ext j v) (fun j => d.ext j w) := by
    have := compareCC_iff (n1 := c.len) (n2 := d.len) c.ext v d.ext w lt lt'
    rw [hd, Nat.min_self] at this
    unfold Composite.less
    rw [hd, this]
  have hg : d.less w c v lt' lt = true ↔ LexLess c.len lt' lt (fun j => d.ext j w) (fun j => c.ext j v) := by
    have := compareCC_iff (n1 := d.len) (n2 := c.len) d.ext w c.ext v lt' lt
    rw [hd, Nat.min_self] at this
    unfold Composite.less
    rw [hd, this]
  have hx := equiv_lex (n := c.len) (lt := lt) (lt' := lt') (x := fun j => c.ext j v) (y := fun j => d.ext j w)
  rw [← he, ← hl, ← hg] at hx
  have hn : ¬ (c.less v d w lt lt' = true ∧ d.less w c v lt' lt = true) := fun ⟨h1, h2⟩ =>
    lex_not (fun j _ a b h => asym j a b h) (hl.1 h1) (hg.1 h2)
  simp only
  revert hx hn
  unfold completeOps
  cases c.equal v d w eq <;> cases c.less v d w lt lt' <;> cases d.less w c v lt' lt <;> simp

/-! ## Examples -/

/-- Values with two components, a number and a character. -/
abbrev exK : Nat → Type
  | 0 => Nat
  | 1 => Char
  | _ => Unit
/-- The composite key of both. -/
def exC : Composite (Nat × Char) exK := ⟨2, fun | 0, v => v.1 | 1, v => v.2 | _ + 2, _ => ()⟩
/-- Descending numbers, then ascending characters. -/
def exLt : ∀ j, exK j → exK j → Bool
  | 0, (a : Nat), (b : Nat) => decide (b < a)
  | 1, (a : Char), (b : Char) => decide (a.toNat < b.toNat)
  | _ + 2, _, _ => false
/-- A lookup tuple with one component. -/
def exT (n : Nat) : Tup exK := ⟨1, fun | 0 => n | 1 => ' ' | _ + 2 => ()⟩

theorem exLt_sw : ∀ j, StrictWeak (exLt j)
  | 0 => ⟨fun x => by simp [exLt], fun {x y z} => by simp only [exLt, decide_eq_true_eq]; omega,
      fun {x y z} => by simp only [exLt, decide_eq_false_iff_not]; omega⟩
  | 1 => ⟨fun x => by simp [exLt], fun {x y z} => by simp only [exLt, decide_eq_true_eq]; omega,
      fun {x y z} => by simp only [exLt, decide_eq_false_iff_not]; omega⟩
  | _ + 2 => ⟨fun _ => rfl, fun h => by simp [exLt] at h, fun _ _ _ _ => ⟨rfl, rfl⟩⟩

/-- The hypotheses of `C40_strict_weak` and `C40_prefix_lookup` are met; `(5,'a') < (5,'b') < (3,'a')`, and looking up `(5)` matches the first
two. -/
example : (∀ j < exC.len, StrictWeak (exLt j)) ∧
    exC.less (5, 'a') exC (5, 'b') exLt exLt = true ∧ exC.less (5, 'b') exC (3, 'a') exLt exLt = true ∧
    exC.lessTup (5, 'a') (exT 5) exLt exLt = false ∧ (exT 5).lessComposite exC (5, 'a') exLt exLt = false ∧
    (exT 5).lessComposite exC (3, 'a') exLt exLt = true := ⟨fun j _ => exLt_sw j, by decide, by decide, by decide, by decide, by decide⟩

/-- Component hashes. -/
def exHash : ∀ j, exK j → BitVec 64
  | 0, (a : Nat) => BitVec.ofNat 64 a
  | 1, (a : Char) => BitVec.ofNat 64 a.toNat
  | _ + 2, _ => 0
/-- Component equality. -/
def exEq : ∀ j, exK j → exK j → Bool
  | 0, (a : Nat), (b : Nat) => decide (a = b)
  | 1, (a : Char), (b : Char) => decide (a = b)
  | _ + 2, _, _ => true

/-- The hypotheses of `C40_hash_agrees` are met, and hashes depend on the order of components. -/
example : (∀ j < exC.len, EqHash (exEq j) (fun k => (exHash j k).toNat)) ∧ exC.hash (97, 'b') exHash ≠ exC.hash (98, 'a') exHash := by
  refine ⟨fun j hj => ?_, by decide +kernel⟩
  match j with
  | 0 => exact ⟨fun _ => by simp [exEq], fun h => by simp [exEq] at *; exact h.symm, fun h1 h2 => by simp [exEq] at *; exact h1.trans h2,
      fun h => by simp [exEq] at h; rw [h]⟩
  | 1 => exact ⟨fun _ => by simp [exEq], fun h => by simp [exEq] at *; exact h.symm, fun h1 h2 => by simp [exEq] at *; exact h1.trans h2,
      fun h => by simp [exEq] at h; rw [h]⟩
  | j + 2 => exact absurd hj (by show ¬ (j + 2 < 2); omega)

end MI.Key
