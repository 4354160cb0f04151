import Verif.Spec.Order
/-! Specification vocabulary: compatible keys and range bounds, as the documentation of ordered indices requires them. -/
namespace MI

/-- `(CompatibleKey, CompatibleCompare)` is a compatible extension of the comparison `lt` (doc/reference/ord_indices.html, "Set
operations"): `ltk k c` is `c_comp(k,c)`, `gtk c k` is `c_comp(c,k)`. -/
structure CompatExt {K CK : Type} (lt : K → K → Bool) (ltk : K → CK → Bool) (gtk : CK → K → Bool) : Prop where
  asymm : ∀ ck k, gtk ck k = true → ltk k ck = false
  upper : ∀ ck k1 k2, gtk ck k1 = false → lt k1 k2 = false → gtk ck k2 = false
  lower : ∀ ck k1 k2, ltk k1 ck = false → lt k2 k1 = false → ltk k2 ck = false

/-- `k` and `c` are equivalent: neither precedes the other. -/
def equivTo {K CK : Type} (ltk : K → CK → Bool) (gtk : CK → K → Bool) (c : CK) (k : K) : Bool := !ltk k c && !gtk c k

/-- Keys of the index itself, compared with its own comparison, are compatible. -/
theorem StrictWeak.compat {K : Type} {lt : K → K → Bool} (sw : StrictWeak lt) : CompatExt lt lt lt where
  asymm _ _ h := sw.asymm h
  upper _ _ _ h1 h2 := sw.le_trans h2 h1
  lower _ _ _ h1 h2 := sw.le_trans h1 h2

/-- Lower bounder (doc/reference/ord_indices.html, "Range operations"). -/
def LowerBounder {K : Type} (lt : K → K → Bool) (p : K → Bool) : Prop :=
  ∀ k1 k2, p k1 = true → lt k2 k1 = false → p k2 = true

/-- Upper bounder. -/
def UpperBounder {K : Type} (lt : K → K → Bool) (p : K → Bool) : Prop :=
  ∀ k1 k2, p k1 = true → lt k1 k2 = false → p k2 = true

/-- An optional bound: `none` is `unbounded`. -/
def holds {K : Type} (p : Option (K → Bool)) (k : K) : Bool :=
  match p with
  | none => true
  | some p => p k

end MI
