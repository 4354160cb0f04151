import Verif.Prelude
/-! Specification vocabulary: hash functions and equality predicates, as the documentation of hashed indices requires them. -/
namespace MI

/-- An equality predicate and a hash function that is consistent with it (doc/reference/hash_indices.html, "Lookup"). -/
structure EqHash {K : Type _} (eq : K → K → Bool) (hash : K → Nat) : Prop where
  refl : ∀ k, eq k k = true
  symm : ∀ {k1 k2}, eq k1 k2 = true → eq k2 k1 = true
  trans : ∀ {k1 k2 k3}, eq k1 k2 = true → eq k2 k3 = true → eq k1 k3 = true
  cons : ∀ {k1 k2}, eq k1 k2 = true → hash k1 = hash k2

/-- `(CompatibleKey, CompatibleHash, CompatiblePred)` is a compatible extension of `(hash, eq)`
(doc/reference/hash_indices.html, "Lookup"): `ceq c k` is `c_eq(c,k)`, `chash c` is `c_hash(c)`. -/
structure CompatHash {K CK : Type _} (eq : K → K → Bool) (hash : K → Nat) (ceq : CK → K → Bool) (chash : CK → Nat) : Prop where
  ext : ∀ {c k1 k2}, ceq c k1 = true → eq k1 k2 = true → ceq c k2 = true
  one : ∀ {c k1 k2}, ceq c k1 = true → ceq c k2 = true → eq k1 k2 = true
  cons : ∀ {c k}, ceq c k = true → chash c = hash k

theorem EqHash.compat {K : Type _} {eq : K → K → Bool} {hash : K → Nat} (e : EqHash eq hash) : CompatHash eq hash eq hash where
  ext h1 h2 := e.trans h1 h2
  one h1 h2 := e.trans (e.symm h1) h2
  cons h := e.cons h

theorem EqHash.comap {K I : Type _} {eq : K → K → Bool} {hash : K → Nat} (e : EqHash eq hash) (key : I → K) :
    EqHash (fun x y => eq (key x) (key y)) (fun x => hash (key x)) where
  refl _ := e.refl _
  symm h := e.symm h
  trans h1 h2 := e.trans h1 h2
  cons h := e.cons h

theorem EqHash.congr {K : Type _} {eq : K → K → Bool} {hash : K → Nat} (e : EqHash eq hash) {a b : K} (h : eq a b = true) (c : K) :
    eq a c = eq b c := by
  rw [Bool.eq_iff_iff]
  exact ⟨fun k => e.trans (e.symm h) k, fun k => e.trans h k⟩

theorem EqHash.comm {K : Type _} {eq : K → K → Bool} {hash : K → Nat} (e : EqHash eq hash) (a b : K) : eq a b = eq b a := by
  rw [Bool.eq_iff_iff]
  exact ⟨e.symm, e.symm⟩

/-- Equal elements are adjacent: between two equal elements there is no element different from them. -/
def Grouped {I : Type _} (eq : I → I → Bool) (xs : List I) : Prop :=
  ∀ u v w x y z, xs = u ++ x :: v ++ y :: w → eq x y = true → z ∈ v → eq x z = true

end MI
