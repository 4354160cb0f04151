import Verif.Cont.Layer
import Verif.Spec.Order
import Verif.Spec.Hash
import Verif.Ord.Tree
import Verif.Ord.PointLemmas
import Verif.Hash.Ops
import Verif.Seq.Spec
import Verif.Rnd.Spec
/-!
Specification vocabulary for containers: what an index specifier promises, independently of how the index is implemented.
-/
namespace MI.Cont
open MI

/-- An index specifier: what the user asked for. -/
inductive Spec (V : Type) where
  /-- `ordered_unique` (`u = true`), `ordered_non_unique`, `ranked_unique`, `ranked_non_unique` -/
  | ord (u : Bool) (lt : V → V → Bool)
  /-- `hashed_unique`, `hashed_non_unique` -/
  | hash (c : Hash.Cat) (eq : V → V → Bool) (hf : V → Nat)
  /-- `sequenced` -/
  | seq
  /-- `random_access` -/
  | rnd

variable {V : Type}

namespace Spec

/-- The requirements the documentation puts on user-supplied functions. -/
def Ok : Spec V → Prop
  | .ord _ lt => StrictWeak lt
  | .hash _ eq hf => EqHash eq hf
  | _ => True

/-- Is it a unique index? -/
def unique : Spec V → Bool
  | .ord u _ => u
  | .hash c _ _ => c == .uniq
  | _ => false

/-- Do two values have equivalent keys for this index? (Keyless indices: never.) -/
def equiv (v w : V) : Spec V → Bool
  | .ord _ lt => equivOf lt v w
  | .hash _ eq _ => eq v w
  | _ => false

/-- The value `v` may not be added to an index holding `xs`: a unique index has an element with an equivalent key. -/
def Bans (S : Spec V) (val : Id → V) (xs : List Id) (v : V) : Prop := S.unique = true ∧ ∃ y ∈ xs, S.equiv v (val y) = true

/-- What an index guarantees about its sequence of elements: ordered indices are sorted, strictly if unique; hashed indices keep
elements with equivalent keys adjacent, and have no two of them if unique. -/
def Good (val : Id → V) (xs : List Id) : Spec V → Prop
  | .ord true lt => xs.Pairwise (fun a b => lt (val a) (val b) = true)
  | .ord false lt => Sorted (fun a b => lt (val a) (val b)) xs
  | .hash .uniq eq _ => xs.Pairwise (fun a b => eq (val a) (val b) = false)
  | .hash .multi eq _ => Grouped (fun a b => eq (val a) (val b)) xs
  | _ => True

/-- The order of an index has not changed, except that a hashed index may have been rehashed: the elements are the same, and
those with equivalent keys are in the same order. -/
def Same (val : Id → V) (xs xs' : List Id) : Spec V → Prop
  | .hash _ eq _ => xs'.Perm xs ∧ ∀ y ∈ xs, xs'.filter (fun z => eq (val y) (val z)) = xs.filter (fun z => eq (val y) (val z))
  | _ => xs' = xs

/-- The iterator `p` stands between `b` and `a`: it points to the first element of `a`, or `a` is empty and it is `end()`. -/
def Between (p : Id) (b a : List Id) : Prop := a.head? = some p ∨ (a = [] ∧ p ∉ b)

/-- Where an index puts a new element: `u` are the elements before it, `v` those after it. Sequenced and random access indices: at the
end. Ordered indices, no hint: after all elements that are not greater. Ordered indices with a hint: at the place the hint gives if
that keeps the order, else as near to it as possible (if that place is too early, right after the elements that are less; if it is
too late, right before the elements that are greater). Hashed indices: before all elements with an equivalent key. -/
def Where (val : Id → V) (hint : Option Id) (x : Id) (u v : List Id) : Spec V → Prop
  | .ord _ lt => (∀ a ∈ u, lt (val x) (val a) = false) ∧ (∀ a ∈ v, lt (val a) (val x) = false) ∧
    (hint = none → ∀ a ∈ v, lt (val x) (val a) = true) ∧
    (∀ p, hint = some p → ∃ b a, u ++ v = b ++ a ∧ Between p b a ∧
      (u = b ∨ (b.length < u.length ∧ ∀ c ∈ u, lt (val c) (val x) = true) ∨ (u.length < b.length ∧ ∀ c ∈ v, lt (val x) (val c) = true)))
  | .hash _ eq _ => ∀ a ∈ u, eq (val x) (val a) = false
  | _ => v = []

end Spec

namespace Layer

/-- The specifier of an index. -/
def spec : Layer V → Spec V
  | .ord u lt _ => .ord u lt
  | .hash c eq hf _ _ _ _ => .hash c eq hf
  | .seq _ => .seq
  | .rnd _ => .rnd

/-- The data structure of an index is well formed and holds, in order, the elements `xs`. The size of a bucket array is one of the
table of sizes. -/
def Holds (val : Id → V) (hd : Id) (xs : List Id) : Layer V → Prop
  | .ord u lt h => Ord.Rep h hd xs ∧ (Spec.ord u lt).Good val xs
  | .hash c eq hf _ _ h a => a.size ∈ Hash.sizes ∧ Hash.Holds c (eqv eq val) (fun x => hf (val x)) h a hd xs
  | .seq h => Seq.Fam h [(hd, xs)]
  | .rnd s => Rnd.Rep s hd xs

/-- The node `z` does not overlap the bucket array of this index. -/
def Avoids (z : Id) : Layer V → Prop
  | .hash _ _ _ _ _ _ a => z < a.base ∨ a.endB < z
  | _ => True

/-- The memory the environment supplies for a rehash is new: it overlaps neither the old bucket array nor the header nor any of
the nodes of `pool`. -/
def EnvOk (hd : Id) (size : Nat) (pool : List Id) (e : Env) : Layer V → Prop
  | .hash _ _ _ pol _ _ a => Hash.NewMem a ⟨e.base, Hash.sizeFor Hash.sizes (pol.grow (size + 1))⟩ hd e.cpy pool
  | _ => True

/-- There is room for one more element (random access indices). -/
def Ready : Layer V → Prop
  | .rnd s => s.size < s.cap
  | _ => True

end Layer
end MI.Cont
