import Verif.Cont.Api
import Verif.Cont.Effect
import Verif.Spec.Lookup
/-!
Specification vocabulary for operations made of several steps.
-/
namespace MI.Cont
open MI
variable {V : Type}

/-- The elements `m` of container `i` have been erased, from every index, the others keeping their order; everything else in the
program is as it was. -/
structure Purged (w w' : World V) (i : Nat) (m : List Id) : Prop where
  cont : ∃ c c', OnlyAt w w' i c c' ∧ (∀ x ∈ m, x ∈ c.elems) ∧ c'.count + m.length = c.count ∧ c'.seqs = c.seqs.map (·.filter (· ∉ m))
  nodup : m.Nodup
  alloc : w'.m.alloc = w.m.alloc.filter (· ∉ m)
  cons : w'.m.cons = w.m.cons.filter (· ∉ m)
  val : w'.m.val = w.m.val
  hs : w'.hs = w.hs

/-- The documented requirements on lookup keys: a compatible extension of the order, or of hash and equality, of the index. -/
def Probe.Ok (p : Probe V) : Spec V → Prop
  | .ord _ lt => CompatExt lt (fun v (_ : Unit) => p.lt v) (fun _ v => p.gt v)
  | .hash _ eq hf => CompatHash eq hf (fun (_ : Unit) v => p.eq v) (fun _ => p.hash)
  | _ => False

/-- Is the key of the value `v` equivalent to the lookup key? -/
def Probe.hits (p : Probe V) (v : V) : Spec V → Bool
  | .ord _ _ => !p.lt v && !p.gt v
  | .hash _ _ _ => p.eq v
  | _ => false

/-- Allocation always returns memory not in use. -/
def Host.Ok (H : Host V) : Prop :=
  ∀ w, Reach w → ∀ t, w.Fresh (H.node w t) ∧ ∀ c ∈ w.cs, EnvAll c.hd c.count (H.node w t :: w.m.alloc) (H.env w t) c.ls

/-- No call and no allocation throws. -/
def Host.Calm (H : Host V) : Prop := ∀ w t, (H.fault w t).alloc = false ∧ (H.fault w t).construct = false ∧ ∀ k, (H.env w t k).Quiet

/-- A unique index forbids to have both values. -/
def Clash (Ss : List (Spec V)) (v v' : V) : Prop := ∃ S ∈ Ss, S.unique = true ∧ S.equiv v v' = true

/-- Adding the values `vs` one at a time to a container that has the values `have_`: `kept` are the values accepted, each one being
accepted when it clashes with none there at that time. -/
inductive Keeps (Ss : List (Spec V)) : (have_ vs kept : List V) → Prop where
  | nil {xs} : Keeps Ss xs [] []
  | take {xs v vs ks} : (∀ v' ∈ xs, ¬ Clash Ss v v') → Keeps Ss (v :: xs) vs ks → Keeps Ss xs (v :: vs) (v :: ks)
  | skip {xs v vs ks} : (∃ v' ∈ xs, Clash Ss v v') → Keeps Ss xs vs ks → Keeps Ss xs (v :: vs) ks

/-- The same for elements: of those in `range`, in turn, `took` are accepted by a container whose elements are `els`. -/
inductive Takes (Ss : List (Spec V)) (val : Id → V) : (els range took : List Id) → Prop where
  | nil {els} : Takes Ss val els [] []
  | take {els x r t} : (∀ y ∈ els, ¬ Clash Ss (val x) (val y)) → Takes Ss val (x :: els) r t → Takes Ss val els (x :: r) (x :: t)
  | skip {els x r t} : (∃ y ∈ els, Clash Ss (val x) (val y)) → Takes Ss val els r t → Takes Ss val els (x :: r) t

/-- The sequence `xs` of an index has become `xs'` by adding the elements of `took` in turn, each at its place for some hint allowed by
`hints` (and by rehashing). -/
inductive Grown (val : Id → V) (hints : Option Id → Prop) (S : Spec V) : (took xs xs' : List Id) → Prop where
  | same {xs ys} : S.Same val xs ys → Grown val hints S [] xs ys
  | add {x t xs ys zs hint} : hints hint → Added val hint x S xs ys → Grown val hints S t ys zs → Grown val hints S (x :: t) xs zs
  | rehash {t xs ys zs} : S.Same val xs ys → Grown val hints S t ys zs → Grown val hints S t xs zs

/-- The elements `took` have gone, one after the other and in this order, from container `j` to container `i`; the rest of the program is as it was. -/
def Shifted (w w' : World V) (i j : Nat) (took : List Id) : Prop :=
  w'.m = w.m ∧ w'.hs = w.hs ∧ ∃ c c' d d', w.cs[i]? = some c ∧ w.cs[j]? = some d ∧ w'.cs = (w.cs.set i c').set j d' ∧
    c'.asked = c.asked ∧ c'.hd = c.hd ∧ d'.asked = d.asked ∧ d'.hd = d.hd ∧ took.Nodup ∧ (∀ x ∈ took, x ∈ d.elems) ∧
    c'.count = c.count + took.length ∧ d'.count + took.length = d.count ∧
    Each (fun S => Grown w.m.val (· = none) S took) c.asked c.seqs c'.seqs ∧ d'.seqs = d.seqs.map (·.filter (· ∉ took))

/-- The iterator after `p` in the sequence `xs` is `q` (`hd` is `end()`). -/
def After (hd p : Id) (xs : List Id) (q : Id) : Prop := ∃ u v, xs = u ++ p :: v ∧ q = v.headD hd

/-- The values `vs` have been inserted one at a time in a container whose indices had the sequences `xss`; `took` are the elements added, and
the sequences now are `yss`. The first insertion has the hint `hint`; the others have as hint the position after, in the first index,
the one the insertion before has returned (`chained = true`), or no hint. -/
inductive Fed (chained : Bool) (val : Id → V) (Ss : List (Spec V)) (hd : Id) :
    (hint : Option Id) → (vs : List V) → (xss : List (List Id)) → (took : List Id) → (yss : List (List Id)) → Prop where
  | nil {hint xss} : Fed chained val Ss hd hint [] xss [] xss
  | take {hint hint' v vs x took xss yss zss} : val x = v → (∀ y ∈ xss.headD [], ¬ Clash Ss v (val y)) → Each (Added val hint x) Ss xss yss →
      (if chained then ∃ q, hint' = some q ∧ After hd x (yss.headD []) q else hint' = none) →
      Fed chained val Ss hd hint' vs yss took zss → Fed chained val Ss hd hint (v :: vs) xss (x :: took) zss
  | skip {hint hint' v vs y took xss yss zss} : y ∈ xss.headD [] → Clash Ss v (val y) → Each (fun S xs ys => S.Same val xs ys) Ss xss yss →
      (if chained then ∃ q, hint' = some q ∧ After hd y (yss.headD []) q else hint' = none) →
      Fed chained val Ss hd hint' vs yss took zss → Fed chained val Ss hd hint (v :: vs) xss took zss

/-- The specifier an index is constructed with. -/
def Init.spec : Init V → Spec V
  | .ord u lt => .ord u lt
  | .hash c eq hf _ _ _ => .hash c eq hf
  | .seq => .seq
  | .rnd _ => .rnd

end MI.Cont
