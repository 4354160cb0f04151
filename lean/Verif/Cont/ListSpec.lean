import Verif.Cont.ListApi
import Verif.Cont.ApiSpec
/-!
Specification vocabulary for the list operations of sequenced and random access indices.
-/
namespace MI.Cont
open MI
variable {V : Type}

/-- A sequenced or a random access index. -/
def Spec.list : Spec V → Prop
  | .seq => True
  | .rnd => True
  | _ => False

/-- The elements `took` have been added to a container, which was `c` and is `c'`: in index `k` they are, in this order, between `s` and `t`, which it consisted
of; to every other index they have been added in turn as by insertions without hint (a hashed index may have been rehashed). -/
structure Inlaid (val : Id → V) (k : Nat) (s t took : List Id) (c c' : Container V) : Prop where
  before : c.seqs[k]? = some (s ++ t)
  after : c'.seqs[k]? = some (s ++ took ++ t)
  others : ∀ l S xs ys, l ≠ k → c.asked[l]? = some S → c.seqs[l]? = some xs → c'.seqs[l]? = some ys → Grown val (· = none) S took xs ys
  count : c'.count = c.count + took.length

/-- Of the values `done`, in turn, those that clash with none present at that time have been inserted in container `i`, between `s` and `t` in index `k`: `took`
are the elements made of them. Everything else in the program is as it was. -/
structure InsertedAt (w w' : World V) (i k : Nat) (c c' : Container V) (s t : List Id) (done : List V) (took : List Id) : Prop where
  only : OnlyAt w w' i c c'
  inlaid : Inlaid w'.m.val k s t took c c'
  keeps : Keeps c.asked (c.elems.map w.m.val) done (took.map w'.m.val)
  alloc : w'.m.alloc = took.reverse ++ w.m.alloc
  cons : w'.m.cons = took.reverse ++ w.m.cons
  hs : w'.hs = w.hs
  val : ∀ z ∈ w.m.cons, w'.m.val z = w.m.val z

/-- Containers `i` and `j` were `c` and `d`, and are `c'` and `d'`; the other containers are as they were. -/
structure OnlyAt2 (w w' : World V) (i j : Nat) (c c' d d' : Container V) : Prop where
  pre : w.cs[i]? = some c
  pre2 : w.cs[j]? = some d
  cs : w'.cs = (w.cs.set i c').set j d'
  asked : c'.asked = c.asked
  hd : c'.hd = c.hd
  asked2 : d'.asked = d.asked
  hd2 : d'.hd = d.hd

/-- The elements `took` have gone from container `j` to container `i`, between `s` and `t` in index `k`; no element has been created, destroyed or changed. -/
structure SplicedAt (w w' : World V) (i j k : Nat) (c c' d d' : Container V) (s t : List Id) (took : List Id) : Prop where
  only : OnlyAt2 w w' i j c c' d d'
  inlaid : Inlaid w.m.val k s t took c c'
  nodup : took.Nodup
  mem : ∀ x ∈ took, x ∈ d.elems
  count : d'.count + took.length = d.count
  left : d'.seqs = d.seqs.map (·.filter (· ∉ took))
  mm : w'.m = w.m
  hs : w'.hs = w.hs

/-- The elements `gone` of container `j` have been erased, and new elements `took` with the same values are in container `i`, between `s` and `t` in
index `k`; the rest of the program is as it was. -/
structure CopiedAt (w w' : World V) (i j k : Nat) (c c' d d' : Container V) (s t gone took : List Id) : Prop where
  only : OnlyAt2 w w' i j c c' d d'
  inlaid : Inlaid w'.m.val k s t took c c'
  vals : took.map w'.m.val = gone.map w.m.val
  nodup : gone.Nodup
  mem : ∀ x ∈ gone, x ∈ d.elems
  count : d'.count + gone.length = d.count
  left : d'.seqs = d.seqs.map (·.filter (· ∉ gone))
  alloc : ∀ z, z ∈ w'.m.alloc ↔ z ∈ took ∨ z ∈ w.m.alloc ∧ z ∉ gone
  cons : ∀ z, z ∈ w'.m.cons ↔ z ∈ took ∨ z ∈ w.m.cons ∧ z ∉ gone
  val : ∀ z ∈ w.m.cons, z ∉ gone → w'.m.val z = w.m.val z
  hs : w'.hs = w.hs

/-- What an exception in `remove_if` or `unique` leaves: of a sequenced index the elements found until then are gone; of a random access index none, but their order may be another. -/
def Halfway (S : Spec V) (w w' : World V) (i k : Nat) (c : Container V) (xs gone : List Id) : Prop :=
  (S = .seq ∧ Purged w w' i gone) ∨
  (S = .rnd ∧ ∃ c' xs', OnlyAt w w' i c c' ∧ w'.m = w.m ∧ w'.hs = w.hs ∧ c'.count = c.count ∧ c'.seqs = c.seqs.set k xs' ∧ xs'.Perm xs)

/-- Index `k` of container `i`, which was `xs`, is `zs`: new elements `took` have come between the others. They have the values of the elements `gone` of
container `j`, which have been erased, or they are these elements themselves if the allocators are equal (`eqAl`). The rest of the program is as it was. -/
structure Blended (eqAl : Bool) (w w' : World V) (i j k : Nat) (c c' d d' : Container V) (xs zs gone took : List Id) : Prop where
  only : OnlyAt2 w w' i j c c' d d'
  before : c.seqs[k]? = some xs
  after : c'.seqs[k]? = some zs
  perm : zs.Perm (took ++ xs)
  others : ∀ l S xs ys, l ≠ k → c.asked[l]? = some S → c.seqs[l]? = some xs → c'.seqs[l]? = some ys → Grown w'.m.val (· = none) S took xs ys
  count : c'.count = c.count + took.length
  vals : took.map w'.m.val = gone.map w.m.val
  same : eqAl = true → took = gone ∧ w'.m = w.m
  nodup : gone.Nodup
  mem : ∀ x ∈ gone, x ∈ d.elems
  count2 : d'.count + gone.length = d.count
  left : d'.seqs = d.seqs.map (·.filter (· ∉ gone))
  alloc : ∀ z, z ∈ w'.m.alloc ↔ z ∈ took ∨ z ∈ w.m.alloc ∧ z ∉ gone
  cons : ∀ z, z ∈ w'.m.cons ↔ z ∈ took ∨ z ∈ w.m.cons ∧ z ∉ gone
  val : ∀ z ∈ w.m.cons, z ∉ gone → w'.m.val z = w.m.val z
  hs : w'.hs = w.hs

/-- What `merge` of a sequenced index does with its elements `xs` and the elements `ys` of the other container, one after the other: `cmp t v w` is the answer of
call number `t` of the comparison, `els` are the elements present. An element of `ys` that is to go before the next one of `xs`, and does not clash with those
present, is taken: `gone` are these, `took` the elements that have come from them. -/
inductive Weaves (Ss : List (Spec V)) (val : Id → V) (cmp : Nat → V → V → Option Bool) : (t : Nat) → (els xs ys zs gone took : List Id) → Prop where
  | left {t els ys gone took} : Takes Ss val els ys gone → took.length = gone.length → Weaves Ss val cmp t els [] ys took gone took
  | right {t els xs} : Weaves Ss val cmp t els xs [] xs [] []
  | take {t els x xs y ys y' zs gone took} : cmp t (val y) (val x) = some true → (∀ z ∈ els, ¬ Clash Ss (val y) (val z)) →
      Weaves Ss val cmp (t + 1) (y :: els) (x :: xs) ys zs gone took → Weaves Ss val cmp t els (x :: xs) (y :: ys) (y' :: zs) (y :: gone) (y' :: took)
  | skip {t els x xs y ys zs gone took} : cmp t (val y) (val x) = some true → (∃ z ∈ els, Clash Ss (val y) (val z)) →
      Weaves Ss val cmp (t + 1) els (x :: xs) ys zs gone took → Weaves Ss val cmp t els (x :: xs) (y :: ys) zs gone took
  | keep {t els x xs y ys zs gone took} : cmp t (val y) (val x) = some false → Weaves Ss val cmp (t + 1) els xs (y :: ys) zs gone took →
      Weaves Ss val cmp t els (x :: xs) (y :: ys) (x :: zs) gone took

end MI.Cont
