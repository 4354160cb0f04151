import Verif.Cont.World
/-!
Specification vocabulary for the effect of an operation on a program: `w` is the state before, `w'` the state after.
-/
namespace MI.Cont
open MI
variable {V : Type}

/-- What the user asked of container `c`: its index specifiers. -/
def Container.asked (c : Container V) : List (Spec V) := c.ls.map Layer.spec

/-- All elements of the program (in containers or in node handles) have the same address and value as before, nothing has been
allocated, constructed, destroyed or deallocated, and all handles are as they were. -/
structure SameMemory (w w' : World V) : Prop where
  alloc : w'.m.alloc = w.m.alloc
  cons : w'.m.cons = w.m.cons
  val : ∀ z ∈ w.m.cons, w'.m.val z = w.m.val z
  hs : w'.hs = w.hs

/-- Container `i` was `c` and is `c'`; the other containers are as they were. -/
structure OnlyAt (w w' : World V) (i : Nat) (c c' : Container V) : Prop where
  pre : w.cs[i]? = some c
  cs : w'.cs = w.cs.set i c'
  asked : c'.asked = c.asked
  hd : c'.hd = c.hd

/-- Nothing observable has changed, except that hashed indices of container `i` may have been rehashed. -/
def Unchanged (w w' : World V) (i : Nat) : Prop :=
  SameMemory w w' ∧ ∃ c c', OnlyAt w w' i c c' ∧ c'.count = c.count ∧
    Each (fun S xs ys => S.Same w.m.val xs ys) c.asked c.seqs c'.seqs

/-- Nothing observable has changed, not even the order of hashed indices. -/
def Identical (w w' : World V) (i : Nat) : Prop :=
  w'.m = w.m ∧ w'.hs = w.hs ∧ ∃ c c', OnlyAt w w' i c c' ∧ c'.count = c.count ∧ c'.seqs = c.seqs

/-- Element `x` has been added to container `i`, in all indices; what else is in the program is as it was. -/
def Gained (w w' : World V) (i : Nat) (hint : Option Id) (x : Id) : Prop :=
  (∀ z ∈ w.m.cons, w'.m.val z = w.m.val z) ∧ ∃ c c', OnlyAt w w' i c c' ∧ c'.count = c.count + 1 ∧
    Each (Added w'.m.val hint x) c.asked c.seqs c'.seqs

/-- Element `x` has been removed from container `i`, from all indices; the order of the others is unchanged. -/
def Lost (w w' : World V) (i : Nat) (x : Id) : Prop :=
  (∀ z ∈ w.m.cons, z ≠ x → w'.m.val z = w.m.val z) ∧ ∃ c c', OnlyAt w w' i c c' ∧ x ∈ c.elems ∧ c'.count + 1 = c.count ∧
    c'.seqs = c.seqs.map (·.erase x)

/-- The node `x` no longer exists; all other allocated memory is as it was. -/
structure Deleted (w w' : World V) (x : Id) : Prop where
  alloc : w'.m.alloc = w.m.alloc.erase x
  cons : w'.m.cons = w.m.cons.erase x
  hs : w'.hs = w.hs
  notin : x ∉ w'.m.alloc ∧ x ∉ w'.m.cons

/-- Element `x` of container `i` has the new value `v`, and every index holds it in its place: only `x` may have moved. -/
def Changed (w w' : World V) (i : Nat) (x : Id) (v : V) : Prop :=
  w'.m.alloc = w.m.alloc ∧ w'.m.cons = w.m.cons ∧ w'.hs = w.hs ∧ w'.m.val x = v ∧ (∀ z, z ≠ x → w'.m.val z = w.m.val z) ∧
  ∃ c c', OnlyAt w w' i c c' ∧ c'.count = c.count ∧ Each (Moved (w.m.val x) w'.m.val x) c.asked c.seqs c'.seqs

/-- Some unique index of `c` has an element, other than those in `except`, whose key is equivalent to that of `v`. -/
def Container.Bans (c : Container V) (val : Id → V) (except : List Id) (v : V) : Prop :=
  ∃ S ∈ c.asked, S.unique = true ∧ ∃ y ∈ c.elems, y ∉ except ∧ S.equiv v (val y) = true

/-- A call to a user-supplied function or an allocation throws. -/
def Trouble (f : Fault) (e : Nat → Env) : Prop := f.alloc = true ∨ f.construct = true ∨ ∃ i, ¬ (e i).Quiet

/-- All elements of container `i` have been destroyed, and `freed` deallocated; the rest of memory is as it was. -/
def Emptied (w w' : World V) (els freed : List Id) : Prop :=
  (∀ z, z ∈ w'.m.cons ↔ z ∈ w.m.cons ∧ z ∉ els) ∧ (∀ z, z ∈ w'.m.alloc ↔ z ∈ w.m.alloc ∧ z ∉ freed) ∧ w'.m.val = w.m.val ∧ w'.hs = w.hs

/-- Element `x` has gone from container `j` to container `i`; no element has been created, destroyed or changed. -/
def Handed (w w' : World V) (i j : Nat) (x : Id) : Prop :=
  w'.m = w.m ∧ w'.hs = w.hs ∧ ∃ c c' d d', w.cs[i]? = some c ∧ w.cs[j]? = some d ∧ w'.cs = (w.cs.set i c').set j d' ∧
    c'.asked = c.asked ∧ c'.hd = c.hd ∧ d'.asked = d.asked ∧ d'.hd = d.hd ∧ x ∈ d.elems ∧ c'.count = c.count + 1 ∧ d'.count + 1 = d.count ∧
    Each (Added w.m.val none x) c.asked c.seqs c'.seqs ∧ d'.seqs = d.seqs.map (·.erase x)

/-- Container `c'` is a new copy of `c`, with its header at `hd` and its elements at `ns`: in every index the clones are in the order of the originals, they
have the same values, and hashed indices have as many buckets and the same load factor. Nothing else has changed. -/
structure Copied (w w' : World V) (c c' : Container V) (hd : Id) (ns : List Id) : Prop where
  cs : w'.cs = w.cs ++ [c']
  hs : w'.hs = w.hs
  head : c'.hd = hd
  elems : c'.elems = ns
  count : c'.count = c.count
  asked : c'.asked = c.asked
  load : c'.ls.map Layer.load = c.ls.map Layer.load
  clone : ∃ φ : Id → Id, c'.seqs = c.seqs.map (·.map φ) ∧ c.elems.map φ = ns
  vals : c'.seqs.map (·.map w'.m.val) = c.seqs.map (·.map w.m.val)
  alloc : w'.m.alloc = ns.reverse ++ hd :: w.m.alloc
  cons : w'.m.cons = ns.reverse ++ w.m.cons
  val : ∀ z ∈ w.m.alloc, w'.m.val z = w.m.val z

/-- Container `i`, which was `c`, has been replaced by a copy `d'` of `d` (see `Copied`); the elements of `c` have been destroyed. -/
structure Assigned (w w' : World V) (i : Nat) (c d d' : Container V) (hd : Id) (ns : List Id) : Prop where
  cs : w'.cs = w.cs.set i d'
  hs : w'.hs = w.hs
  head : d'.hd = hd
  elems : d'.elems = ns
  count : d'.count = d.count
  asked : d'.asked = d.asked
  load : d'.ls.map Layer.load = d.ls.map Layer.load
  clone : ∃ φ : Id → Id, d'.seqs = d.seqs.map (·.map φ) ∧ d.elems.map φ = ns
  vals : d'.seqs.map (·.map w'.m.val) = d.seqs.map (·.map w.m.val)
  alloc : ∀ x, x ∈ w'.m.alloc ↔ x ∈ hd :: ns ∨ x ∈ w.m.alloc ∧ x ∉ c.hd :: c.elems
  cons : ∀ x, x ∈ w'.m.cons ↔ x ∈ ns ∨ x ∈ w.m.cons ∧ x ∉ c.elems
  val : ∀ x ∈ w.m.alloc, w'.m.val x = w.m.val x

/-- Container `b` is what remains of `c` when its elements have gone: the same header and specifiers, no elements. -/
structure Drained (c b : Container V) : Prop where
  hd : b.hd = c.hd
  asked : b.asked = c.asked
  count : b.count = 0
  seqs : ∀ xs ∈ b.seqs, xs = []

/-- The elements of container `i`, which was `c` and is now `b`, have been destroyed, and there is a new container `c'`, which was made as a copy of `c` before. -/
structure MovedOut (w w' : World V) (i : Nat) (c b c' : Container V) (hd : Id) (ns : List Id) : Prop where
  cs : w'.cs = w.cs.set i b ++ [c']
  hs : w'.hs = w.hs
  source : Drained c b
  head : c'.hd = hd
  elems : c'.elems = ns
  count : c'.count = c.count
  asked : c'.asked = c.asked
  load : c'.ls.map Layer.load = c.ls.map Layer.load
  clone : ∃ φ : Id → Id, c'.seqs = c.seqs.map (·.map φ) ∧ c.elems.map φ = ns
  vals : c'.seqs.map (·.map w'.m.val) = c.seqs.map (·.map w.m.val)
  alloc : ∀ x, x ∈ w'.m.alloc ↔ x ∈ hd :: ns ∨ x ∈ w.m.alloc ∧ x ∉ c.elems
  cons : ∀ x, x ∈ w'.m.cons ↔ x ∈ ns ∨ x ∈ w.m.cons ∧ x ∉ c.elems
  val : ∀ x ∈ w.m.alloc, w'.m.val x = w.m.val x

/-- The elements an operation is directed at: those it names, or whose container or handle it empties. -/
def World.targets (w : World V) : Op V → List Id
  | .extract _ x | .erase _ x | .replace _ x _ _ _ | .modify _ x _ _ | .modifyRb _ x _ _ _ _ | .transfer _ _ x _ => [x]
  | .insertNh _ h _ _ | .dropHandle h | .moveHandle h _ => (w.hs[h]?.join).toList
  | .clear i | .destroy i => ((w.cs[i]?.map Container.elems).getD [])
  | _ => []

/-- Element `z` stays where it is, with its value: in the same container (recognized by its header) or in a handle. -/
structure Survives (w w' : World V) (z : Id) : Prop where
  cont : ∀ c ∈ w.cs, z ∈ c.elems → ∃ c' ∈ w'.cs, c'.hd = c.hd ∧ z ∈ c'.elems
  handle : some z ∈ w.hs → some z ∈ w'.hs
  val : z ∈ w.m.cons → w'.m.val z = w.m.val z

end MI.Cont
