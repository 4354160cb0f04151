import Verif.Cont.PlaceCalls
/-!
# Programs whose comparison objects, equality predicates and hash functions break their requirements

The documentation requires comparison objects to be strict weak orderings, equality predicates to be equivalences that agree with hash functions, and keys not to change while
an element is in a container. Here nothing of this is assumed: every call of a comparison object or equality predicate is answered as some arbitrary `fate` says — it may contradict earlier
answers, or throw —, and between any two operations the values of all elements may have become others (`poke`), keys and hash values included.

Containers with a non-unique hashed index are excluded; see Verif/Props/Wild.lean for the reason. The step of loading in which an index moves its elements (`Op.place`) has calls only in
`World.placeR`.
-/
namespace MI.Cont
open MI
variable {V : Type}

/-- What remains of `Init.Ok`: the bucket array is in new memory. -/
def Init.WildOk (w : World V) (hd : Id) : Init V → Prop
  | .hash c _ _ _ n base => c = .uniq ∧ 0 < base ∧ ∀ z ∈ hd :: w.m.alloc, z < base ∨ base + Hash.sizeFor Hash.sizes n < z
  | _ => True

/-- What remains of the preconditions: user functions need not meet any requirement. -/
def World.WildLegal (w : World V) : Op V → Prop
  | .new hd _ is => w.Fresh hd ∧ is ≠ [] ∧ ∀ a ∈ is, a.WildOk w hd
  | .modifyRb i x _ _ _ _ => ∃ c, w.cs[i]? = some c ∧ x ∈ c.elems
  | .place .. => False
  | o => w.Legal o

/-- Is it `modify` with a rollback function? -/
def Op.rollsBack : Op V → Bool
  | .modifyRb .. => true
  | _ => false

/-- The states of such programs. -/
inductive WildReach : World V → Prop where
  | init (val : Id → V) : WildReach ⟨⟨val, [], []⟩, [], []⟩
  /-- values have changed behind the back of the library -/
  | poke {w : World V} (val : Id → V) : WildReach w → WildReach { w with m := { w.m with val := val } }
  /-- an operation returned or threw; `fate t q`: how call number `t` of a function of an index ended (`none`: it threw) -/
  | step {w w' : World V} {o : Op V} {r : Ret} (fate : Nat → UserCall V → Option Bool) : WildReach w → w.WildLegal o →
    ((w.stepR o).result fate = .ok (w', r) ∨ (w.stepR o).result fate = .threw (w', r)) → WildReach w'
  /-- index `k` of container `i` carried out the instructions of an archive, as part of loading, or an exception was thrown meanwhile -/
  | place {w w' : World V} {i k : Nat} {fail : Bool} {ins : List (Option Id × Id)} {r : Ret} (fate : Nat → UserCall V → Option Bool) : WildReach w → w.Legal (.place i k fail ins) →
    ((w.placeR i k fail ins).result fate = .ok (w', r) ∨ (w.placeR i k fail ins).result fate = .threw (w', r)) → WildReach w'

/-- An element `x` has been added to `c`, and the operation returned it together with `true`; or the elements of `c` are the same, and the operation threw or returned one of them
together with `false`. -/
def AddedOrNot (x : Id) (threw : Bool) (r : Ret) (c c' : Container V) : Prop :=
  (threw = false ∧ r.b = true ∧ r.pos = x ∧ c'.elems.Perm (x :: c.elems)) ∨ ((threw = false → r.b = false ∧ r.pos ∈ c.elems) ∧ c'.elems.Perm c.elems)

/-- The same address of `end()`, and indices of the same kinds with the same functions. -/
def SameKind (c c' : Container V) : Prop := c'.hd = c.hd ∧ c'.ls.map Layer.spec = c.ls.map Layer.spec

/-- What an operation does whatever user functions do. `threw`: it threw; `r`: what it returned; `w'`: the state afterwards. -/
def World.Effect (w : World V) (threw : Bool) (r : Ret) (w' : World V) : Op V → Prop
  | .new hd _ _ => threw = false ∧ w'.hs = w.hs ∧ ∃ c', w'.cs = w.cs ++ [c'] ∧ c'.hd = hd ∧ c'.elems = []
  | .insert i v x _ _ _ | .emplace i v x _ _ _ => w'.hs = w.hs ∧ ∃ c c', w.cs[i]? = some c ∧ w'.cs = w.cs.set i c' ∧ SameKind c c' ∧ AddedOrNot x threw r c c' ∧
    (threw = false → r.b = true → w'.m.val x = v)
  | .extract i x => threw = false ∧ w'.hs = w.hs ++ [some x] ∧ ∃ c c', w.cs[i]? = some c ∧ w'.cs = w.cs.set i c' ∧ SameKind c c' ∧ c'.elems.Perm (c.elems.erase x)
  | .insertNh i h _ _ => (w.hs[h]? = some none ∧ threw = false ∧ w'.cs = w.cs ∧ w'.hs = w.hs) ∨
    ∃ x c c', w.hs[h]? = some (some x) ∧ w.cs[i]? = some c ∧ w'.cs = w.cs.set i c' ∧ SameKind c c' ∧ AddedOrNot x threw r c c' ∧
      w'.hs = if threw = false ∧ r.b = true then w.hs.set h none else w.hs
  | .newHandle => threw = false ∧ w'.cs = w.cs ∧ w'.hs = w.hs ++ [none]
  | .dropHandle h => threw = false ∧ w'.cs = w.cs ∧ w'.hs = w.hs.set h none
  | .moveHandle h g => threw = false ∧ w'.cs = w.cs ∧ ∃ ng, w.hs[g]? = some ng ∧ w'.hs = if h = g then w.hs else (w.hs.set h ng).set g none
  | .swapHandles h g => threw = false ∧ w'.cs = w.cs ∧ ∃ nh ng, w.hs[h]? = some nh ∧ w.hs[g]? = some ng ∧ w'.hs = (w.hs.set h ng).set g nh
  | .erase i x => threw = false ∧ w'.hs = w.hs ∧ ∃ c c', w.cs[i]? = some c ∧ w'.cs = w.cs.set i c' ∧ SameKind c c' ∧ c'.elems.Perm (c.elems.erase x)
  | .clear i => threw = false ∧ w'.hs = w.hs ∧ ∃ c c', w.cs[i]? = some c ∧ w'.cs = w.cs.set i c' ∧ SameKind c c' ∧ c'.elems = []
  | .destroy i => threw = false ∧ w'.hs = w.hs ∧ w'.cs = w.cs.eraseIdx i
  | .replace i x v _ _ => w'.hs = w.hs ∧ (∃ c c', w.cs[i]? = some c ∧ w'.cs = w.cs.set i c' ∧ SameKind c c' ∧ c'.elems.Perm c.elems) ∧
    ((threw = false ∧ r.b = true ∧ w'.m.val = upd w.m.val x v) ∨ (r.b = false ∧ w'.m.val = w.m.val))
  | .modify i x mod _ => w'.hs = w.hs ∧ ∃ c c', w.cs[i]? = some c ∧ w'.cs = w.cs.set i c' ∧ SameKind c c' ∧
    ((threw = false ∧ r.b = true ∧ w'.m.val x = (mod (w.m.val x)).1 ∧ c'.elems.Perm c.elems) ∨ (r.b = false ∧ c'.elems.Perm (c.elems.erase x)))
  | .modifyRb i x mod back _ _ => w'.hs = w.hs ∧ ∃ c c', w.cs[i]? = some c ∧ w'.cs = w.cs.set i c' ∧ SameKind c c' ∧
    ((threw = false ∧ r.b = true ∧ w'.m.val = upd w.m.val x (mod (w.m.val x)).1 ∧ c'.elems.Perm c.elems) ∨
     (threw = false ∧ r.b = false ∧ w'.m.val = upd w.m.val x (back (mod (w.m.val x)).1).1 ∧ c'.elems.Perm c.elems) ∨
     (r.b = false ∧ c'.elems.Perm (c.elems.erase x)))
  | .transfer i j x _ => w'.hs = w.hs ∧ ∃ c d c' d', w.cs[i]? = some c ∧ w.cs[j]? = some d ∧ w'.cs = (w.cs.set i c').set j d' ∧ AddedOrNot x threw r c c' ∧
    if threw = false ∧ r.b = true then d'.elems.Perm (d.elems.erase x) else d' = d
  | .swap i j | .swapElements i j => threw = false ∧ w'.hs = w.hs ∧ ∃ c d, w.cs[i]? = some c ∧ w.cs[j]? = some d ∧ w'.cs = (w.cs.set i d).set j c
  | .copy i hd _ ns _ _ => w'.hs = w.hs ∧ if threw then w'.cs = w.cs else
    ∃ c c', w.cs[i]? = some c ∧ w'.cs = w.cs ++ [c'] ∧ c'.hd = hd ∧ c'.elems = ns ∧ c'.elems.map w'.m.val = c.elems.map w.m.val
  | .newLike _ hd _ _ _ _ => w'.hs = w.hs ∧ if threw then w'.cs = w.cs else ∃ c', w'.cs = w.cs ++ [c'] ∧ c'.hd = hd ∧ c'.elems = []
  | .relocate i k _ _ | .rearrange i k _ | .rehash i k _ _ | .place i k _ _ => w'.hs = w.hs ∧ ∃ c c', w.cs[i]? = some c ∧ w'.cs = w.cs.set i c' ∧ SameKind c c' ∧ c'.elems.Perm c.elems ∧
    ∀ j, j ≠ k → c'.seqs[j]? = c.seqs[j]?

/-- The element whose value the operation is to change. -/
def Op.edits : Op V → Option Id
  | .replace _ x _ _ _ | .modify _ x _ _ | .modifyRb _ x _ _ _ _ => some x
  | _ => none

/-- The operation has changed the value of no element but the one it is to change. -/
def World.Untouched (w w' : World V) (o : Op V) : Prop := ∀ z ∈ w.m.cons, o.edits ≠ some z → w'.m.val z = w.m.val z

/-- The outcome of an operation that returned or threw. -/
def Out.Of (o : Out (World V × Ret)) (threw : Bool) (w' : World V) (r : Ret) : Prop := o = if threw then .threw (w', r) else .ok (w', r)

end MI.Cont
