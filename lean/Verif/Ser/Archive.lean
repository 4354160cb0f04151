import Verif.Ser.Stream
import Verif.Cont.Api

/-! Model of `save` and `load` of `multi_index_container`.

An archive is what is written to it, in order. Boost.Serialization tracks the addresses of the objects saved with the name
`position` (nodes, header, bucket arrays), and saves a pointer as a reference to the object tracked: here a pointer to the node of the `n`-th
element saved is `some n`; pointers to anything else do not occur in what is saved, and in an archive read they are numbers that are not
smaller than `count`. The value of an element survives saving and loading. -/
namespace MI.Ser
open MI MI.Cont
variable {V : Type}

/-- An archive: `count`, the elements, the pointers. -/
structure Archive (V : Type) where
  count : Nat
  items : List V
  ptrs : List (Option Nat)

/-- Does `save_` of this index write pointers? Ordered unique indices: ord_index_impl.hpp:1459–1474 (no); ordered non-unique: 1476–1501 (yes);
hashed: hashed_index.hpp:1236–1249 (no, only the bucket array is tracked); sequenced, random access: sequenced_index.hpp:854–871,
random_access_index.hpp:945–968 (yes). -/
def hasStream : Layer V → Bool
  | .ord u _ _ => !u
  | .hash _ _ _ _ _ _ _ => false
  | _ => true

/-- The nodes that the range passed to `sm.save` by `save_` visits: ord_index_impl.hpp:1483–1486, sequenced_index.hpp:858, random_access_index.hpp:949. -/
def listing (n : Nat) (hd : Id) (val : Id → V) (L : Layer V) : Option (List Id) :=
  match L with
  | .ord _ lt _ => dupWalk (fun x => L.next n x) (fun a b => lt (val a) (val b)) hd (L.first hd) n
  | _ => L.walk n hd

/-- `save_` of an index and of those after it: the pointers saved. -/
def saveIndices (n : Nat) (hd : Id) (val : Id → V) : Alg → List (Layer V) → Option (List (Option Id))
  | _, [] => some []
  | a, L :: ls =>
    if hasStream L then
      match listing n hd val L with
      | none => none
      | some xs =>
        match a.save xs with
        | none => none
        | some (a, ts) =>
          match saveIndices n hd val a ls with
          | none => none
          | some us => some (ts ++ us)
    else saveIndices n hd val a ls

/-- `save(ar,version)`: multi_index_container.hpp:1119–1138. `junk`: the contents of memory allocated. `none`: a loop does not end, or
an array is accessed beyond its end. -/
def save (w : World V) (i : Nat) (junk : Alg) : Option (Archive V) :=
  match w.cs[i]? with
  | none => none
  | some c =>
    match c.ls with
    | [] => none
    | L :: _ =>
      match L.walk c.budget c.hd with
      | none => none
      | some b =>
        match (Alg.new c.count junk).addAll b with
        | none => none
        | some a =>
          match saveIndices c.budget c.hd w.m.val a c.ls with
          | none => none
          | some ts => some ⟨c.count, b.map w.m.val, ts.map (Option.map fun x => b.idxOf x)⟩

/-- The loop that loads the elements: multi_index_container.hpp:1176–1187. First argument: how many are to come. `es`: the nodes added to the
loader. An archive with too few elements throws. `t` numbers the steps. -/
def loadItems (H : Host V) (i : Nat) (hd : Id) : Nat → World V → List V → List Id → Nat → Out (World V × List Id)
  | 0, w, _, es, _ => .ok (w, es)
  | _ + 1, w, [], es, _ => .threw (w, es)
  | n + 1, w, v :: vs, es, t =>
    match w.step (.insert i v (H.node w t) (H.fault w t) (some hd) (H.env w t)) with
    | .ok (w, r) => if r.b then loadItems H i hd n w vs (es ++ [r.pos]) (t + 1) else .threw (w, es)
    | .threw (w, _) => .threw (w, es)
    | .ub => .ub
    | .hang => .hang

/-- What goes wrong while the pointers are loaded: `fail k`: the allocation of index `k` (if random access) fails; `cut k`: the number of
elements that index `k` has rearranged when a call to a user-supplied comparison function, or reading the archive, throws. -/
structure Mishap where
  fail : Nat → Bool := fun _ => false
  cut : Nat → Option Nat := fun _ => none

/-- `load_` of index `k`: ord_index_impl.hpp:1467–1474, 1490–1501, hashed_index.hpp:1243–1249, sequenced_index.hpp:862–871,
random_access_index.hpp:953–968. The result has what is left to read. -/
def loadIndex (f : Mishap) (w : World V) (i k : Nat) (es : List Id) (ts : List (Option Id)) : Out (World V × List (Option Id)) :=
  match w.cs[i]? with
  | none => .ub
  | some c =>
    match c.ls[k]? with
    | none => .ub
    | some L =>
      if hasStream L then
        let r := parse (sortEntries es) none ts
        match f.cut k with
        | some n =>
          match w.step (.place i k (f.fail k) (r.1.take n)) with
          | .ok (w, _) => .threw (w, r.2.2)
          | .threw (w, _) => .threw (w, r.2.2)
          | .ub => .ub
          | .hang => .hang
        | none =>
          match w.step (.place i k (f.fail k) r.1) with
          | .ok (w, _) => if r.2.1 then .ok (w, r.2.2) else .threw (w, r.2.2)
          | .threw (w, _) => .threw (w, r.2.2)
          | .ub => .ub
          | .hang => .hang
      else .ok (w, ts)

/-- `load_` of `n` indices, from index `k` on. -/
def loadIndices (f : Mishap) (i : Nat) (es : List Id) : Nat → Nat → World V → List (Option Id) → Out (World V)
  | 0, _, w, _ => .ok w
  | n + 1, k, w, ts =>
    match loadIndex f w i k es ts with
    | .ok (w, ts) => loadIndices f i es n (k + 1) w ts
    | .threw (w, _) => .threw w
    | .ub => .ub
    | .hang => .hang

/-- `load(ar,version)` for the current version: multi_index_container.hpp:1140–1192. -/
def load (H : Host V) (f : Mishap) (w : World V) (i : Nat) (A : Archive V) : Out (World V) :=
  match w.step (.clear i) with
  | .ok (w, _) =>
    match w.cs[i]? with
    | none => .ub
    | some c =>
      match loadItems H i c.hd A.count w A.items [] 0 with
      | .ok (w, es) => loadIndices f i es c.ls.length 0 w (A.ptrs.map (Option.map fun n => es.getD n c.hd))
      | .threw (w, _) => .threw w
      | .ub => .ub
      | .hang => .hang
  | .threw (w, _) => .threw w
  | .ub => .ub
  | .hang => .hang

/-- `load` once more, which also returns the nodes that the archive knows as those of the elements read (`lm.add`, index_loader.hpp:49–53): pointers read from the
archive later refer to them. -/
def loadT (H : Host V) (f : Mishap) (w : World V) (i : Nat) (A : Archive V) : Out (World V × List Id) :=
  match w.step (.clear i) with
  | .ok (w, _) =>
    match w.cs[i]? with
    | none => .ub
    | some c =>
      match loadItems H i c.hd A.count w A.items [] 0 with
      | .ok (w, es) =>
        match loadIndices f i es c.ls.length 0 w (A.ptrs.map (Option.map fun n => es.getD n c.hd)) with
        | .ok w => .ok (w, es)
        | .threw w => .threw (w, es)
        | .ub => .ub
        | .hang => .hang
      | .threw (w, es) => .threw (w, es)
      | .ub => .ub
      | .hang => .hang
  | .threw (w, _) => .threw (w, [])
  | .ub => .ub
  | .hang => .hang

/-- How Boost.Serialization writes a pointer to an object: a null pointer, the number of an object that the archive tracks already, or a new object. -/
inductive Ref where
  | null
  | known (n : Nat)
  | fresh
deriving DecidableEq

/-- `ar<<it` after the container `i` was saved: the iterator is written as the pointer to its node (bidir_node_iterator.hpp:77–82, rnd_node_iterator.hpp:87–92,
hash_index_iterator.hpp:76–81; in safe mode the same if the iterator is valid, safe_mode.hpp:564–569). The objects tracked are the elements in the order of the first
index, then the header (`sm.add`, `sm.add_track`, multi_index_container.hpp:1130–1135, index_saver.hpp:43–54). `none`: a null pointer, as in local iterators at the end of a
bucket. Not modelled: other objects the program has put in the archive; they have other numbers. -/
def saveIt (w : World V) (i : Nat) : Option Id → Option Ref
  | none => some .null
  | some x =>
    match w.cs[i]? with
    | none => none
    | some c =>
      match c.ls with
      | [] => none
      | L :: _ =>
        match L.walk c.budget c.hd with
        | none => none
        | some b => some (if x = c.hd then .known b.length else if x ∈ b then .known (b.idxOf x) else .fresh)

/-- `ar>>it` after a container with header `hd` was loaded, `es` being the nodes of the elements read: bidir_node_iterator.hpp:84–90, rnd_node_iterator.hpp:94–100,
hash_index_iterator.hpp:83–117 (version 1). For a new object or a number the archive does not know, Boost.Serialization would construct a node; this throws
`bad_archive_exception` (index_node_base.hpp:115–121). -/
def loadIt (es : List Id) (hd : Id) : Ref → Out (Option Id)
  | .null => .ok none
  | .known n =>
    if n = es.length then .ok (some hd)
    else
      match es[n]? with
      | some y => .ok (some y)
      | none => .threw none
  | .fresh => .threw none

/-- The elements of `loadT` do not change what is loaded. -/
theorem loadT_load (H : Host V) (f : Mishap) (w : World V) (i : Nat) (A : Archive V) :
    load H f w i A = match loadT H f w i A with
      | .ok (w, _) => .ok w
      | .threw (w, _) => .threw w
      | .ub => .ub
      | .hang => .hang := by
  unfold load loadT
  rcases w.step (.clear i) with ⟨w1, r⟩ | ⟨w1, r⟩ | _ | _ <;> try rfl
  dsimp only
  rcases w1.cs[i]? with _ | c <;> try rfl
  dsimp only
  rcases loadItems H i c.hd A.count w1 A.items [] 0 with ⟨w2, es⟩ | ⟨w2, es⟩ | _ | _ <;> try rfl
  dsimp only
  rcases loadIndices f i es c.ls.length 0 w2 (A.ptrs.map (Option.map fun n => es.getD n c.hd)) with _ | _ | _ | _ <;> rfl

end MI.Ser
