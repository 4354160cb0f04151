import Mathlib.Data.List.Basic
/-!
# Which allocator allocates and deallocates what

Models the use of allocators by multi_index_container.hpp, detail/header_holder.hpp, detail/copy_map.hpp, detail/auto_space.hpp, detail/bucket_array.hpp,
detail/rnd_index_ptr_array.hpp, hashed_index.hpp, random_access_index.hpp and detail/node_handle.hpp. What the containers hold is of no interest here: of every
block of memory only the allocator it came from is kept. `Al`: allocators up to equality (allocators that compare equal can deallocate the memory of each other).
-/
namespace MI.Alloc

abbrev Al := Nat

/-- What `allocator_traits` says of the type of allocators: `propagate_on_container_copy_assignment`, `…_move_assignment`, `…_swap`,
`select_on_container_copy_construction`: detail/allocator_traits.hpp:51-181. -/
structure Traits where
  pocca : Bool
  pocma : Bool
  pocs : Bool
  soccc : Al → Al

/-- The arrays that indices own: the bucket array of a hashed index, the pointer array of a random access index. -/
inductive Kind
  | buckets | ptrs
deriving DecidableEq, Repr

/-- `auto_space`: its own allocator `al_`; `org`: the allocator that allocated `data_`. The arrays of indices have at least one element, so there is always
memory. auto_space.hpp:46-90; bucket_array.hpp:142-147; rnd_index_ptr_array.hpp:50-58. -/
structure Space where
  kind : Kind
  al : Al
  org : Al
deriving DecidableEq, Repr

/-- A container: its allocator (`bfm_allocator`), where the header and the nodes of the elements come from, and its arrays in the order of the indices.
multi_index_container.hpp:112-150. -/
structure Cont where
  al : Al
  hdr : Al
  nodes : List Al
  arrs : List Space
deriving DecidableEq, Repr

/-- A node handle: where the node comes from, if there is one; the allocator constructed in `space`, if any. node_handle.hpp:44-213. -/
structure Handle where
  node : Option Al
  al : Option Al
deriving DecidableEq, Repr

/-- A call of `deallocate`: whether for a node (or header) or for an array, where the block came from, and the allocator used. -/
structure Freed where
  array : Bool
  org : Al
  by_ : Al
deriving DecidableEq, Repr

/-! ## Arrays -/

/-- `auto_space(al,n)`: auto_space.hpp:56-58. -/
def Space.new (k : Kind) (a : Al) : Space := ⟨k, a, a⟩

/-- `~auto_space()`: auto_space.hpp:60. -/
def Space.free (s : Space) : Freed := ⟨true, s.org, s.al⟩

/-- `swap(x,swap_allocators)`: auto_space.hpp:74-85; bucket_array.hpp:176-181; rnd_index_ptr_array.hpp:113-119. -/
def Space.swap (prop : Bool) (s t : Space) : Space × Space :=
  if prop then (⟨s.kind, t.al, t.org⟩, ⟨t.kind, s.al, s.org⟩) else (⟨s.kind, s.al, t.org⟩, ⟨t.kind, t.al, s.org⟩)

/-- The arrays of two containers of the same type, one after the other. -/
def swapArrs (prop : Bool) : List Space → List Space → List Space × List Space
  | s :: ss, t :: ts => ((s.swap prop t).1 :: (swapArrs prop ss ts).1, (s.swap prop t).2 :: (swapArrs prop ss ts).2)
  | _, _ => ([], [])

/-- The new array of a hashed index that is rehashed, or of a random access index that changes its capacity, and the deallocation of the old one. A rehash takes the
allocator of the container (hashed_index.hpp:1464, 1506; 1516), `set_capacity` that of the array (rnd_index_ptr_array.hpp:131-137). Both end with `swap`, which depends on
`propagate_on_container_swap` (auto_space.hpp:66-72). -/
def Space.renew (T : Traits) (a : Al) (s : Space) : Space × Freed :=
  let t := Space.new s.kind (match s.kind with | .buckets => a | .ptrs => s.al)
  ((s.swap T.pocs t).1, (s.swap T.pocs t).2.free)

/-! ## Containers -/

/-- Constructor of an empty container: multi_index_container.hpp:182-217. -/
def Cont.new (ks : List Kind) (a : Al) : Cont := ⟨a, a, [], ks.map fun k => Space.new k a⟩

/-- The arrays of a container made from `x` by the copy constructors and the `do_not_copy_elements_tag` constructors of the indices: the allocator is that
of `x`. hashed_index.hpp:773, 794; random_access_index.hpp:769, 783. -/
def Cont.arrsLike (x : Cont) : List Space := x.arrs.map fun s => Space.new s.kind x.al

/-- A container with allocator `a` made from `x`, before elements are put in: multi_index_container.hpp:284-293, 297-304, 307-315, 318-328, 574-581, 608-614. -/
def Cont.like (x : Cont) (a : Al) : Cont := ⟨a, a, [], x.arrsLike⟩

/-- With `n` clones of elements, made by the copy map with the allocator of the container: copy_map.hpp:129-180; multi_index_container.hpp:620-630. -/
def Cont.clones (c : Cont) (n : Nat) : Cont := { c with nodes := List.replicate n c.al ++ c.nodes }

/-- `delete_all_nodes_` and `clear_`: multi_index_container.hpp:958-974. -/
def Cont.clear (c : Cont) : Cont × List Freed := ({ c with nodes := [] }, c.nodes.map fun o => ⟨false, o, c.al⟩)

/-- Destructor: nodes, then the arrays of the indices, then the header (`~header_holder`): multi_index_container.hpp:339-342; header_holder.hpp:38. -/
def Cont.destroy (c : Cont) : List Freed := c.clear.2 ++ c.arrs.map Space.free ++ [⟨false, c.hdr, c.al⟩]

/-- `swap_(x,swap_allocators)`: multi_index_container.hpp:995-1012. -/
def Cont.swap (prop : Bool) (c d : Cont) : Cont × Cont :=
  let a := swapArrs prop c.arrs d.arrs
  if prop then (⟨d.al, d.hdr, d.nodes, a.1⟩, ⟨c.al, c.hdr, c.nodes, a.2⟩) else (⟨c.al, d.hdr, d.nodes, a.1⟩, ⟨d.al, c.hdr, c.nodes, a.2⟩)

/-- `swap_elements_(x)`: multi_index_container.hpp:1014-1020; hashed_index.hpp:1044-1056; random_access_index.hpp:889-898. -/
def Cont.swapElements (T : Traits) (c d : Cont) : Cont × Cont :=
  let a := swapArrs T.pocs c.arrs d.arrs
  (⟨c.al, d.hdr, d.nodes, a.1⟩, ⟨d.al, c.hdr, c.nodes, a.2⟩)

/-- Copy construction, `al` being given or not; `fail`: something throws when so many elements have been cloned (the clones are deleted by the copy map,
copy_map.hpp:72-81). The result `none` is an exception. multi_index_container.hpp:284-317. -/
def Cont.copy (T : Traits) (x : Cont) (al : Option Al) (fail : Option Nat) : Option Cont × List Freed :=
  let a := al.getD (T.soccc x.al)
  match fail with
  | none => (some ((x.like a).clones x.nodes.length), [])
  | some n => (none, ((x.like a).clones n).destroy)

/-- Move construction without an allocator: multi_index_container.hpp:297-306. The new container and what is left of `x`. -/
def Cont.move (T : Traits) (x : Cont) : Cont × Cont := (x.like x.al).swapElements T x

/-- Move construction with an allocator: multi_index_container.hpp:318-337, 574-601. In the result: the new container or `none` (exception), what is left of
`x`, deallocations. -/
def Cont.moveTo (T : Traits) (x : Cont) (a : Al) (fail : Option Nat) : Option Cont × Cont × List Freed :=
  let c := x.like a
  if a = x.al then
    let p := c.swapElements T x
    (some p.1, p.2, [])
  else
    let y := x.like a
    match fail with
    | none =>
      let y := y.clones x.nodes.length
      let e := x.clear
      let p := c.swapElements T y
      (some p.1, e.1, e.2 ++ p.2.destroy)
    | some n =>
      let e := x.clear
      (none, e.1, (y.clones n).destroy ++ e.2 ++ c.destroy)

/-- Copy assignment: multi_index_container.hpp:360-369. In the result: `*this`, deallocations. -/
def Cont.assign (T : Traits) (c x : Cont) (fail : Option Nat) : Cont × List Freed :=
  match x.copy T (some (if T.pocca then x.al else c.al)) fail with
  | (none, f) => (c, f)
  | (some y, f) =>
    let p := c.swap true y
    (p.1, f ++ p.2.destroy)

/-- Move assignment from another container: multi_index_container.hpp:371-390. In the result: `*this`, `x`, deallocations. -/
def Cont.moveAssign (T : Traits) (c x : Cont) (fail : Option Nat) : Cont × Cont × List Freed :=
  if T.pocma then
    let p := c.swap true x
    (p.1, p.2, [])
  else if c.al = x.al then
    let p := c.swap false x
    (p.1, p.2, [])
  else
    match x.moveTo T c.al fail with
    | (none, x', f) => (c, x', f)
    | (some y, x', f) =>
      let p := c.swap false y
      (p.1, x', f ++ p.2.destroy)

/-! ## Node handles

`none`: a constructor is called for a live object or a destructor or another member function for one that is not alive. -/

/-- Construction of the allocator in `space`: node_handle.hpp:161-164, 186-190. -/
def Handle.construct (h : Handle) (a : Al) : Option Handle := if h.al = none then some { h with al := some a } else none

/-- `destroy_allocator()`: node_handle.hpp:197. -/
def Handle.destroyAl (h : Handle) : Option Handle := if h.al = none then none else some { h with al := none }

/-- `delete_node()`: node_handle.hpp:199-211. -/
def Handle.delete (h : Handle) : Option Freed :=
  match h.node, h.al with
  | some o, some a => some ⟨false, o, a⟩
  | _, _ => none

/-- Constructor from a node: node_handle.hpp:161-164; multi_index_container.hpp:941. -/
def Handle.new (o a : Al) : Option Handle := (⟨some o, none⟩ : Handle).construct a

/-- Move constructor: node_handle.hpp:58-65. The new handle and `x`. -/
def Handle.move (x : Handle) : Option (Handle × Handle) :=
  if x.node ≠ none then do
    let a ← x.al
    let h ← (⟨x.node, none⟩ : Handle).construct a
    let x ← x.destroyAl
    some (h, { x with node := none })
  else some (⟨x.node, none⟩, x)

/-- Destructor: node_handle.hpp:67-73. -/
def Handle.destroy (h : Handle) : Option (List Freed) :=
  if h.node ≠ none then do
    let f ← h.delete
    let _ ← h.destroyAl
    some [f]
  else some []

/-- `release_node()`: node_handle.hpp:166-172. -/
def Handle.release (h : Handle) : Option Handle :=
  if h.node ≠ none then ({ h with node := none } : Handle).destroyAl else some h

/-- Move assignment from another handle: node_handle.hpp:75-97. `*this`, `x`, deallocations. -/
def Handle.assign (T : Traits) (h x : Handle) : Option (Handle × Handle × List Freed) := do
  let (h, x, f) ←
    if h.node ≠ none then do
      let f ← h.delete
      if x.node ≠ none then do
        let a ← x.al
        let h := if T.pocma then { h with al := some a } else h
        let x ← x.destroyAl
        some (h, x, [f])
      else do
        let h ← h.destroyAl
        some (h, x, [f])
    else if x.node ≠ none then do
      let a ← x.al
      let h ← h.construct a
      let x ← x.destroyAl
      some (h, x, [])
    else some (h, x, [])
  some ({ h with node := x.node }, { x with node := none }, f)

/-- `swap(x)` with another handle: node_handle.hpp:113-136. -/
def Handle.swap (T : Traits) (h x : Handle) : Option (Handle × Handle) := do
  let (h, x) ←
    if h.node ≠ none then
      if x.node ≠ none then do
        let a ← h.al
        let b ← x.al
        if T.pocs then some ({ h with al := some b }, { x with al := some a }) else some (h, x)
      else do
        let a ← h.al
        let x ← x.construct a
        let h ← h.destroyAl
        some (h, x)
    else if x.node ≠ none then do
      let a ← x.al
      let h ← h.construct a
      let x ← x.destroyAl
      some (h, x)
    else some (h, x)
  some ({ h with node := x.node }, { x with node := h.node })

/-! ## Programs -/

/-- The containers and handles of a program, and the calls of `deallocate` so far. -/
structure World where
  cs : List Cont
  hs : List Handle
  freed : List Freed
deriving DecidableEq, Repr

inductive Op
  /-- A new container. -/
  | new (ks : List Kind) (a : Al)
  /-- Insertion into container `i`, which adds a node or, not being accepted or throwing, deallocates it again: multi_index_container.hpp:702-760, 643-652. -/
  | insert (i : Nat) (accepted : Bool)
  /-- Erasure of the `k`th node of container `i`: multi_index_container.hpp:950-962. -/
  | erase (i k : Nat)
  | clear (i : Nat)
  /-- The array of index number `k` of those that have arrays is reallocated, by rehashing or change of capacity, asked for or when inserting. -/
  | renew (i k : Nat)
  | copy (i : Nat) (a : Option Al) (fail : Option Nat)
  | move (i : Nat)
  | moveTo (i : Nat) (a : Al) (fail : Option Nat)
  | assign (i j : Nat) (fail : Option Nat)
  | moveAssign (i j : Nat) (fail : Option Nat)
  /-- The temporary of the assignment of an initializer list, and its exchange with the container (insertions and `destroy` are other steps):
  multi_index_container.hpp:395-406, 603-614. -/
  | likeFor (i : Nat)
  | swapElements (i j : Nat)
  | swap (i j : Nat)
  | destroy (i : Nat)
  /-- The `k`th node of `i` goes to a new handle: multi_index_container.hpp:937-942. -/
  | extract (i k : Nat)
  /-- The node of handle `h` goes to container `i`: multi_index_container.hpp:754-768. -/
  | insertHandle (i h : Nat)
  /-- The `k`th node of `j` goes to container `i` (merge, splice): multi_index_container.hpp:770-800. -/
  | transfer (i j k : Nat)
  | hmove (h : Nat)
  | hassign (h g : Nat)
  | hswap (h g : Nat)
  | hdestroy (h : Nat)

/-- One step; `none` if a container, handle or node does not exist or a handle misuses its allocator object. -/
def World.step (T : Traits) (w : World) : Op → Option World
  | .new ks a => some { w with cs := w.cs ++ [Cont.new ks a] }
  | .insert i acc => do
    let c ← w.cs[i]?
    if acc then some { w with cs := w.cs.set i { c with nodes := c.al :: c.nodes } }
    else some { w with freed := w.freed ++ [⟨false, c.al, c.al⟩] }
  | .erase i k => do
    let c ← w.cs[i]?
    let o ← c.nodes[k]?
    some { w with cs := w.cs.set i { c with nodes := c.nodes.eraseIdx k }, freed := w.freed ++ [⟨false, o, c.al⟩] }
  | .clear i => do
    let c ← w.cs[i]?
    some { w with cs := w.cs.set i c.clear.1, freed := w.freed ++ c.clear.2 }
  | .renew i k => do
    let c ← w.cs[i]?
    let s ← c.arrs[k]?
    some { w with cs := w.cs.set i { c with arrs := c.arrs.set k (s.renew T c.al).1 }, freed := w.freed ++ [(s.renew T c.al).2] }
  | .copy i a fail => do
    let c ← w.cs[i]?
    some { w with cs := w.cs ++ (c.copy T a fail).1.toList, freed := w.freed ++ (c.copy T a fail).2 }
  | .move i => do
    let c ← w.cs[i]?
    some { w with cs := w.cs.set i (c.move T).2 ++ [(c.move T).1] }
  | .moveTo i a fail => do
    let c ← w.cs[i]?
    some { w with cs := w.cs.set i (c.moveTo T a fail).2.1 ++ (c.moveTo T a fail).1.toList, freed := w.freed ++ (c.moveTo T a fail).2.2 }
  | .assign i j fail => do
    let c ← w.cs[i]?
    let x ← w.cs[j]?
    some { w with cs := w.cs.set i (c.assign T x fail).1, freed := w.freed ++ (c.assign T x fail).2 }
  | .moveAssign i j fail => do
    let c ← w.cs[i]?
    let x ← w.cs[j]?
    some { w with
      cs := (w.cs.set i (c.moveAssign T x fail).1).set j (c.moveAssign T x fail).2.1, freed := w.freed ++ (c.moveAssign T x fail).2.2 }
  | .likeFor i => do
    let c ← w.cs[i]?
    some { w with cs := w.cs ++ [c.like c.al] }
  | .swapElements i j => do
    let c ← w.cs[i]?
    let d ← w.cs[j]?
    some { w with cs := (w.cs.set i (c.swapElements T d).1).set j (c.swapElements T d).2 }
  | .swap i j => do
    let c ← w.cs[i]?
    let d ← w.cs[j]?
    some { w with cs := (w.cs.set i (c.swap T.pocs d).1).set j (c.swap T.pocs d).2 }
  | .destroy i => do
    let c ← w.cs[i]?
    some { w with cs := w.cs.eraseIdx i, freed := w.freed ++ c.destroy }
  | .extract i k => do
    let c ← w.cs[i]?
    let o ← c.nodes[k]?
    let h ← Handle.new o c.al
    some { w with cs := w.cs.set i { c with nodes := c.nodes.eraseIdx k }, hs := w.hs ++ [h] }
  | .insertHandle i h => do
    let c ← w.cs[i]?
    let x ← w.hs[h]?
    let o ← x.node
    let x ← x.release
    some { w with cs := w.cs.set i { c with nodes := o :: c.nodes }, hs := w.hs.set h x }
  | .transfer i j k => do
    let c ← w.cs[i]?
    let d ← w.cs[j]?
    let o ← d.nodes[k]?
    some { w with cs := (w.cs.set i { c with nodes := o :: c.nodes }).set j { d with nodes := d.nodes.eraseIdx k } }
  | .hmove h => do
    let x ← w.hs[h]?
    let p ← x.move
    some { w with hs := w.hs.set h p.2 ++ [p.1] }
  | .hassign h g => do
    let x ← w.hs[h]?
    let y ← w.hs[g]?
    let p ← x.assign T y
    some { w with hs := (w.hs.set h p.1).set g p.2.1, freed := w.freed ++ p.2.2 }
  | .hswap h g => do
    let x ← w.hs[h]?
    let y ← w.hs[g]?
    let p ← x.swap T y
    some { w with hs := (w.hs.set h p.1).set g p.2 }
  | .hdestroy h => do
    let x ← w.hs[h]?
    let f ← x.destroy
    some { w with hs := w.hs.eraseIdx h, freed := w.freed ++ f }

/-- What the documentation and the standard require of the caller: that the objects exist; the same type for assignment and swap; equal allocators for swap, unless
propagated, for the insertion of a handle and for the transfer of nodes, and correspondingly for handles ([container.node], [container.reqmts]). Self-assignments and
self-swaps, which do nothing, are left out. `likeFor`, `swapElements`: only as in the assignment of a list, where the allocators are the same. -/
def World.Legal (T : Traits) (w : World) : Op → Prop
  | .new _ _ => True
  | .insert i _ | .clear i | .copy i _ _ | .move i | .moveTo i _ _ | .likeFor i | .destroy i => ∃ c, w.cs[i]? = some c
  | .erase i k | .extract i k => ∃ c o, w.cs[i]? = some c ∧ c.nodes[k]? = some o
  | .renew i k => ∃ c s, w.cs[i]? = some c ∧ c.arrs[k]? = some s
  | .assign i j _ | .moveAssign i j _ => i ≠ j ∧ ∃ c d, w.cs[i]? = some c ∧ w.cs[j]? = some d ∧ c.arrs.map (·.kind) = d.arrs.map (·.kind)
  | .swapElements i j => i ≠ j ∧ ∃ c d, w.cs[i]? = some c ∧ w.cs[j]? = some d ∧ c.arrs.map (·.kind) = d.arrs.map (·.kind) ∧ c.al = d.al
  | .swap i j => i ≠ j ∧ ∃ c d, w.cs[i]? = some c ∧ w.cs[j]? = some d ∧ c.arrs.map (·.kind) = d.arrs.map (·.kind) ∧ (T.pocs = true ∨ c.al = d.al)
  | .insertHandle i h => ∃ c x, w.cs[i]? = some c ∧ w.hs[h]? = some x ∧ x.node ≠ none ∧ x.al = some c.al
  | .transfer i j k => i ≠ j ∧ ∃ c d o, w.cs[i]? = some c ∧ w.cs[j]? = some d ∧ d.nodes[k]? = some o ∧ c.al = d.al
  | .hmove h | .hdestroy h => ∃ x, w.hs[h]? = some x
  | .hassign h g => h ≠ g ∧ ∃ x y, w.hs[h]? = some x ∧ w.hs[g]? = some y ∧ (x.node = none ∨ y.node = none ∨ T.pocma = true ∨ x.al = y.al)
  | .hswap h g => h ≠ g ∧ ∃ x y, w.hs[h]? = some x ∧ w.hs[g]? = some y ∧ (x.node = none ∨ y.node = none ∨ T.pocs = true ∨ x.al = y.al)

/-- The states of programs. -/
inductive Reach (T : Traits) : World → Prop
  | init : Reach T ⟨[], [], []⟩
  | step {w w'} (o : Op) : Reach T w → w.Legal T o → w.step T o = some w' → Reach T w'

end MI.Alloc
