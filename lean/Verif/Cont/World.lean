import Verif.Cont.Container
import Verif.Cont.CascadeSpec
import Verif.Cont.Place
import Verif.Cont.Copy
import Verif.Spec.Sift
/-!
# Programs: containers, node handles and memory

A `World` is the state of a program using some containers and node handles. `step` executes one operation of the library; an
exception is an outcome, after which the program may go on.
-/
namespace MI.Cont
open MI
variable {V : Type}

/-- State of a program. A node handle (node_handle.hpp:45-211) is the node it owns, if any. -/
structure World (V : Type) where
  m : Mem V
  cs : List (Container V)
  hs : List (Option Id)

/-- Rearrangements of a sequenced or random access index. -/
inductive Rearr (V : Type) where
  /-- `relocate(position,first,last)`, also `splice(position,x,first,last)` in the same container -/
  | relocateRange (pos first last : Id)
  /-- `reverse()` -/
  | reverse
  /-- `rearrange(first)`: `vs` are the elements the given sequence refers to -/
  | rearrange (vs : List Id)
  /-- `splice(position,x,first,last)`, the range being one of another index of the same container: `vs` are its elements -/
  | splice (pos : Id) (vs : List Id)
  /-- `sort(comp)`: `cmp t v w` is what the `t`-th call of `comp` returns (`none`: it throws); `carry`, `cid`: addresses of the local
  nodes used (sequenced); `ssort`: what `std::stable_sort` does (random access) -/
  | sort (cmp : Nat → V → V → Option Bool) (carry : Id) (cid : Nat → Id) (ssort : List Id → Option (List Id))
  /-- `reserve(n)` (random access only); `fail`: the allocation throws -/
  | reserve (n : Nat) (fail : Bool) (junk : Nat → Id)
  /-- `shrink_to_fit()` (random access only) -/
  | shrink (fail : Bool) (junk : Nat → Id)
  /-- the first part of `remove_if(pred)` (random access only): elements to be removed go to the end. `pred t v`: call number `t` (`none`: it throws) -/
  | remove (pred : Nat → V → Option Bool)
  /-- the first part of `unique(pred)` (random access only) -/
  | unique (pred : Nat → V → V → Option Bool)
  /-- the second part of `merge(x,comp)` (random access only): the first `n` elements and the others are merged; `fail`: the allocation throws -/
  | merge (n : Nat) (cmp : Nat → V → V → Option Bool) (fail : Bool)

/-- One operation. `i`, `j` number containers, `h`, `g` node handles, `k` indices; `x` is an element, or the address the
allocation returns; `e` is the environment. -/
inductive Op (V : Type) where
  /-- a constructor of an empty container; `hd`: address of the header -/
  | new (hd z : Id) (is : List (Init V))
  /-- `insert(v)`, `insert(hint,v)`, `push_back(v)`, `push_front`… up to the call of `relocate` -/
  | insert (i : Nat) (v : V) (x : Id) (f : Fault) (hint : Option Id) (e : Nat → Env)
  /-- `emplace(...)`, `emplace_hint(...)` -/
  | emplace (i : Nat) (v : V) (x : Id) (f : Fault) (hint : Option Id) (e : Nat → Env)
  /-- `extract(position)`: appends a node handle -/
  | extract (i : Nat) (x : Id)
  /-- `insert(std::move(h))`, `insert(hint,std::move(h))` -/
  | insertNh (i h : Nat) (hint : Option Id) (e : Nat → Env)
  /-- default constructor of a node handle: appends an empty one (also the handle returned when nothing is extracted) -/
  | newHandle
  /-- destructor of a node handle (the entry is kept, empty) -/
  | dropHandle (h : Nat)
  /-- `h=std::move(g)` -/
  | moveHandle (h g : Nat)
  /-- `h.swap(g)` -/
  | swapHandles (h g : Nat)
  /-- `erase(position)` -/
  | erase (i : Nat) (x : Id)
  /-- `clear()` -/
  | clear (i : Nat)
  /-- destructor of a container -/
  | destroy (i : Nat)
  /-- `replace(position,v)` -/
  | replace (i : Nat) (x : Id) (v : V) (assignThrows : Bool) (e : Nat → Env)
  /-- `modify(position,mod)` -/
  | modify (i : Nat) (x : Id) (mod : V → V × Bool) (e : Nat → Env)
  /-- `modify(position,mod,back)` -/
  | modifyRb (i : Nat) (x : Id) (mod back : V → V × Bool) (e e' : Nat → Env)
  /-- one element of `merge`, `splice`: `i` receives the element `x` of `j` -/
  | transfer (i j : Nat) (x : Id) (e : Nat → Env)
  /-- `swap` -/
  | swap (i j : Nat)
  /-- copy constructor: appends a copy of `i`; `hd`, `ns`: addresses of its header and elements -/
  | copy (i : Nat) (hd z : Id) (ns : List Id) (e : Nat → Env) (F : CopyFault)
  /-- first part of the move constructors and of the assignment of a list: appends an empty container with the functions of `i` -/
  | newLike (i : Nat) (hd z : Id) (pol : Pol) (e : Nat → Env) (F : CopyFault)
  /-- last part of the same: exchange of everything but the functions -/
  | swapElements (i j : Nat)
  /-- `relocate(position,x)` of the sequenced or random access index `k` -/
  | relocate (i k : Nat) (pos x : Id)
  /-- `load_` of index `k`: the calls `(position,x)` of its rearranger that the archive induces; `fail`: the allocation of an auxiliary array throws -/
  | place (i k : Nat) (fail : Bool) (ins : List (Option Id × Id))
  /-- a rearrangement of the sequenced or random access index `k` -/
  | rearrange (i k : Nat) (a : Rearr V)
  /-- `rehash(n)` of the hashed index `k`; `e`: memory and failures -/
  | rehash (i k n : Nat) (e : Env)

/-- What an operation returns: an iterator and a flag. -/
structure Ret where
  pos : Id
  b : Bool

/-- `relocate(position,i)`: sequenced_index.hpp:633-642, random_access_index.hpp:713-722. -/
def Layer.relocate (pos x : Id) : Layer V → Option (Layer V)
  | .seq h => some (.seq (Seq.relocate h pos x))
  | .rnd s => some (.rnd (Rnd.relocate s pos x))
  | _ => none

/-- The rearrangements of sequenced_index.hpp:598-668, 1056-1071 and random_access_index.hpp:284-296, 694-752, 1144-1171, and rnd_index_ops.hpp:34-118. `n`: budget; the number of
local lists of the sequenced `sort` (one per bit of `size_type`) is taken to be `n`, which suffices as the size is less than `2^(n-1)`.
Reallocation happens only when the capacity changes, so that `fail` is looked at only then; `auto_space` allocates nothing for no elements. -/
def Layer.rearrange (n : Nat) (hd : Id) (val : Id → V) (a : Rearr V) : Layer V → Out (Layer V)
  | .seq h =>
    match a with
    | .relocateRange pos first last => .ok (.seq (Seq.relocateRange h pos first last))
    | .reverse =>
      match h.reverse n hd with
      | none => .hang
      | some h => .ok (.seq h)
    | .rearrange vs => .ok (.seq (Seq.rearrange h hd vs))
    | .splice pos vs => .ok (.seq (Seq.internalSplice h pos vs))
    | .sort cmp carry cid _ =>
      match Seq.sort (fun t x y => cmp t (val x) (val y)) n n h hd carry cid with
      | .ok (h, _) => .ok (.seq h)
      | .threw (h, _) => .threw (.seq h)
      | .ub => .ub
      | .hang => .hang
    | .reserve _ _ _ | .shrink _ _ | .remove _ | .unique _ | .merge _ _ _ => .ub
  | .rnd s =>
    match a with
    | .relocateRange pos first last =>
      match Rnd.relocateRange s pos first last with
      | none => .hang
      | some s => .ok (.rnd s)
    | .reverse => .ok (.rnd (Rnd.reverse s))
    | .rearrange vs => .ok (.rnd (Rnd.rearrange s vs))
    | .splice pos vs => .ok (.rnd (Rnd.internalSplice 0 s pos vs))
    | .sort _ _ _ ssort =>
      match Rnd.sort ssort s with
      | .ok s => .ok (.rnd s)
      | .threw s => .threw (.rnd s)
      | .ub => .ub
      | .hang => .hang
    | .reserve c fail junk => if fail ∧ c > s.cap then .threw (.rnd s) else .ok (.rnd (Rnd.reserve junk s c))
    | .shrink fail junk => if fail ∧ s.cap > s.size then .threw (.rnd s) else .ok (.rnd (Rnd.shrinkToFit junk s))
    | .remove pred =>
      match Rnd.removeGo (fun t x => pred t (val x)) s.size s 0 0 0 with
      | .ok (s, _) => .ok (.rnd s)
      | .threw (s, _) => .threw (.rnd s)
      | .ub => .ub
      | .hang => .hang
    | .unique pred =>
      match Rnd.uniqueAll (fun t x y => pred t (val x) (val y)) s with
      | .ok (s, _) => .ok (.rnd s)
      | .threw (s, _) => .threw (.rnd s)
      | .ub => .ub
      | .hang => .hang
    | .merge c cmp fail =>
      if fail ∧ s.size ≠ 0 then .threw (.rnd s)
      else
        match Rnd.inplaceMerge (fun t x y => cmp t (val x) (val y)) s c with
        | .ok s => .ok (.rnd s)
        | .threw s => .threw (.rnd s)
        | .ub => .ub
        | .hang => .hang
  | _ => .ub

/-- `rehash(n)`: hashed_index.hpp:731-744; `n` is at most the largest `size_type`, so that taking the maximum at the end is the same. -/
def Layer.rehash (hd : Id) (val : Id → V) (size n : Nat) (e : Env) : Layer V → Out (Layer V)
  | .hash c eq hf pol ml h a =>
    if size ≤ ml ∧ n ≤ a.size then .ok (.hash c eq hf pol ml h a)
    else if e.allocFail then .threw (.hash c eq hf pol ml h a)
    else
      let na : Hash.Arr := ⟨e.base, Hash.sizeFor Hash.sizes (max (pol.grow size) n)⟩
      match Hash.rehash c (fun x => hf (val x)) size e.hashThrow h a na hd e.cpy with
      | .ok (h, true) => .threw (.hash c eq hf pol ml h a)
      | .ok (h, false) => .ok (.hash c eq hf pol (pol.load na.size) h na)
      | .threw _ => .hang
      | .ub => .ub
      | .hang => .hang
  | L => .ok L

/-- Continue with the memory and container of a result. -/
def World.put (w : World V) (i : Nat) : Out (Res V) → Out (World V × Ret)
  | .ok r => .ok ({ w with m := r.m, cs := w.cs.set i r.c }, ⟨r.pos, r.b⟩)
  | .threw r => .threw ({ w with m := r.m, cs := w.cs.set i r.c }, ⟨r.pos, r.b⟩)
  | .ub => .ub
  | .hang => .hang

/-- Continue with the memory and the new container of a result, if there is one. -/
def World.add (w : World V) : Out (Mem V × Option (Container V)) → Out (World V × Ret)
  | .ok (m, c) => .ok ({ w with m := m, cs := w.cs ++ c.toList }, ⟨0, true⟩)
  | .threw (m, c) => .threw ({ w with m := m, cs := w.cs ++ c.toList }, ⟨0, false⟩)
  | .ub => .ub
  | .hang => .hang

/-- `delete_node()` of a node handle, if it owns a node: node_handle.hpp:64-70, 191-202. -/
def Mem.deleteOpt (m : Mem V) : Option Id → Option (Mem V)
  | none => some m
  | some x => m.deleteNode x

/-- Execution of one operation. References to containers or handles that do not exist are undefined behaviour. -/
def World.step (w : World V) : Op V → Out (World V × Ret)
  | .new hd z is => .ok ({ w with m := w.m.allocate hd, cs := w.cs ++ [Container.new hd z is] }, ⟨0, true⟩)
  | .insert i v x f hint e =>
    match w.cs[i]? with
    | none => .ub
    | some c => w.put i (c.insert w.m v x f hint e)
  | .emplace i v x f hint e =>
    match w.cs[i]? with
    | none => .ub
    | some c => w.put i (c.emplace w.m v x f hint e)
  | .extract i x =>
    match w.cs[i]? with
    | none => .ub
    | some c =>
      match c.extract w.m x with
      | .ok (r, nh) => .ok ({ m := r.m, cs := w.cs.set i r.c, hs := w.hs ++ [nh] }, ⟨r.pos, r.b⟩)
      | .threw _ => .hang
      | .ub => .ub
      | .hang => .hang
  | .insertNh i h hint e =>
    match w.cs[i]?, w.hs[h]? with
    | some c, some nh =>
      match c.insertNh w.m nh hint e with
      | .ok (r, nh) => .ok ({ m := r.m, cs := w.cs.set i r.c, hs := w.hs.set h nh }, ⟨r.pos, r.b⟩)
      | .threw (r, nh) => .threw ({ m := r.m, cs := w.cs.set i r.c, hs := w.hs.set h nh }, ⟨r.pos, r.b⟩)
      | .ub => .ub
      | .hang => .hang
    | _, _ => .ub
  | .dropHandle h =>
    match w.hs[h]? with
    | none => .ub
    | some nh =>
      match w.m.deleteOpt nh with
      | none => .ub
      | some m => .ok ({ w with m := m, hs := w.hs.set h none }, ⟨0, true⟩)
  | .moveHandle h g =>
    match w.hs[h]?, w.hs[g]? with
    | some nh, some ng =>
      if h = g then .ok (w, ⟨0, true⟩)
      else
        match w.m.deleteOpt nh with
        | none => .ub
        | some m => .ok ({ w with m := m, hs := (w.hs.set h ng).set g none }, ⟨0, true⟩)
    | _, _ => .ub
  | .newHandle => .ok ({ w with hs := w.hs ++ [none] }, ⟨0, true⟩)
  | .swapHandles h g =>
    match w.hs[h]?, w.hs[g]? with
    | some nh, some ng => .ok ({ w with hs := (w.hs.set h ng).set g nh }, ⟨0, true⟩)
    | _, _ => .ub
  | .erase i x =>
    match w.cs[i]? with
    | none => .ub
    | some c => w.put i (c.erase w.m x)
  | .clear i =>
    match w.cs[i]? with
    | none => .ub
    | some c => w.put i (c.clear w.m)
  | .destroy i =>   -- multi_index_container.hpp:338-341, header_holder.hpp:37
    match w.cs[i]? with
    | none => .ub
    | some c =>
      match c.deleteAll w.m with
      | .ok m =>
        match m.deallocate c.hd with
        | none => .ub
        | some m => .ok ({ w with m := m, cs := w.cs.eraseIdx i }, ⟨0, true⟩)
      | .threw _ => .hang
      | .ub => .ub
      | .hang => .hang
  | .replace i x v a e =>
    match w.cs[i]? with
    | none => .ub
    | some c => w.put i (c.replace w.m x v a e)
  | .modify i x mod e =>
    match w.cs[i]? with
    | none => .ub
    | some c => w.put i (c.modify w.m x mod e)
  | .modifyRb i x mod back e e' =>
    match w.cs[i]? with
    | none => .ub
    | some c => w.put i (c.modifyRb w.m x mod back e e')
  | .transfer i j x e =>
    match w.cs[i]?, w.cs[j]? with
    | some c, some d =>
      match c.transfer w.m d x e with
      | .ok (r, d) => .ok ({ w with m := r.m, cs := (w.cs.set i r.c).set j d }, ⟨r.pos, r.b⟩)
      | .threw (r, d) => .threw ({ w with m := r.m, cs := (w.cs.set i r.c).set j d }, ⟨r.pos, r.b⟩)
      | .ub => .ub
      | .hang => .hang
    | _, _ => .ub
  | .swap i j =>
    match w.cs[i]?, w.cs[j]? with
    | some c, some d =>
      match c.swap d with
      | none => .ub
      | some (c, d) => .ok ({ w with cs := (w.cs.set i c).set j d }, ⟨0, true⟩)
    | _, _ => .ub
  | .copy i hd z ns e F =>
    match w.cs[i]? with
    | none => .ub
    | some c => w.add (c.copy w.m hd z ns e F)
  | .newLike i hd z pol e F =>
    match w.cs[i]? with
    | none => .ub
    | some c => w.add (c.newLike w.m hd z pol e F)
  | .swapElements i j =>
    match w.cs[i]?, w.cs[j]? with
    | some c, some d =>
      match c.swapElements d with
      | none => .ub
      | some (c, d) => .ok ({ w with cs := (w.cs.set i c).set j d }, ⟨0, true⟩)
    | _, _ => .ub
  | .relocate i k pos x =>
    match w.cs[i]? with
    | none => .ub
    | some c =>
      match c.ls[k]? with
      | none => .ub
      | some L =>
        match L.relocate pos x with
        | none => .ub
        | some L => .ok ({ w with cs := w.cs.set i { c with ls := c.ls.set k L } }, ⟨x, true⟩)
  | .rearrange i k a =>
    match w.cs[i]? with
    | none => .ub
    | some c =>
      match c.ls[k]? with
      | none => .ub
      | some L =>
        match L.rearrange c.budget c.hd w.m.val a with
        | .ok L => .ok ({ w with cs := w.cs.set i { c with ls := c.ls.set k L } }, ⟨0, true⟩)
        | .threw L => .threw ({ w with cs := w.cs.set i { c with ls := c.ls.set k L } }, ⟨0, true⟩)
        | .ub => .ub
        | .hang => .hang
  | .place i k fail ins =>
    match w.cs[i]? with
    | none => .ub
    | some c =>
      match c.ls[k]? with
      | none => .ub
      | some L =>
        match L.place c.budget c.hd w.m.val fail ins with
        | .ok L => .ok ({ w with cs := w.cs.set i { c with ls := c.ls.set k L } }, ⟨0, true⟩)
        | .threw L => .threw ({ w with cs := w.cs.set i { c with ls := c.ls.set k L } }, ⟨0, true⟩)
        | .ub => .ub
        | .hang => .hang
  | .rehash i k n e =>
    match w.cs[i]? with
    | none => .ub
    | some c =>
      match c.ls[k]? with
      | none => .ub
      | some L =>
        match L.rehash c.hd w.m.val c.count n e with
        | .ok L => .ok ({ w with cs := w.cs.set i { c with ls := c.ls.set k L } }, ⟨0, true⟩)
        | .threw L => .threw ({ w with cs := w.cs.set i { c with ls := c.ls.set k L } }, ⟨0, true⟩)
        | .ub => .ub
        | .hang => .hang

/-! ## What a program may do -/

/-- What a user sees by traversing each index from `begin()` to `end()`. -/
def Container.seqs (c : Container V) : List (List Id) := c.ls.map fun L => (L.walk c.budget c.hd).getD []

/-- The elements of a container: those a traversal of its first index meets. -/
def Container.elems (c : Container V) : List Id := c.seqs.headD []

/-- The address `x`, returned by an allocation, is new: not null, not allocated, not in a bucket array. -/
def World.Fresh (w : World V) (x : Id) : Prop := x ≠ 0 ∧ x ∉ w.m.alloc ∧ ∀ c ∈ w.cs, ∀ L ∈ c.ls, L.Avoids x

/-- A hint is an iterator of the container, or its end. -/
def Container.HintOk (c : Container V) (hint : Option Id) : Prop := ∀ p, hint = some p → p ∈ c.hd :: c.elems

/-- Two values have the same key, as far as an index can tell. -/
def Spec.SameKey (v w : V) : Spec V → Prop
  | .ord _ lt => equivOf lt v w = true
  | .hash _ eq _ => eq v w = true
  | _ => True

/-- The documented requirement on the rollback function: calling `mod` and then `back` restores all keys. -/
def Restores (Ss : List (Spec V)) (mod back : V → V × Bool) (v : V) : Prop := ∀ S ∈ Ss, S.SameKey (back (mod v).1).1 v

/-- Requirements on the constructor arguments of an index: the documentation's requirements on user functions, and the bucket
array is in new memory. -/
def Init.Ok (w : World V) (hd : Id) : Init V → Prop
  | .ord _ lt => StrictWeak lt
  | .hash _ eq hf _ n base => EqHash eq hf ∧ 0 < base ∧ ∀ z ∈ hd :: w.m.alloc, z < base ∨ base + Hash.sizeFor Hash.sizes n < z
  | _ => True

/-- The new bucket array of a rehash is in new memory. -/
def Layer.RehashOk (hd : Id) (size n : Nat) (pool : List Id) (e : Env) : Layer V → Prop
  | .hash _ _ _ pol _ _ a => Hash.NewMem a ⟨e.base, Hash.sizeFor Hash.sizes (max (pol.grow size) n)⟩ hd e.cpy pool
  | _ => False

/-- `p` stands right before the elements `v` (`v` empty: it is `end()`), `hd` being `end()`. -/
def At (hd p : Id) (v : List Id) : Prop := p = v.headD hd

/-- The preconditions of a rearrangement of a sequence `xs`. -/
def Rearr.Ok (hd : Id) (xs : List Id) (S : Spec V) : Rearr V → Prop
  | .relocateRange pos first last => ∃ u blk v s t, xs = u ++ blk ++ v ∧ u ++ v = s ++ t ∧ At hd pos t ∧ At hd first (blk ++ v) ∧ At hd last v
  | .reverse => True
  | .rearrange vs => vs.Perm xs
  | .splice pos vs => pos ∈ hd :: xs ∧ pos ∉ vs ∧ vs.Nodup ∧ ∀ x ∈ vs, x ∈ xs
  | .sort _ carry cid ssort => carry ∉ hd :: xs ∧ (∀ i j, cid i = cid j → i = j) ∧ (∀ i, cid i ∉ hd :: carry :: xs) ∧
    ∀ ys, ssort xs = some ys → ys.Perm xs
  | .reserve _ _ _ | .shrink _ _ | .remove _ | .unique _ => S = .rnd
  | .merge n _ _ => S = .rnd ∧ n ≤ xs.length

/-- What a rearrangement that returns does to a sequence `xs`. -/
def Rearr.Does (hd : Id) (val : Id → V) (S : Spec V) (xs xs' : List Id) : Rearr V → Prop
  | .relocateRange pos first last => ∃ u blk v s t, xs = u ++ blk ++ v ∧ u ++ v = s ++ t ∧ At hd pos t ∧ At hd first (blk ++ v) ∧ At hd last v ∧
    xs' = s ++ blk ++ t
  | .reverse => xs' = xs.reverse
  | .rearrange vs => xs' = vs
  | .splice pos vs => ∃ s t, xs = s ++ t ∧ At hd pos t ∧ xs' = s.filter (· ∉ vs) ++ vs ++ t.filter (· ∉ vs)
  | .sort cmp _ _ ssort =>
    match S with
    | .seq => ∀ lt, StrictWeak lt → (∀ t v w, cmp t v w = some (lt v w)) → Sorted (fun x y => lt (val x) (val y)) xs'
    | _ => xs.length ≤ 1 ∧ xs' = xs ∨ ssort xs = some xs'
  | .reserve _ _ _ | .shrink _ _ => xs' = xs
  | .remove pred => ∃ kept gone g, Sift (fun t _ x => pred t (val x)) 0 hd xs kept gone ∧ g.Perm gone ∧ xs' = kept ++ g
  | .unique pred => (xs = [] ∧ xs' = []) ∨
    ∃ f ys kept gone g, xs = f :: ys ∧ Sift (fun t l x => pred t (val l) (val x)) 0 f ys kept gone ∧ g.Perm gone ∧ xs' = f :: kept ++ g
  | .merge n cmp _ => Merges (fun t y x => cmp t (val y) (val x)) 0 (xs.take n) (xs.drop n) xs'

/-- Why a rearrangement of a sequence `xs` may throw, and what the sequence `xs'` is then known to be, apart from a permutation: the others never throw. -/
def Rearr.Fails (hd : Id) (val : Id → V) (S : Spec V) (xs xs' : List Id) : Rearr V → Prop
  | .sort cmp _ _ ssort => (S = .seq ∧ ∃ t v w, cmp t v w = none) ∨ (S = .rnd ∧ ssort xs = none ∧ xs' = xs)
  | .reserve _ fail _ | .shrink fail _ => fail = true ∧ xs' = xs
  | .remove pred => ∃ done kept gone, SiftStops (fun t _ x => pred t (val x)) 0 hd xs done kept gone
  | .unique pred => ∃ f ys done kept gone, xs = f :: ys ∧ SiftStops (fun t l x => pred t (val l) (val x)) 0 f ys done kept gone
  | .merge _ cmp fail => ((∃ t v w, cmp t v w = none) ∨ fail = true) ∧ xs' = xs
  | _ => False

/-- `x` has been taken out and put back before `pos` (the header: at the end). -/
def PutBefore (hd pos x : Id) (xs xs' : List Id) : Prop :=
  (pos = x ∧ xs' = xs) ∨ (pos ≠ x ∧ ∃ p q, xs.erase x = p ++ q ∧ xs' = p ++ x :: q ∧ q.headD hd = pos)

/-- The preconditions of an operation, and what may be assumed of memory allocation. -/
def World.Legal (w : World V) : Op V → Prop
  | .new hd _ is => w.Fresh hd ∧ is ≠ [] ∧ ∀ a ∈ is, a.Ok w hd
  | .insert i _ x _ hint e => ∃ c, w.cs[i]? = some c ∧ w.Fresh x ∧ c.HintOk hint ∧ EnvAll c.hd c.count (x :: w.m.alloc) e c.ls
  | .emplace i _ x _ hint e => ∃ c, w.cs[i]? = some c ∧ w.Fresh x ∧ c.HintOk hint ∧ EnvAll c.hd c.count (x :: w.m.alloc) e c.ls
  | .extract i x => ∃ c, w.cs[i]? = some c ∧ x ∈ c.elems
  | .insertNh i h hint e => ∃ c, w.cs[i]? = some c ∧ h < w.hs.length ∧ c.HintOk hint ∧ EnvAll c.hd c.count w.m.alloc e c.ls
  | .dropHandle h => h < w.hs.length
  | .moveHandle h g => h < w.hs.length ∧ g < w.hs.length
  | .newHandle => True
  | .swapHandles h g => h < w.hs.length ∧ g < w.hs.length
  | .erase i x => ∃ c, w.cs[i]? = some c ∧ x ∈ c.elems
  | .clear i => i < w.cs.length
  | .destroy i => i < w.cs.length
  | .replace i x _ _ _ => ∃ c, w.cs[i]? = some c ∧ x ∈ c.elems
  | .modify i x _ _ => ∃ c, w.cs[i]? = some c ∧ x ∈ c.elems
  | .modifyRb i x mod back e _ => ∃ c, w.cs[i]? = some c ∧ x ∈ c.elems ∧
    (Restores (c.ls.map Layer.spec) mod back (w.m.val x) ∨ ∀ k, (e k).Quiet)
  | .transfer i j x e => i ≠ j ∧ ∃ c d, w.cs[i]? = some c ∧ w.cs[j]? = some d ∧ x ∈ d.elems ∧ EnvAll c.hd c.count w.m.alloc e c.ls
  | .swap i j => ∃ c d, w.cs[i]? = some c ∧ w.cs[j]? = some d ∧ c.kinds = d.kinds
  | .copy i hd _ ns e _ => ∃ c, w.cs[i]? = some c ∧ ns.length = c.count ∧ (hd :: ns).Nodup ∧ (∀ n ∈ hd :: ns, w.Fresh n) ∧
    CopyAll (hd :: ns ++ w.m.alloc) e c.ls
  | .newLike i hd _ _ e _ => ∃ c, w.cs[i]? = some c ∧ w.Fresh hd ∧ BlankAll (hd :: w.m.alloc) e c.ls
  | .swapElements i j => ∃ c d, w.cs[i]? = some c ∧ w.cs[j]? = some d ∧ c.ls.map Layer.spec = d.ls.map Layer.spec
  | .relocate i k pos x => ∃ c L, w.cs[i]? = some c ∧ c.ls[k]? = some L ∧ L.keyed = false ∧ x ∈ c.elems ∧ pos ∈ c.hd :: c.elems
  | .rearrange i k a => ∃ c L xs, w.cs[i]? = some c ∧ c.ls[k]? = some L ∧ L.keyed = false ∧ c.seqs[k]? = some xs ∧ a.Ok c.hd xs L.spec
  | .place i k _ ins => ∃ c L, w.cs[i]? = some c ∧ c.ls[k]? = some L ∧ ∀ a ∈ ins, a.2 ∈ c.elems ∧ ∀ q ∈ a.1, q ∈ c.elems ∧ q ≠ a.2
  | .rehash i k n e => ∃ c L, w.cs[i]? = some c ∧ c.ls[k]? = some L ∧ L.RehashOk c.hd c.count n w.m.alloc e

/-- The states a program can be in: from no container and no handle, by legal operations, each of which returned or threw. -/
inductive Reach : World V → Prop where
  | init (val : Id → V) : Reach ⟨⟨val, [], []⟩, [], []⟩
  | step {w w' : World V} {o : Op V} {r : Ret} : Reach w → w.Legal o → (w.step o = .ok (w', r) ∨ w.step o = .threw (w', r)) → Reach w'

end MI.Cont
