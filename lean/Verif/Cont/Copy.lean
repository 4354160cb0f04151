import Verif.Cont.Swap
import Verif.Cont.CopyModel
/-!
# Copying a container

Models the copy constructors of `multi_index_container` (multi_index_container.hpp:286-296, 308-317) and `copy_construct_from` (620-636): every
element is cloned, and then every index links the clones as the originals are linked.
-/
namespace MI.Cont
open MI
variable {V : Type}

/-- What can throw: the allocation of the header, the copy constructor of an index (of its functions, or the allocation of its array), the
allocation of the array of the copy map, and the creation of the `k`-th clone. -/
structure CopyFault where
  header : Bool := false
  index : Bool := false
  space : Bool := false
  clone : Nat → Fault := fun _ => {}

/-- The calls of `clone`: copy_map.hpp:139-161. `xs` are the elements still to be cloned, `ns` the addresses the allocations return, `es` the
entries so far; the `k`-th clone is made next. -/
def cloneAll (f : Nat → Fault) : Nat → Mem V → List Id → List Id → List (Id × Id) → Out (Mem V × List (Id × Id))
  | _, m, [], _, es => .ok (m, es)
  | _, _, _ :: _, [], _ => .hang
  | k, m, x :: xs, n :: ns, es =>
    match baseInsert (f k) m n (m.val x) with
    | .ok m => cloneAll f (k + 1) m xs ns (es ++ [(x, n)])
    | .threw m => .threw (m, es)
    | .ub => .ub
    | .hang => .hang

/-- Destructors of the header holder (header_holder.hpp:37): the header is deallocated and the exception goes on. -/
def dropHeader (m : Mem V) (hd : Id) : Out (Mem V × Option (Container V)) :=
  match m.deallocate hd with
  | none => .ub
  | some m => .threw (m, none)

/-- The copy of one index: copy constructors (ord_index_impl.hpp:737-748, hashed_index.hpp:767-785, sequenced_index.hpp:682-692,
random_access_index.hpp:767-778) and `copy_`. `find`, `es`: the copy map. `z`: what the memory of the new nodes holds beforehand, `e`: where
the new bucket array is, and what the new pointer array holds beforehand. -/
def Layer.copy (find : Id → Option Id) (es : List (Id × Id)) (n count : Nat) (hd hd' z : Id) (e : Env) : Layer V → Option (Layer V)
  | .ord u lt h => (Ord.copy find es h hd ⟨fun _ => z, fun _ => z, fun _ => z, fun _ => .red, fun _ => z⟩ hd').map (.ord u lt ·)
  | .hash c eq hf pol ml h a =>
    let b : Hash.Arr := ⟨e.base, Hash.sizeFor Hash.sizes a.size⟩
    (Hash.copy c find n h a count hd ⟨fun _ => z, fun _ => z⟩ b hd').map (.hash c eq hf pol ml · b)
  | .seq h => (Seq.copy find n h hd ⟨fun _ => z, fun _ => z⟩ hd').map .seq
  | .rnd s => (Rnd.copy find s count e.junk (fun _ => z) hd').map .rnd

/-- The copies of all indices. -/
def copyLs (find : Id → Option Id) (es : List (Id × Id)) (n count : Nat) (hd hd' z : Id) : (Nat → Env) → List (Layer V) → Option (List (Layer V))
  | _, [] => some []
  | e, L :: Ls =>
    match L.copy find es n count hd hd' z (e 0), copyLs find es n count hd hd' z (fun i => e (i + 1)) Ls with
    | some L, some Ls => some (L :: Ls)
    | _, _ => none

/-- The copy constructors. `hd'`, `ns`: the addresses returned for the header and the clones. The traversal of the first index, which goes on
while the clones are made and is not affected by them, is done first. The copy map destroys the clones if an exception passes
(copy_map.hpp:91-100); otherwise they are released to the indices. The result `none` means that there is no new container. -/
def Container.copy (m : Mem V) (c : Container V) (hd' z : Id) (ns : List Id) (e : Nat → Env) (F : CopyFault) : Out (Mem V × Option (Container V)) :=
  if F.header then .threw (m, none)
  else
    let m := m.allocate hd'
    if F.index || F.space then dropHeader m hd'
    else
      match c.ls with
      | [] => .ub
      | L :: _ =>
        match L.walk c.budget c.hd with
        | none => .hang
        | some xs =>
          match cloneAll F.clone 0 m xs ns [] with
          | .threw (m, es) =>
            match m.deleteNodes (es.map (·.2)) with
            | none => .ub
            | some m => dropHeader m hd'
          | .ok (m, es) =>
            let map : CopyMap := ⟨sortEntries c.count es, c.hd, hd'⟩
            match copyLs map.find map.entries c.budget c.count c.hd hd' z e c.ls with
            | none => .ub
            | some ls => .ok (m, some ⟨hd', ls, c.count⟩)
          | .ub => .ub
          | .hang => .hang

/-- The constructors of an empty container with the functions of `c` (Container.blank). -/
def Container.newLike (m : Mem V) (c : Container V) (hd' z : Id) (pol : Pol) (e : Nat → Env) (F : CopyFault) : Out (Mem V × Option (Container V)) :=
  if F.header then .threw (m, none)
  else
    let m := m.allocate hd'
    if F.index then dropHeader m hd'
    else .ok (m, some (c.blank hd' z pol e))

/-! ## What may be assumed of memory allocation -/

/-- The new bucket array is in new memory. -/
def Layer.CopyOk (pool : List Id) (e : Env) : Layer V → Prop
  | .hash _ _ _ _ _ _ a => 0 < e.base ∧ ∀ z ∈ pool, z < e.base ∨ e.base + a.size < z
  | _ => True

/-- The new bucket arrays are in new memory. -/
def CopyAll (pool : List Id) : (Nat → Env) → List (Layer V) → Prop
  | _, [] => True
  | e, L :: Ls => L.CopyOk pool (e 0) ∧ CopyAll pool (fun i => e (i + 1)) Ls

/-- The new bucket array, which has the least size, is in new memory. -/
def Layer.BlankOk (pool : List Id) (e : Env) : Layer V → Prop
  | .hash _ _ _ _ _ _ _ => 0 < e.base ∧ ∀ z ∈ pool, z < e.base ∨ e.base + Hash.sizeFor Hash.sizes 0 < z
  | _ => True

/-- The new bucket arrays are in new memory. -/
def BlankAll (pool : List Id) : (Nat → Env) → List (Layer V) → Prop
  | _, [] => True
  | e, L :: Ls => L.BlankOk pool (e 0) ∧ BlankAll pool (fun i => e (i + 1)) Ls

/-- `max_load_factor()` (as far as the model has it), the load at which the index grows, and `bucket_count()`. -/
def Layer.load : Layer V → Option (Pol × Nat × Nat)
  | .hash _ _ _ pol ml _ a => some (pol, ml, a.size)
  | _ => none

/-- Something throws while `n` elements are copied. -/
def CopyFault.Some (F : CopyFault) (n : Nat) : Prop :=
  F.header = true ∨ F.index = true ∨ F.space = true ∨ ∃ k < n, (F.clone k).alloc = true ∨ (F.clone k).construct = true

end MI.Cont
