import Verif.Cont.Container
/-!
# Swapping and moving containers

Models `swap_` and `swap_elements_` of `multi_index_container` and of the indices, member by member, and the constructors that copy
everything from a container but its elements. Headers, link fields (which are in the nodes the containers own), arrays, counts and user functions
are members; whether an index is unique is part of its type.
-/
namespace MI.Cont
open MI
variable {V : Type}

/-- The type of an index. -/
inductive Kind where
  | ord (u : Bool)
  | hash (c : Hash.Cat)
  | seq
  | rnd
deriving DecidableEq

/-- The type of an index. -/
def Layer.kind : Layer V → Kind
  | .ord u _ _ => .ord u
  | .hash c _ _ _ _ _ _ => .hash c
  | .seq _ => .seq
  | .rnd _ => .rnd

/-- The type of a container (as far as the indices go). -/
def Container.kinds (c : Container V) : List Kind := c.ls.map Layer.kind

/-- `swap_` of one index: ord_index_impl.hpp:909-922 (`key` and `comp_`: here one function), hashed_index.hpp:1026-1042 (`key`, `hash_`, `eq_`,
the bucket array, `mlf`, `max_load`; bucket_array.hpp:176-181), sequenced_index.hpp:790-798, random_access_index.hpp:877-887 (the pointer
array; rnd_index_ptr_array.hpp:113-119). The links go with the nodes, which are reached from the headers exchanged by the container. `none`: the types
differ, and such a call does not compile. -/
def Layer.swap : Layer V → Layer V → Option (Layer V × Layer V)
  | .ord u lt h, .ord u' lt' h' => if u = u' then some (.ord u lt' h', .ord u' lt h) else none
  | .hash c eq hf pol ml h a, .hash c' eq' hf' pol' ml' h' a' =>
    if c = c' then some (.hash c eq' hf' pol' ml' h' a', .hash c' eq hf pol ml h a) else none
  | .seq h, .seq h' => some (.seq h', .seq h)
  | .rnd s, .rnd s' => some (.rnd s', .rnd s)
  | _, _ => none

/-- `swap_elements_` of one index, which leaves user functions where they are: ord_index_impl.hpp:924-933, hashed_index.hpp:1044-1056,
sequenced_index.hpp:800-807, random_access_index.hpp:889-898. -/
def Layer.swapElements : Layer V → Layer V → Option (Layer V × Layer V)
  | .ord u lt h, .ord u' lt' h' => if u = u' then some (.ord u lt h', .ord u' lt' h) else none
  | .hash c eq hf pol ml h a, .hash c' eq' hf' pol' ml' h' a' =>
    if c = c' then some (.hash c eq hf pol' ml' h' a', .hash c' eq' hf' pol ml h a) else none
  | .seq h, .seq h' => some (.seq h', .seq h)
  | .rnd s, .rnd s' => some (.rnd s', .rnd s)
  | _, _ => none

/-- One index after another. -/
def swapLs (f : Layer V → Layer V → Option (Layer V × Layer V)) : List (Layer V) → List (Layer V) → Option (List (Layer V) × List (Layer V))
  | [], [] => some ([], [])
  | L :: Ls, M :: Ms =>
    match f L M, swapLs f Ls Ms with
    | some (L, M), some (Ls, Ms) => some (L :: Ls, M :: Ms)
    | _, _ => none
  | _, _ => none

/-- `swap_`: multi_index_container.hpp:987-1013. Allocators: see Verif/Alloc. -/
def Container.swap (c d : Container V) : Option (Container V × Container V) :=
  match swapLs Layer.swap c.ls d.ls with
  | none => none
  | some (ls, ms) => some (⟨d.hd, ls, d.count⟩, ⟨c.hd, ms, c.count⟩)

/-- `swap_elements_`: multi_index_container.hpp:1015-1021. -/
def Container.swapElements (c d : Container V) : Option (Container V × Container V) :=
  match swapLs Layer.swapElements c.ls d.ls with
  | none => none
  | some (ls, ms) => some (⟨d.hd, ls, d.count⟩, ⟨c.hd, ms, c.count⟩)

/-- The constructors of an index with a `do_not_copy_elements_tag`: ord_index_impl.hpp:750-762, hashed_index.hpp:787-803 (bucket count 0, and a
maximum load factor of 1, which `pol` stands for), sequenced_index.hpp:694-703, random_access_index.hpp:780-791. They do what those of an empty index do
with the functions of the original. -/
def Layer.blank (pol : Pol) (e : Env) : Layer V → Init V
  | .ord u lt _ => .ord u lt
  | .hash c eq hf _ _ _ _ => .hash c eq hf pol 0 e.base
  | .seq _ => .seq
  | .rnd _ => .rnd e.junk

/-- The same for all indices. -/
def blanks (pol : Pol) : (Nat → Env) → List (Layer V) → List (Init V)
  | _, [] => []
  | e, L :: Ls => L.blank pol (e 0) :: blanks pol (fun i => e (i + 1)) Ls

/-- The part of the move constructors (multi_index_container.hpp:297-306, 319-336) before the body, and the constructor 606-616: an
empty container with the functions of `c`. -/
def Container.blank (c : Container V) (hd z : Id) (pol : Pol) (e : Nat → Env) : Container V := Container.new hd z (blanks pol e c.ls)

end MI.Cont
