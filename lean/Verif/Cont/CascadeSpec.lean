import Verif.Cont.Spec
/-!
Specification vocabulary for chains of indices. `els` is the set of elements of a container (as a list without meaning to its
order), `xss` the list of the sequences of its indices.
-/
namespace MI.Cont
open MI
variable {V : Type}

/-- A relation between the sequences of each index before and after. -/
def Each (R : Spec V → List Id → List Id → Prop) : List (Spec V) → List (List Id) → List (List Id) → Prop
  | [], [], [] => True
  | S :: Ss, xs :: xss, ys :: yss => R S xs ys ∧ Each R Ss xss yss
  | _, _, _ => False

/-- Some unique index has, among `els`, an element whose key is equivalent to that of `v`. -/
def Banned (Ss : List (Spec V)) (val : Id → V) (els : List Id) (v : V) : Prop :=
  ∃ S ∈ Ss, S.unique = true ∧ ∃ y ∈ els, S.equiv v (val y) = true

/-- Effect of an insertion on one index: `x` has been added, at the place prescribed; the others are as
they were. -/
def Added (val : Id → V) (hint : Option Id) (x : Id) (S : Spec V) (xs xs' : List Id) : Prop :=
  ∃ u v, xs' = u ++ x :: v ∧ S.Same val xs (u ++ v) ∧ S.Where val hint x u v

/-- Effect of a change of the value of `x`, from `v0`, on one index: only `x` may have moved. Sequenced, random access: nothing moves. Ordered:
`x` moves only if it has to, to the place where it would be inserted. Hashed: `x` does not move if its key is as it was. -/
def Moved (v0 : V) (val : Id → V) (x : Id) (S : Spec V) (xs xs' : List Id) : Prop :=
  ∃ u v, xs.erase x = u ++ v ∧ xs' = u ++ x :: v ∧
    match S with
    | .ord _ _ => (S.Good val xs → xs' = xs) ∧ (¬ S.Good val xs → S.Where val none x u v)
    | .hash _ eq _ => eq (val x) v0 = true → xs' = xs
    | _ => xs' = xs

/-- The indices `Ls` are well formed, their sequences are `xss`, all of them arrangements of `els`. -/
structure Fit (val : Id → V) (hd : Id) (els : List Id) (Ls : List (Layer V)) (xss : List (List Id)) : Prop where
  holds : List.Forall₂ (fun (L : Layer V) xs => L.Holds val hd xs) Ls xss
  perm : ∀ xs ∈ xss, xs.Perm els

/-- No bucket array of `Ls` overlaps a node of `pool`. -/
def Clear (pool : List Id) (Ls : List (Layer V)) : Prop := ∀ z ∈ pool, ∀ L ∈ Ls, L.Avoids z

/-- The environment supplies fresh memory to each index. -/
def EnvAll (hd : Id) (size : Nat) (pool : List Id) : (Nat → Env) → List (Layer V) → Prop
  | _, [] => True
  | e, L :: Ls => L.EnvOk hd size pool (e 0) ∧ EnvAll hd size pool (fun i => e (i + 1)) Ls

/-- No allocation and no user call throws. -/
def Env.Quiet (e : Env) : Prop := e.allocFail = false ∧ e.hashThrow = none ∧ e.point = false ∧ e.place = false

/-- All requirements on user-supplied functions are met. -/
def OkAll (Ss : List (Spec V)) : Prop := ∀ S ∈ Ss, S.Ok

end MI.Cont
