import Verif.Ser.Archive
import Verif.Cont.Wild
/-!
Model of `load` of `multi_index_container` with every call of a comparison object, equality predicate, hash function or key extractor explicit, so that it may be answered
anyhow, or throw. Otherwise as in `Verif/Ser/Archive.lean`.
-/
namespace MI.Ser
open MI MI.Cont
variable {V : Type}

/-- The loop that loads the elements: multi_index_container.hpp:1176–1187 (see `loadItems`). -/
def loadItemsR (H : Host V) (i : Nat) (hd : Id) : Nat → World V → List V → List Id → Nat → Runs (UserCall V) (Out (World V × List Id))
  | 0, w, _, es, _ => return .ok (w, es)
  | _ + 1, w, [], es, _ => return .threw (w, es)
  | n + 1, w, v :: vs, es, t => do
    match ← w.stepR (.insert i v (H.node w t) (H.fault w t) (some hd) (H.env w t)) with
    | .ok (w, r) => if r.b then loadItemsR H i hd n w vs (es ++ [r.pos]) (t + 1) else return .threw (w, es)
    | .threw (w, _) => return .threw (w, es)
    | .ub => return .ub
    | .hang => return .hang

/-- What is left to read after the pointers of one index, given the outcome of the instructions (`cut`: reading the archive threw; `good`: all pointers were to elements). -/
def afterIndex (cut good : Bool) (ts : List (Option Id)) : Out (World V × Ret) → Out (World V × List (Option Id))
  | .ok (w, _) => if cut = false ∧ good = true then .ok (w, ts) else .threw (w, ts)
  | .threw (w, _) => .threw (w, ts)
  | .ub => .ub
  | .hang => .hang

/-- `load_` of index `k` (see `loadIndex`). Here `f.cut k` is the number of elements that index `k` has rearranged when reading the archive throws. -/
def loadIndexR (f : Mishap) (w : World V) (i k : Nat) (es : List Id) (ts : List (Option Id)) : Runs (UserCall V) (Out (World V × List (Option Id))) :=
  match w.cs[i]? with
  | none => return .ub
  | some c =>
    match c.ls[k]? with
    | none => return .ub
    | some L =>
      if hasStream L then
        let r := parse (sortEntries es) none ts
        match f.cut k with
        | some n => do return afterIndex true r.2.1 r.2.2 (← w.placeR i k (f.fail k) (r.1.take n))
        | none => do return afterIndex false r.2.1 r.2.2 (← w.placeR i k (f.fail k) r.1)
      else return .ok (w, ts)

/-- `load_` of `n` indices, from index `k` on. -/
def loadIndicesR (f : Mishap) (i : Nat) (es : List Id) : Nat → Nat → World V → List (Option Id) → Runs (UserCall V) (Out (World V))
  | 0, _, w, _ => return .ok w
  | n + 1, k, w, ts => do
    match ← loadIndexR f w i k es ts with
    | .ok (w, ts) => loadIndicesR f i es n (k + 1) w ts
    | .threw (w, _) => return .threw w
    | .ub => return .ub
    | .hang => return .hang

/-- `load(ar,version)` for the current version: multi_index_container.hpp:1140–1192. -/
def loadR (H : Host V) (f : Mishap) (w : World V) (i : Nat) (A : Archive V) : Runs (UserCall V) (Out (World V)) := do
  match ← w.stepR (.clear i) with
  | .ok (w, _) =>
    match w.cs[i]? with
    | none => return .ub
    | some c =>
      match ← loadItemsR H i c.hd A.count w A.items [] 0 with
      | .ok (w, es) => loadIndicesR f i es c.ls.length 0 w (A.ptrs.map (Option.map fun n => es.getD n c.hd))
      | .threw (w, _) => return .threw w
      | .ub => return .ub
      | .hang => return .hang
  | .threw (w, _) => return .threw w
  | .ub => return .ub
  | .hang => return .hang

/-- The same memory; no user function throws. -/
def calmHost (H : Host V) : Host V := { H with env := fun w t => calmE (H.env w t) }

/-- Memory is new, in all states of programs with broken functions. -/
def WildHost (H : Host V) : Prop :=
  ∀ w, WildReach w → ∀ t, w.Fresh (H.node w t) ∧ ∀ c ∈ w.cs, EnvAll c.hd c.count (H.node w t :: w.m.alloc) (H.env w t) c.ls

end MI.Ser
