import Verif.Cont.Effect
import Verif.Cont.ApiSpec
/-!
An ideal container: what a programmer who knows the documentation has in mind. It has no nodes, links, trees, buckets or pointer arrays: each index is a plain
list of elements, and each operation is a function on lists that can be read, and executed, in isolation. `Follows` runs a program on the model of the
code and on ideal containers side by side.

Elements are identified by their addresses. The order of a hashed index is not determined by its documentation, so that the list of an ideal hashed index
stands for the set of its elements.
-/
namespace MI.Ideal
open MI MI.Cont
variable {V : Type}

/-- An index: its specifier, and its elements in order. -/
abbrev Index (V : Type) := Spec V × List Id

/-- A container. -/
abbrev Box (V : Type) := List (Index V)

/-- A program: the values of the elements, the containers, and the node handles. -/
structure State (V : Type) where
  val : Id → V
  boxes : List (Box V)
  hs : List (Option Id)

/-- The element that forbids the insertion of the value `v`: that with an equivalent key in the first unique index that has one. -/
def obstacle (val : Id → V) (v : V) (b : Box V) : Option Id :=
  b.findSome? fun (S, xs) => if S.unique then xs.find? (fun y => S.equiv v (val y)) else none

/-- Insertion into a sorted list. The element may be put after `lo` up to `up` elements. Without a hint: as late as possible; with a hint (the position
before `p`, or the end if there is no `p`): as near to the hint as possible. -/
def place (lt : V → V → Bool) (val : Id → V) (hint : Option Id) (x : Id) (xs : List Id) : List Id :=
  let lo := xs.countP fun y => lt (val y) (val x)
  let up := xs.countP fun y => !lt (val x) (val y)
  let k := match hint with
    | none => up
    | some p => max lo (min (xs.idxOf p) up)
  xs.take k ++ x :: xs.drop k

/-- Insertion into an index. -/
def put (val : Id → V) (hint : Option Id) (x : Id) : Index V → Index V
  | (.ord u lt, xs) => (.ord u lt, place lt val hint x xs)
  | (.hash c eq hf, xs) => (.hash c eq hf, x :: xs)
  | (S, xs) => (S, xs ++ [x])

/-- Insertion into a container. -/
def add (val : Id → V) (hint : Option Id) (x : Id) (b : Box V) : Box V := b.map (put val hint x)

/-- Removal from a container. -/
def drop (x : Id) (b : Box V) : Box V := b.map fun (S, xs) => (S, xs.erase x)

/-- A sorted list; strictly, if the index is unique. -/
def sorted (u : Bool) (lt : V → V → Bool) (val : Id → V) (xs : List Id) : Bool :=
  decide (xs.Pairwise fun a b => (if u then lt (val a) (val b) else !lt (val b) (val a)) = true)

/-- The value of `x` has become `val x`: ordered indices move `x`, if they are no longer sorted. -/
def move (val : Id → V) (x : Id) : Index V → Index V
  | (.ord u lt, xs) => (.ord u lt, if sorted u lt val xs then xs else place lt val none x (xs.erase x))
  | i => i

/-- `x` put before `pos` (if there is no `pos`: at the end). -/
def putBefore (pos x : Id) (xs : List Id) : List Id :=
  if pos = x then xs
  else
    let ys := xs.erase x
    ys.take (ys.idxOf pos) ++ x :: ys.drop (ys.idxOf pos)

/-- Two lists merged: each element of the first one goes after the leading elements of (what is left of) the second one that are less. -/
def merge (less : Id → Id → Bool) : List Id → List Id → List Id
  | [], ys => ys
  | x :: xs, ys => ys.takeWhile (less · x) ++ x :: merge less xs (ys.dropWhile (less · x))

/-- A stable sort: each element goes before the first of the sorted elements after it that is not less. -/
def sort (less : Id → Id → Bool) : List Id → List Id
  | [] => []
  | x :: xs => merge less [x] (sort less xs)

/-- Rearrangements of sequenced and random access indices. -/
def rearrange (val : Id → V) (xs : List Id) : Rearr V → Option (List Id)
  | .relocateRange pos first last =>
    let f := xs.idxOf first
    let l := xs.idxOf last
    let ys := xs.take f ++ xs.drop l
    some (ys.take (ys.idxOf pos) ++ (xs.take l).drop f ++ ys.drop (ys.idxOf pos))
  | .reverse => some xs.reverse
  | .rearrange vs => some vs
  | .splice pos vs => some ((xs.take (xs.idxOf pos)).filter (· ∉ vs) ++ vs ++ (xs.drop (xs.idxOf pos)).filter (· ∉ vs))
  | .sort cmp _ _ _ => some (sort (fun x y => cmp 0 (val x) (val y) = some true) xs)
  | .merge n cmp _ => some (merge (fun x y => cmp 0 (val x) (val y) = some true) (xs.take n) (xs.drop n))
  | .reserve _ _ _ | .shrink _ _ => some xs
  | .remove _ | .unique _ => none

namespace State

/-- The element `x`, with the value `val x`, is offered to container `i`. -/
def enter (a : State V) (i : Nat) (hint : Option Id) (x : Id) : Option (State V × Bool × Option Id) :=
  match a.boxes[i]? with
  | none => none
  | some b =>
    match obstacle a.val (a.val x) b with
    | some y => some (a, false, some y)
    | none => some ({ a with boxes := a.boxes.set i (add a.val hint x b) }, true, some x)

/-- The element `x` leaves container `i`. -/
def leave (a : State V) (i : Nat) (x : Id) : Option (State V) :=
  match a.boxes[i]? with
  | none => none
  | some b => some { a with boxes := a.boxes.set i (drop x b) }

/-- The value of the element `x` of container `i` becomes `v`, unless another element of a unique index has an equivalent key; then, `no` is what happens. -/
def change (a : State V) (i : Nat) (x : Id) (v : V) (no : Option (State V)) : Option (State V × Bool × Option Id) :=
  match a.boxes[i]? with
  | none => none
  | some b =>
    match obstacle a.val v (drop x b) with
    | some _ => no.map fun a => (a, false, none)
    | none => some ({ a with val := upd a.val x v, boxes := a.boxes.set i (b.map (move (upd a.val x v) x)) }, true, some x)

/-- A new container with the given indices. -/
def addBox (a : State V) (Ss : List (Spec V)) : State V := { a with boxes := a.boxes ++ [Ss.map fun S => (S, [])] }

/-- Containers `i` and `j` exchange their contents. -/
def exchange (a : State V) (i j : Nat) : Option (State V) :=
  match a.boxes[i]?, a.boxes[j]? with
  | some b, some d => some { a with boxes := (a.boxes.set i d).set j b }
  | _, _ => none

/-- A new container that is a copy of container `i`; the copies of the elements, in the order of the first index, are `ns`. -/
def copy (a : State V) (i : Nat) (ns : List Id) : Option (State V) :=
  match a.boxes[i]? with
  | some ((S, xs) :: b) => some { a with
      val := fun z => if z ∈ ns then a.val (xs.getD (ns.idxOf z) z) else a.val z
      boxes := a.boxes ++ [((S, xs) :: b).map fun (T, ys) => (T, ys.map fun z => ns.getD (xs.idxOf z) z)] }
  | _ => none

/-- Index `k` of container `i` is given another order. -/
def reorder (a : State V) (i k : Nat) (f : Spec V → List Id → Option (List Id)) : Option (State V) :=
  match a.boxes[i]? with
  | none => none
  | some b =>
    match b[k]? with
    | none => none
    | some (S, xs) =>
      match f S xs with
      | none => none
      | some ys => some { a with boxes := a.boxes.set i (b.set k (S, ys)) }

/-- An operation that returns: the state it leads to, the boolean it returns, and the element it returns an iterator to, if any. -/
def step (a : State V) : Op V → Option (State V × Bool × Option Id)
  | .new _ _ is => some (a.addBox (is.map Init.spec), true, none)
  | .insert i v x _ hint _ | .emplace i v x _ hint _ => { a with val := upd a.val x v }.enter i hint x
  | .extract i x => (a.leave i x).map fun a => ({ a with hs := a.hs ++ [some x] }, true, some x)
  | .insertNh i h hint _ =>
    match a.hs[h]? with
    | none => none
    | some none => some (a, false, none)
    | some (some x) =>
      (a.enter i hint x).map fun (a, b, p) => (if b then { a with hs := a.hs.set h none } else a, b, p)
  | .dropHandle h => some ({ a with hs := a.hs.set h none }, true, none)
  | .moveHandle h g =>
    match a.hs[g]? with
    | none => none
    | some ng => some (if h = g then a else { a with hs := (a.hs.set h ng).set g none }, true, none)
  | .newHandle => some ({ a with hs := a.hs ++ [none] }, true, none)
  | .swapHandles h g =>
    match a.hs[h]?, a.hs[g]? with
    | some nh, some ng => some ({ a with hs := (a.hs.set h ng).set g nh }, true, none)
    | _, _ => none
  | .erase i x => (a.leave i x).map fun a => (a, true, none)
  | .clear i =>
    match a.boxes[i]? with
    | none => none
    | some b => some ({ a with boxes := a.boxes.set i (b.map fun (S, _) => (S, [])) }, true, none)
  | .destroy i => some ({ a with boxes := a.boxes.eraseIdx i }, true, none)
  | .replace i x v _ _ => a.change i x v (some a)
  | .modify i x mod _ => a.change i x (mod (a.val x)).1 (a.leave i x)
  | .modifyRb i x mod back _ _ => a.change i x (mod (a.val x)).1 (some { a with val := upd a.val x (back (mod (a.val x)).1).1 })
  | .transfer i j x _ =>
    match a.enter i none x with
    | some (a, true, p) => (a.leave j x).map fun a => (a, true, p)
    | o => o
  | .swap i j | .swapElements i j => (a.exchange i j).map fun a => (a, true, none)
  | .copy i _ _ ns _ _ => (a.copy i ns).map fun a => (a, true, none)
  | .newLike i _ _ _ _ _ =>
    match a.boxes[i]? with
    | none => none
    | some b => some (a.addBox (b.map Prod.fst), true, none)
  | .relocate i k pos x => (a.reorder i k fun _ xs => some (putBefore pos x xs)).map fun a => (a, true, some x)
  | .rearrange i k r => (a.reorder i k fun _ xs => rearrange a.val xs r).map fun a => (a, true, none)
  | .rehash _ _ _ _ => some (a, true, none)
  | .place i k _ ins => (a.reorder i k fun S xs => some (S.moves a.val xs ins).1).map fun a => (a, true, none)

/-- An operation that throws: `modify` erases the element; loading from an archive that contradicts the order of keys leaves what has been rearranged so far;
everything else that may throw has no effect. -/
def fail (a : State V) : Op V → Option (State V)
  | .modify i x _ _ | .modifyRb i x _ _ _ _ => a.leave i x
  | .insert .. | .emplace .. | .insertNh .. | .replace .. | .transfer .. | .copy .. | .newLike .. | .rehash .. => some a
  | .rearrange _ _ (.reserve ..) | .rearrange _ _ (.shrink ..) | .rearrange _ _ (.sort ..) | .rearrange _ _ (.merge ..) => some a
  | .place i k _ ins => a.reorder i k fun S xs => some (if (S.moves a.val xs ins).2 then xs else (S.moves a.val xs ins).1)
  | _ => none

/-- The operations considered: all except `remove` and `unique` of random access indices, which first move the elements to be erased to the end, in an order
that is not specified. The comparison `sort` is given must be a strict weak order, that of `merge` must return, and its answers not depend on time; `std::stable_sort`, which `sort` of a random access
index calls, must do what it is specified to do; and sorting a sequenced index, which need not be stable, must find no two equivalent elements. The
rollback function of `modify` must do what it is documented to do. In a container to be copied, the first index is not hashed, so that the
order in which copies are made is determined. While loading, only random access indices allocate memory. -/
def Covers (a : State V) : Op V → Prop
  | .place i k fail _ => fail = true → ∀ b S xs, a.boxes[i]? = some b → b[k]? = some (S, xs) → S = .rnd
  | .rearrange i k (.sort cmp _ _ ssort) => ∃ lt, StrictWeak lt ∧ (∀ t v w, cmp t v w = some (lt v w)) ∧ ∀ b S xs, a.boxes[i]? = some b → b[k]? = some (S, xs) →
    match S with
    | .seq => ∀ x ∈ xs, ∀ y ∈ xs, equivOf lt (a.val x) (a.val y) = true → x = y
    | _ => ∀ ys, ssort xs = some ys → Sorted (fun x y => lt (a.val x) (a.val y)) ys ∧ StableOf (fun x y => lt (a.val x) (a.val y)) xs ys
  | .rearrange _ _ (.merge _ cmp _) => ∃ lt : V → V → Bool, ∀ t v w, cmp t v w = some (lt v w)
  | .rearrange _ _ (.remove _) | .rearrange _ _ (.unique _) => False
  | .modifyRb i x mod back _ _ => ∀ b, a.boxes[i]? = some b → Restores (b.map Prod.fst) mod back (a.val x)
  | .copy i _ _ _ _ _ => ∀ n eq hf xs b, a.boxes[i]? ≠ some ((.hash n eq hf, xs) :: b)
  | _ => True

end State

/-- A program on the model of the code (left) and on ideal containers (right). Whether a call throws is decided on the left. -/
inductive Follows : World V → State V → Prop
  | init (val val' : Id → V) : Follows ⟨⟨val, [], []⟩, [], []⟩ ⟨val', [], []⟩
  | returns {w w' : World V} {a a' : State V} {o : Op V} {r : Ret} {b : Bool} {p : Option Id} : Follows w a → w.Legal o → a.Covers o →
    w.step o = .ok (w', r) → a.step o = some (a', b, p) → Follows w' a'
  | throws {w w' : World V} {a a' : State V} {o : Op V} {r : Ret} : Follows w a → w.Legal o → a.Covers o →
    w.step o = .threw (w', r) → a.fail o = some a' → Follows w' a'

/-- What a traversal of an index meets (`ys`) is what its ideal (`xs`) says. -/
def Shows (xs ys : List Id) : Spec V → Prop
  | .hash _ _ _ => ys.Perm xs
  | _ => ys = xs

/-- A container is as its ideal says: the same indices, and traversals meet the same elements. -/
structure Looks (c : Container V) (b : Box V) : Prop where
  asked : b.map Prod.fst = c.asked
  seqs : ∀ (k : Nat) (S : Spec V) (xs ys : List Id), b[k]? = some (S, xs) → c.seqs[k]? = some ys → Shows xs ys S

/-- A program is as its ideal says: elements have the same values, containers look the same, handles own the same elements. -/
structure Agrees (w : World V) (a : State V) : Prop where
  val : ∀ z ∈ w.m.cons, a.val z = w.m.val z
  hs : a.hs = w.hs
  len : a.boxes.length = w.cs.length
  boxes : ∀ (i : Nat) (c : Container V) (b : Box V), w.cs[i]? = some c → a.boxes[i]? = some b → Looks c b

end MI.Ideal
