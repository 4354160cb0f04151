import Verif.Rnd.Model
import Verif.Spec.Lists
/-! Specification vocabulary for the random access index: which sequence an array represents, and the documented effect
of operations on sequences. -/
namespace MI.Rnd
open MI

/-- The array with header `hd` represents exactly the sequence `xs`: slot `i` holds the `i`-th element, slot `size()` the
header, every element (and the header) points back to its slot, and the size does not exceed the capacity. -/
def Rep (s : Arr) (hd : Id) (xs : List Id) : Prop :=
  s.size = xs.length ∧ s.size ≤ s.cap ∧
    ∀ i v, (xs ++ [hd])[i]? = some v → s.arr i = v ∧ s.up v = i

/-- What an insertion loop adds: the accepted nodes up to the first throw; and whether nothing threw. -/
def addedBy : List (Id × Option Bool) → List Id × Bool
  | [] => ([], true)
  | (_, none) :: _ => ([], false)
  | (x, some true) :: r => let q := addedBy r; (x :: q.1, q.2)
  | (_, some false) :: r => addedBy r

/-- What a range transfer moves: (nothing threw, moved). -/
def moved (dec : Id → Option Bool) : List Id → Bool × List Id
  | [] => (true, [])
  | x :: vs =>
    match dec x with
    | none => (false, [])
    | some true => let r := moved dec vs; (r.1, x :: r.2)
    | some false => moved dec vs

/-- The elements a user sees through `operator[]`. -/
def contents (s : Arr) : List Id := (List.range s.size).map s.arr

/-- Preconditions of the operations on a sequence `xs` (documented requirements on the arguments: valid positions, new
nodes are new, a rearrangement names all elements, `position` is not strictly inside a moved range). For `sort` the
requirement is on `std::stable_sort`: it returns a rearrangement. -/
def Legal (nul hd : Id) (xs : List Id) : Op → Prop
  | .insert p x _ => p ≤ xs.length ∧ x ∉ hd :: xs
  | .insertRange p vs => p ≤ xs.length ∧ (vs.map Prod.fst).Nodup ∧ ∀ x ∈ vs.map Prod.fst, x ∉ hd :: xs
  | .erase p => p < xs.length
  | .eraseRange p q => p ≤ q ∧ q ≤ xs.length
  | .relocate p i => p ≤ xs.length ∧ i < xs.length
  | .relocateRange p i j => i ≤ j ∧ j ≤ xs.length ∧ p ≤ xs.length ∧ (p < i ∨ j ≤ p)
  | .rearrange vs => vs.Perm xs
  | .splice p vs => p ≤ xs.length ∧ vs.Nodup ∧ (∀ x ∈ vs, x ∈ xs) ∧ nul ∉ xs
  | .sort ssort => ∀ ys, ssort xs = some ys → ys.Perm xs
  | .load moves => ∀ mv ∈ moves, mv.2 ∈ xs ∧ ∀ p ∈ mv.1, p ∈ xs ∧ p ≠ mv.2
  | _ => True

/-- The documented effect of an operation on the sequence of elements: from `xs` to `ys`. -/
def Effect (xs ys : List Id) : Op → Prop
  | .insert p x dec => ys = if dec = some true then xs.take p ++ x :: xs.drop p else xs
  | .insertRange p vs => ys = xs.take p ++ (addedBy vs).1 ++ xs.drop p
  | .erase p => ys = xs.take p ++ xs.drop (p + 1)
  | .eraseRange p q => ys = xs.take p ++ xs.drop q
  | .relocate p i =>
    ys = if p ≤ i then xs.take p ++ (xs.drop i).take 1 ++ (xs.drop p).take (i - p) ++ xs.drop (i + 1)
      else xs.take i ++ (xs.drop (i + 1)).take (p - (i + 1)) ++ (xs.drop i).take 1 ++ xs.drop p
  | .relocateRange p i j =>
    ys = if p < i then xs.take p ++ (xs.drop i).take (j - i) ++ (xs.drop p).take (i - p) ++ xs.drop j
      else xs.take i ++ (xs.drop j).take (p - j) ++ (xs.drop i).take (j - i) ++ xs.drop p
  | .reverse => ys = xs.reverse
  | .rearrange vs => ys = vs
  | .splice p vs => ys = (xs.take p).filter (· ∉ vs) ++ vs ++ (xs.drop p).filter (· ∉ vs)
  | .removeIf pred =>
    -- if no call throws, a result of filtering; in any case a rearrangement of some of the elements
    (∀ q : Id → Bool, (∀ k x, pred k x = some (q x)) → ys = xs.filter (fun x => !q x)) ∧ (∃ gone, (ys ++ gone).Perm xs)
  | .unique pred =>
    (∀ q : Id → Id → Bool, (∀ k x y, pred k x y = some (q x y)) → ys = uniqueSpec (fun y last => q last y) xs) ∧
      (∃ gone, (ys ++ gone).Perm xs)
  | .sort ssort => ys = if xs.length ≤ 1 then xs else (ssort xs).getD xs
  | .reserve _ => ys = xs
  | .shrinkToFit => ys = xs
  | .clear => ys = []
  | .load moves => ys = moves.foldl (fun l mv => moveAfter l mv.1 mv.2) xs

/-- Every operation of a history meets its preconditions when it is called. -/
def Valid (junk : Nat → Id) (nul header : Id) : List Op → Arr → Prop
  | [], _ => True
  | op :: ops, s => Legal nul header (contents s) op ∧ ∀ s', step junk nul header s op = some s' → Valid junk nul header ops s'

end MI.Rnd
