import Verif.Rnd.Model
/-!
# Documented costs of operations on random access indices

The complexities of doc/reference/rnd_indices.html, with constants, as numbers of slots of the internal array written. `n` is the size of the index.
-/
namespace MI.Rnd
open MI

/-- `shl(a,b)`: rnd_indices.html, "Complexity signature". -/
def shl (a b : Nat) : Nat := if a = 0 then 0 else a + b

/-- `rel(a,b,c)`: rnd_indices.html, "Complexity signature". -/
def rel (a b c : Nat) : Nat := if a < b then c - a else a - b

/-- What an operation costs in the long run. Insertion at the end: constant, including its share of reallocations. -/
def price (n : Nat) : Op → Nat
  | .insert p _ _ => 7 + shl (n - p) 1
  | .insertRange p vs => 7 * vs.length + shl (n - p) vs.length
  | .erase p => n - p
  | .eraseRange p q => (n - p) + (q - p)
  | .relocate p i => rel p i (i + 1)
  | .relocateRange p i j => rel p i j
  | .reverse => n
  | .rearrange _ => 2 * n
  | .splice _ vs => n + 2 * vs.length
  | .removeIf _ => 3 * n
  | .unique _ => 3 * n
  | .sort _ => n
  | .reserve _ => n + 1
  | .shrinkToFit => 2 * n + 1
  | .clear => 1
  | .load _ => 0

/-- The sum of the costs of a history. -/
def bill (junk : Nat → Id) (nul header : Id) : List Op → Arr → Nat
  | [], _ => 0
  | op :: ops, s => price s.size op + match step junk nul header s op with
    | none => 0
    | some s' => bill junk nul header ops s'

/-- Loading from an archive is left out. -/
def Op.isLoad : Op → Bool
  | .load _ => true
  | _ => false

end MI.Rnd
