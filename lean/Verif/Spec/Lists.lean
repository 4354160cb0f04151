import Verif.Prelude
/-! Specification vocabulary: list functions that describe the documented effect of algorithms. -/
namespace MI

/-- The node a position designates: the first of the elements after it, or the header (`end()`). -/
def hdOr (a : Id) (l : List Id) : Id := l.headD a

/-- Among `ys`, what `unique` keeps when `last` is the last element kept so far. -/
def keepUnique {α : Type _} (p : α → α → Bool) (last : α) : List α → List α
  | [] => []
  | y :: ys => if p y last then keepUnique p last ys else y :: keepUnique p y ys

/-- The documented result of `unique(p)`: of every run of elements equivalent to the last kept one, only
the first remains. -/
def uniqueSpec {α : Type _} (p : α → α → Bool) : List α → List α
  | [] => []
  | x :: xs => x :: keepUnique p x xs

/-- Insert `x` right after the element `p`. -/
def insertAfter (p x : Id) : List Id → List Id
  | [] => []
  | y :: ys => if y = p then y :: x :: ys else y :: insertAfter p x ys

/-- Take `x` out of the sequence and put it right after `p` (`none`: at the beginning). -/
def moveAfter (xs : List Id) (p : Option Id) (x : Id) : List Id :=
  match p with
  | none => x :: xs.erase x
  | some p => insertAfter p x (xs.erase x)

end MI
