import Verif.Prelude
/-! Specification vocabulary: going through a sequence with a predicate that may throw, and merging two sequences with a comparison that may throw. -/
namespace MI

/-- Elements are examined in turn: `ask t l x` is the answer of call number `t` (`none`: it throws), for the element `x` when `l` is the last element
kept so far. `kept` are those for which the answer is no, `gone` those for which it is yes. -/
inductive Sift (ask : Nat → Id → Id → Option Bool) : (t : Nat) → (l : Id) → (xs kept gone : List Id) → Prop where
  | nil {t l} : Sift ask t l [] [] []
  | keep {t l x xs kept gone} : ask t l x = some false → Sift ask (t + 1) x xs kept gone → Sift ask t l (x :: xs) (x :: kept) gone
  | drop {t l x xs kept gone} : ask t l x = some true → Sift ask (t + 1) l xs kept gone → Sift ask t l (x :: xs) kept (x :: gone)

/-- The calls for `xs` begin as in `Sift`, but for the element `x` after those of `done` the call throws. -/
def SiftStops (ask : Nat → Id → Id → Option Bool) (t : Nat) (l : Id) (xs done kept gone : List Id) : Prop :=
  ∃ x rest, xs = done ++ x :: rest ∧ Sift ask t l done kept gone ∧ ask (t + done.length) (kept.getLastD l) x = none

/-- Merging: as long as there are elements in both sequences, `ask t y x` (call number `t`) says whether the first of the second sequence, `y`, is to go before
the first of the first sequence, `x`. -/
inductive Merges (ask : Nat → Id → Id → Option Bool) : (t : Nat) → (xs ys zs : List Id) → Prop where
  | left {t ys} : Merges ask t [] ys ys
  | right {t xs} : Merges ask t xs [] xs
  | take {t x xs y ys zs} : ask t y x = some true → Merges ask (t + 1) (x :: xs) ys zs → Merges ask t (x :: xs) (y :: ys) (y :: zs)
  | keep {t x xs y ys zs} : ask t y x = some false → Merges ask (t + 1) xs (y :: ys) zs → Merges ask t (x :: xs) (y :: ys) (x :: zs)

end MI
