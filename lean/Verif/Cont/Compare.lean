import Verif.Cont.World
import Verif.Hash.Equals
/-!
# Comparison operators

`operator==`, `operator<` of indices and containers, with the loops of `std::equal` and `std::lexicographical_compare` as the C++ standard
gives them. Iterators are nodes; loops have a budget and return `none` when they exceed it.
-/
namespace MI.Cont
open MI
variable {V : Type}

section
variable (val : Id → V) (n1 : Nat) (hd1 : Id) (L1 : Layer V) (n2 : Nat) (hd2 : Id) (L2 : Layer V)

/-- `std::equal(first1,last1,first2)` with `last1 = end()`. -/
def stdEqual (eq : V → V → Bool) : Nat → Id → Id → Option Bool
  | n, x, y =>
    if x = hd1 then some true
    else
      match n with
      | 0 => none
      | n + 1 =>
        if !eq (val x) (val y) then some false
        else
          match L1.next n1 x, L2.next n2 y with
          | some x, some y => stdEqual eq n x y
          | _, _ => none

/-- `std::lexicographical_compare(first1,last1,first2,last2)` with `last1 = end()`, `last2 = end()`. -/
def stdLess (lt : V → V → Bool) : Nat → Id → Id → Option Bool
  | n, x, y =>
    if x = hd1 ∨ y = hd2 then some (decide (x = hd1 ∧ y ≠ hd2))
    else
      match n with
      | 0 => none
      | n + 1 =>
        if lt (val x) (val y) then some true
        else if lt (val y) (val x) then some false
        else
          match L1.next n1 x, L2.next n2 y with
          | some x, some y => stdLess lt n x y
          | _, _ => none

end

/-- `operator==` of index `k` of container `i` and index `l` of container `j`. Ordered, sequenced, random access indices: ord_index_impl.hpp:1605-1612,
sequenced_index.hpp:1140-1145, random_access_index.hpp:1244-1249, `x.size()==y.size()&&std::equal(x.begin(),x.end(),y.begin())`. Hashed
indices: hashed_index.hpp:1189-1229, 1801-1806 (both have the same type). `eq`: `operator==` of values. -/
def World.indexEq (w : World V) (eq : V → V → Bool) (i k j l : Nat) : Option Bool :=
  match w.cs[i]?, w.cs[j]? with
  | some c, some d =>
    match c.ls[k]?, d.ls[l]? with
    | some (.hash g e1 hf _ _ h1 _), some (.hash _ _ _ _ _ h2 a2) =>
      match Hash.equals id e1 hf eq (c.budget + d.budget) g c.count h1 c.hd w.m.val d.count h2 a2 d.hd w.m.val with
      | .ok b => some b
      | _ => none
    | some L1, some L2 =>
      if c.count = d.count then stdEqual w.m.val c.budget c.hd L1 d.budget L2 eq c.budget (L1.first c.hd) (L2.first d.hd) else some false
    | _, _ => none
  | _, _ => none

/-- `operator<`: ord_index_impl.hpp:1622-1629, sequenced_index.hpp:1151-1156, random_access_index.hpp:1255-1260. `lt`: `operator<` of values. -/
def World.indexLt (w : World V) (lt : V → V → Bool) (i k j l : Nat) : Option Bool :=
  match w.cs[i]?, w.cs[j]? with
  | some c, some d =>
    match c.ls[k]?, d.ls[l]? with
    | some L1, some L2 => stdLess w.m.val c.budget c.hd L1 d.budget d.hd L2 lt c.budget (L1.first c.hd) (L2.first d.hd)
    | _, _ => none
  | _, _ => none

/-- The other operators, from `x==y`, `x<y` and `y<x`: `!(x==y)`, `y<x`, `!(x<y)`, `!(x>y)`. ord_index_impl.hpp:1639-1704,
sequenced_index.hpp:1162-1200, random_access_index.hpp:1266-1304. -/
structure Rels where
  ne : Bool
  gt : Bool
  ge : Bool
  le : Bool
deriving DecidableEq, Repr

/-- `operator!=`, `>`, `>=`, `<=` of two indices. -/
def World.indexRels (w : World V) (eq lt : V → V → Bool) (i k j l : Nat) : Option Rels :=
  match w.indexEq eq i k j l, w.indexLt lt i k j l, w.indexLt lt j l i k with
  | some e, some a, some b => some ⟨!e, b, !a, !b⟩
  | _, _, _ => none

/-- `operator==` of containers: multi_index_container.hpp:1497-1502, `get<0>(x)==get<0>(y)`. -/
def World.contEq (w : World V) (eq : V → V → Bool) (i j : Nat) : Option Bool := w.indexEq eq i 0 j 0

/-- `operator<` of containers: multi_index_container.hpp:1508-1513. -/
def World.contLt (w : World V) (lt : V → V → Bool) (i j : Nat) : Option Bool := w.indexLt lt i 0 j 0

/-! ## Specification vocabulary -/

/-- Lexicographic order of sequences: at some position they differ for the first time, and there `xs` has the lesser element, or
has ended while `ys` goes on. -/
def SeqLess {α : Type} (lt : α → α → Bool) (xs ys : List α) : Prop :=
  ∃ k : Nat, (∀ j < k, ∃ a b, xs[j]? = some a ∧ ys[j]? = some b ∧ lt a b = false ∧ lt b a = false) ∧
    ((xs[k]? = none ∧ ys[k]? ≠ none) ∨ ∃ a b, xs[k]? = some a ∧ ys[k]? = some b ∧ lt a b = true)

end MI.Cont
