import Verif.Ser.Archive
/-!
Time of saving. The unit is one round of a loop (of `std::lower_bound`, over the elements of an index, over the piles), or one pointer written. `S n` is the time `std::sort` takes for `n`
entries.
-/
namespace MI.Ser
open MI MI.Cont
variable {V : Type}

/-- `std::lower_bound` (see `lowerBound`), and the number of its rounds. -/
def lowerBoundC (p : Nat → Bool) : (fuel first len : Nat) → Nat × Nat
  | 0, first, _ => (first, 0)
  | fuel + 1, first, len =>
    if len = 0 then (first, 0)
    else
      let half := len / 2
      let r := if p (first + half) then lowerBoundC p fuel (first + half + 1) (len - half - 1) else lowerBoundC p fuel first half
      (r.1, r.2 + 1)

/-- "localize entry" (index_matcher.hpp:131–134, 177–179). -/
def Alg.localizeC (a : Alg) (x : Id) : Nat × Nat := lowerBoundC (fun k => decide (a.node k < x)) a.size 0 a.size

/-- "find the first available pile to stack the entry" (index_matcher.hpp:138–144). -/
def Alg.pileForC (a : Alg) (m : Nat) : Nat × Nat := lowerBoundC (fun k => decide (a.pileTop k < m)) a.numPiles 0 a.numPiles

/-- `add_node_to_algorithm(node)` (index_matcher.hpp:129–157). -/
def Alg.addNodeCost (a : Alg) (x : Id) : Nat := (a.localizeC x).2 + (a.pileForC (a.pos (a.localizeC x).1)).2 + 1

/-- The loop of `execute(first,last)` (index_matcher.hpp:216–218). -/
def Alg.addNodesCost (a : Alg) : List Id → Nat
  | [] => 0
  | x :: xs =>
    a.addNodeCost x +
      match a.addNode x with
      | some a' => a'.addNodesCost xs
      | none => 0

/-- `execute(first,last)` (index_matcher.hpp:211–221): `begin_algorithm` sorts unless that was done for an earlier index, and `finish_algorithm` has one round for each pile. -/
def Alg.executeCost (S : Nat → Nat) (a : Alg) (xs : List Id) : Nat :=
  (if a.sorted then 0 else S a.size) + a.begin.addNodesCost xs +
    match a.begin.addNodes xs with
    | some a' => a'.numPiles
    | none => 0

/-- `save(first,last,ar,version)` (index_saver.hpp:56–106): `is_ordered` is asked for each element. -/
def Alg.saveCost (S : Nat → Nat) (a : Alg) (xs : List Id) : Nat :=
  a.executeCost S xs +
    match a.save xs with
    | some (a', ts) => (xs.map fun x => (a'.localizeC x).2 + 1).sum + ts.length
    | none => 0

/-- The loop of `advance()` (duplicates_iterator.hpp:83–89, see `dupAdvance`), and its rounds. -/
def dupAdvanceC (nx : Id → Option Id) (lt : Id → Id → Bool) (hd : Id) : Nat → Id → Option (Id × Nat)
  | 0, _ => none
  | n + 1, node =>
    if node = hd then some (node, 1)
    else
      match nx node with
      | none => none
      | some node2 =>
        if node2 ≠ hd ∧ lt node node2 = false then some (node, 1)
        else
          match dupAdvanceC nx lt hd n node2 with
          | none => none
          | some r => some (r.1, r.2 + 1)

/-- The nodes visited by `it` (duplicates_iterator.hpp:63–81, see `dupFrom`), and the rounds, also those of `advance()`. -/
def dupFromC (nx : Id → Option Id) (lt : Id → Id → Bool) (hd : Id) : Nat → (node chunk : Id) → Option (List Id × Nat)
  | 0, _, _ => none
  | n + 1, node, chunk =>
    if node = hd then some ([], 1)
    else
      match nx node with
      | none => none
      | some node' =>
        if node' ≠ hd ∧ lt chunk node' = true then
          match dupAdvanceC nx lt hd (n + 1) node' with
          | none => none
          | some d =>
            match dupFromC nx lt hd n d.1 d.1 with
            | none => none
            | some l => some (node :: l.1, l.2 + d.2 + 1)
        else
          match dupFromC nx lt hd n node' chunk with
          | none => none
          | some l => some (node :: l.1, l.2 + 1)

/-- The nodes visited by `duplicates_iterator(begin,end,pred)` (duplicates_iterator.hpp:39–43), and the rounds. -/
def dupWalkC (nx : Id → Option Id) (lt : Id → Id → Bool) (hd first : Id) (n : Nat) : Option (List Id × Nat) :=
  match dupAdvanceC nx lt hd n first with
  | none => none
  | some d =>
    match dupFromC nx lt hd n d.1 d.1 with
    | none => none
    | some l => some (l.1, l.2 + d.2)

/-- Going over the nodes that `save_` passes to `sm.save` (see `listing`). -/
def listingCost (n : Nat) (hd : Id) (val : Id → V) (L : Layer V) : Nat :=
  match L with
  | .ord _ lt _ => ((dupWalkC (fun x => L.next n x) (fun a b => lt (val a) (val b)) hd (L.first hd) n).map (·.2)).getD 0
  | _ => ((L.walk n hd).map (·.length + 1)).getD 0

/-- `save_` of an index and of those after it (see `saveIndices`). `execute` and the loop of `save` go over the range once each. -/
def saveIndicesCost (S : Nat → Nat) (n : Nat) (hd : Id) (val : Id → V) : Alg → List (Layer V) → Nat
  | _, [] => 0
  | a, L :: ls =>
    if hasStream L then
      match listing n hd val L with
      | none => 0
      | some xs =>
        2 * listingCost n hd val L + a.saveCost S xs +
          match a.save xs with
          | none => 0
          | some (a, _) => saveIndicesCost S n hd val a ls
    else saveIndicesCost S n hd val a ls

/-- `save(ar,version)`: multi_index_container.hpp:1119–1138. One round for each element written. -/
def saveTime (S : Nat → Nat) (w : World V) (i : Nat) (junk : Alg) : Nat :=
  match w.cs[i]? with
  | none => 0
  | some c =>
    match c.ls with
    | [] => 0
    | L :: _ =>
      match L.walk c.budget c.hd with
      | none => 0
      | some b =>
        b.length + 1 +
          match (Alg.new c.count junk).addAll b with
          | none => 0
          | some a => saveIndicesCost S c.budget c.hd w.m.val a c.ls

end MI.Ser
