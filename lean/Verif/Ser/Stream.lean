import Verif.Ser.Matcher

/-! Model of `detail/index_saver.hpp`, `detail/index_loader.hpp` and `detail/duplicates_iterator.hpp`: how the sequence of the
elements of an index is written to an archive as a stream of pointers, and read back as a list of calls to a rearranger.

A pointer in the archive is an `Option Id` (`none`: null). -/
namespace MI.Ser
variable {V : Type}

/-! ## Saving -/

/-- The loop of `save` (index_saver.hpp:92–100) and the value of `last_saved` after it; `o x`: `alg.is_ordered(x)`. -/
def saveLoop (o : Id → Bool) : (prev : Id) → (lastSaved : Nat) → List Id → List (Option Id) × Nat
  | _, ls, [] => ([], ls)
  | prev, ls, x :: xs =>
    if o x = false then
      let r := saveLoop o x 1 xs
      ((if 1 < ls then [some prev] else []) ++ some x :: r.1, r.2)
    else
      let r := saveLoop o x (ls + 1) xs
      ((if ls = 2 then [none] else []) ++ r.1, r.2)

/-- The loop and what follows it (index_saver.hpp:92–105). -/
def saveFrom (o : Id → Bool) (prev : Id) (ls : Nat) (xs : List Id) : List (Option Id) :=
  let r := saveLoop o prev ls xs
  r.1 ++ (if r.2 ≤ 2 then [none] else []) ++ [none]

/-- `save(first,last,ar,version)` (index_saver.hpp:56–106) over the nodes the range visits. -/
def Alg.save (a : Alg) (xs : List Id) : Option (Alg × List (Option Id)) :=
  match a.execute xs with
  | none => none
  | some a => if ∀ x ∈ xs, a.isOrdered x ≠ none then some (a, saveFrom (fun x => a.isOrdered x == some true) (xs.headD 0) 3 xs) else none

/-! ## Iterating over duplicates

`nx` is `Node::increment`, `lt x y` compares the values of nodes, `hd` is the end node. The first argument is a budget. -/

/-- The loop of `advance()` (duplicates_iterator.hpp:83–89): the node where it stops. -/
def dupAdvance (nx : Id → Option Id) (lt : Id → Id → Bool) (hd : Id) : Nat → Id → Option Id
  | 0, _ => none
  | n + 1, node =>
    if node = hd then some node
    else
      match nx node with
      | none => none
      | some node2 => if node2 ≠ hd ∧ lt node node2 = false then some node else dupAdvance nx lt hd n node2

/-- The nodes visited by `it`, from `it.node` on (duplicates_iterator.hpp:63–81, `operator++` and `sync`). -/
def dupFrom (nx : Id → Option Id) (lt : Id → Id → Bool) (hd : Id) : Nat → (node chunk : Id) → Option (List Id)
  | 0, _, _ => none
  | n + 1, node, chunk =>
    if node = hd then some []
    else
      match nx node with
      | none => none
      | some node' =>
        if node' ≠ hd ∧ lt chunk node' = true then
          match dupAdvance nx lt hd (n + 1) node' with
          | none => none
          | some node'' =>
            match dupFrom nx lt hd n node'' node'' with
            | none => none
            | some l => some (node :: l)
        else
          match dupFrom nx lt hd n node' chunk with
          | none => none
          | some l => some (node :: l)

/-- The nodes visited by `duplicates_iterator(begin,end,pred)` (duplicates_iterator.hpp:39–43). -/
def dupWalk (nx : Id → Option Id) (lt : Id → Id → Bool) (hd first : Id) (n : Nat) : Option (List Id) :=
  match dupAdvance nx lt hd n first with
  | none => none
  | some node => dupFrom nx lt hd n node node

/-! ## Loading -/

/-- `check_node(node)` (index_loader.hpp:118–123) for a non-null `node`; `entries` is sorted. `std::binary_search` is `std::lower_bound`
and a comparison. -/
def checkNode (entries : List Id) (x : Id) : Bool :=
  let k := lowerBound (fun i => decide (entries.getD i 0 < x)) entries.length 0 entries.length
  decide (k < entries.length) && !decide (x < entries.getD k 0)

/-- What `load` (index_loader.hpp:66–93) does with the pointers it reads: the calls `r(prev,node)`, whether it returns (`false`: it throws),
and what is left to read. State: `none` before the pointer read in line 69 or 90, `some prev` in the inner loop. Each call is made
before the next pointer is read. A stream that ends too early makes the archive throw. The sort in line 73 is done before: the first
pointer is checked against sorted entries in any case. -/
def parse (entries : List Id) : Option Id → List (Option Id) → List (Option Id × Id) × Bool × List (Option Id)
  | _, [] => ([], false, [])
  | none, none :: ts => ([], true, ts)
  | none, some p :: ts => if checkNode entries p then parse entries (some p) ts else ([], false, ts)
  | some _, none :: ts => parse entries none ts
  | some prev, some x :: ts =>
    if checkNode entries x then
      let r := parse entries (some x) ts
      ((if x = prev then none else some prev, x) :: r.1, r.2)
    else ([], false, ts)

/-- The entries after `std::sort` (index_loader.hpp:72–75). No two are equal, so every sorting algorithm gives this result. -/
def sortEntries (entries : List Id) : List Id := entries.insertionSort (· ≤ ·)

end MI.Ser
