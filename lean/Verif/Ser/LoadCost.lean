import Verif.Ser.SaveCost
/-!
Time of reading the pointers of an archive. The unit is one pointer read, or one round of `std::binary_search`; `S n` is the time `std::sort` takes for `n` entries. Calls of the rearrangers are
not counted here.
-/
namespace MI.Ser
open MI MI.Cont

/-- The rounds of `check_node(node)` (index_loader.hpp:118–123, see `checkNode`) for a non-null `node`; the comparison after the search counts as one. -/
def checkCost (entries : List Id) (x : Id) : Nat := (lowerBoundC (fun i => decide (entries.getD i 0 < x)) entries.length 0 entries.length).2 + 1

/-- `if(!sorted)std::sort(...)` (index_loader.hpp:72–75). -/
def sortDue (S : Nat → Nat) (n : Nat) : (sorted : Bool) → Nat
  | true => 0
  | false => S n

/-- `load` (index_loader.hpp:66–93, see `parse`): the time, and whether the entries are sorted after it; `b`: they are sorted already. They are sorted when the first pointer is not null
(line 72), and never twice. -/
def parseTime (S : Nat → Nat) (entries : List Id) : Bool → Option Id → List (Option Id) → Nat × Bool
  | b, _, [] => (1, b)
  | b, none, none :: _ => (1, b)
  | b, none, some p :: ts =>
    let t := 1 + sortDue S entries.length b + checkCost entries p
    if checkNode entries p then
      let r := parseTime S entries true (some p) ts
      (t + r.1, r.2)
    else (t, true)
  | b, some _, none :: ts =>
    let r := parseTime S entries b none ts
    (1 + r.1, r.2)
  | b, some _, some x :: ts =>
    let t := 1 + checkCost entries x
    if checkNode entries x then
      let r := parseTime S entries b (some x) ts
      (t + r.1, r.2)
    else (t, b)

/-- `load` for `k` indices in turn, as long as none throws. -/
def readTime (S : Nat → Nat) (entries : List Id) : (k : Nat) → Bool → List (Option Id) → Nat
  | 0, _, _ => 0
  | k + 1, b, ts =>
    let t := parseTime S entries b none ts
    let r := parse entries none ts
    t.1 + if r.2.1 then readTime S entries k t.2 r.2.2 else 0

end MI.Ser
