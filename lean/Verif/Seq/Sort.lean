import Verif.Seq.Heap
/-!
# Sequenced index: `sort` at pointer level

Models `sequenced_index_collate` and `sequenced_index_sort` (seq_index_ops.hpp:78-193).
The user comparison is `cmp k x y`: the outcome of its `k`-th call, on the elements of nodes `x` and `y`;
`none` means that the call throws. This covers every throw schedule.
-/
namespace MI.Seq
open MI

/-- Outcome of the `k`-th call of the user comparison on the elements of two nodes (`none`: throws). -/
abbrev Cmp := Nat → Id → Id → Option Bool

/-- The loop of `sequenced_index_collate`: seq_index_ops.hpp:91-100, followed by the final `relink`.
First argument: iteration budget. -/
def collateGo (cmp : Cmp) (last0 last1 : Id) : Nat → Heap → Nat → Id → Id → Out (Heap × Nat)
  | n, h, k, first0, first1 =>
    if first0 ≠ last0 ∧ first1 ≠ last1 then
      match n with
      | 0 => .hang
      | n + 1 =>
        match cmp k first1 first0 with
        | none => .threw (h, k + 1)
        | some true =>
          let tmp := h.next first1
          collateGo cmp last0 last1 n (h.relink first0 first1) (k + 1) first0 tmp
        | some false => collateGo cmp last0 last1 n h (k + 1) (h.next first0) first1
    else .ok (h.relinkRange last0 first1 last1, k)

/-- `sequenced_index_collate(x,y,comp)`: seq_index_ops.hpp:78-101. -/
def collate (cmp : Cmp) (N : Nat) (h : Heap) (k : Nat) (x y : Id) : Out (Heap × Nat) :=
  collateGo cmp x y N h k (h.next x) (h.next y)

/-- The inner `while` of the main loop: seq_index_ops.hpp:161-164.
`m` is `fill-i`. Returns the heap, the number of comparisons so far and the final `i`. -/
def carryGo (cmp : Cmp) (N : Nat) (carry : Id) (cid : Nat → Id) :
    Nat → Nat → Heap → Nat → Out (Heap × Nat × Nat)
  | 0, i, h, k => .ok (h, k, i)
  | m + 1, i, h, k =>
    if h.next (cid i) ≠ cid i then
      match collate cmp N h k carry (cid i) with
      | .ok (h, k) => carryGo cmp N carry cid m (i + 1) h k
      | .threw (h, k) => .threw (h, k, i + 1)
      | .ub => .ub
      | .hang => .hang
    else .ok (h, k, i)

/-- The main loop: seq_index_ops.hpp:159-173. `maxFill` is the size of the `counter` array
(seq_index_ops.hpp:108-111): initializing `counter[fill]` beyond it is undefined behaviour.
First argument: iteration budget. Returns also `fill`. -/
def sortGo (cmp : Cmp) (N maxFill : Nat) (header carry : Id) (cid : Nat → Id) :
    Nat → Heap → Nat → Nat → Out (Heap × Nat × Nat)
  | n, h, k, fill =>
    if h.next header ≠ header then
      match n with
      | 0 => .hang
      | n + 1 =>
        match carryGo cmp N carry cid fill 0 (h.relink (h.next carry) (h.next header)) k with
        | .ok (h, k, i) =>
          let h := h.swapHeaders carry (cid i)
          if i = fill then
            if fill + 1 < maxFill then
              sortGo cmp N maxFill header carry cid n (h.emptyInit (cid (fill + 1))) k (fill + 1)
            else .ub
          else sortGo cmp N maxFill header carry cid n h k fill
        | .threw (h, k, _) => .threw (h, k, fill)
        | .ub => .ub
        | .hang => .hang
    else .ok (h, k, fill)

/-- The final merging loop: seq_index_ops.hpp:175-177. `m` is `fill-i`. -/
def finalGo (cmp : Cmp) (N : Nat) (cid : Nat → Id) : Nat → Nat → Heap → Nat → Out (Heap × Nat)
  | 0, _, h, k => .ok (h, k)
  | m + 1, i, h, k =>
    match collate cmp N h k (cid i) (cid (i - 1)) with
    | .ok (h, k) => finalGo cmp N cid m (i + 1) h k
    | .threw s => .threw s
    | .ub => .ub
    | .hang => .hang

/-- The loop of the catch clause: seq_index_ops.hpp:185-189. `m` is `fill+1-i`. -/
def cleanupGo (header : Id) (cid : Nat → Id) : Nat → Nat → Heap → Heap
  | 0, _, h => h
  | m + 1, i, h => cleanupGo header cid m (i + 1) (h.relinkRange header (h.next (cid i)) (cid i))

/-- The catch clause: seq_index_ops.hpp:181-191. -/
def cleanup (header carry : Id) (cid : Nat → Id) (fill : Nat) (h : Heap) : Heap :=
  cleanupGo header cid (fill + 1) 0 (h.relinkRange header (h.next carry) carry)

/-- `sequenced_index_sort(header,comp)`: seq_index_ops.hpp:115-193.
`carry` and `cid i` are the addresses of the local nodes `carry` and `counter[i]`. -/
def sort (cmp : Cmp) (N maxFill : Nat) (h : Heap) (header carry : Id) (cid : Nat → Id) :
    Out (Heap × Nat) :=
  if h.next header = header ∨ h.next (h.next header) = header then .ok (h, 0)
  else
    let h := h.emptyInit carry
    let h := h.emptyInit (cid 0)
    match sortGo cmp N maxFill header carry cid N h 0 0 with
    | .ok (h, k, fill) =>
      match finalGo cmp N cid (fill - 1) 1 h k with
      | .ok (h, k) => .ok (h.swapHeaders header (cid (fill - 1)), k)
      | .threw (h, k) => .threw (cleanup header carry cid fill h, k)
      | .ub => .ub
      | .hang => .hang
    | .threw (h, k, fill) => .threw (cleanup header carry cid fill h, k)
    | .ub => .ub
    | .hang => .hang

end MI.Seq
