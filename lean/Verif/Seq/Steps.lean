import Verif.Seq.Index
import Verif.Seq.Sort
/-!
# What list operations of sequenced indices take

The functions of `Verif/Seq/Sort.lean` and `Verif/Seq/Index.lean` once more, with the rounds of all their loops counted. `relocate`, and `splice` of a part of the same list, have no loop.
-/
namespace MI.Seq
open MI

/-- `k` more rounds. -/
def tick {α : Type} (k : Nat) (o : α × Nat) : α × Nat := (o.1, o.2 + k)

@[simp] theorem tick_fst {α : Type} (k : Nat) (o : α × Nat) : (tick k o).1 = o.1 := rfl
@[simp] theorem tick_snd {α : Type} (k : Nat) (o : α × Nat) : (tick k o).2 = o.2 + k := rfl

/-- The loop of `sequenced_index_collate`: seq_index_ops.hpp:91-100, as `collateGo`. -/
def collateGoS (cmp : Cmp) (last0 last1 : Id) : Nat → Heap → Nat → Id → Id → Out (Heap × Nat) × Nat
  | n, h, k, first0, first1 =>
    if first0 ≠ last0 ∧ first1 ≠ last1 then
      match n with
      | 0 => (.hang, 0)
      | n + 1 =>
        match cmp k first1 first0 with
        | none => (.threw (h, k + 1), 1)
        | some true => tick 1 (collateGoS cmp last0 last1 n (h.relink first0 first1) (k + 1) first0 (h.next first1))
        | some false => tick 1 (collateGoS cmp last0 last1 n h (k + 1) (h.next first0) first1)
    else (.ok (h.relinkRange last0 first1 last1, k), 0)

/-- `sequenced_index_collate(x,y,comp)`: seq_index_ops.hpp:78-101, as `collate`. -/
def collateS (cmp : Cmp) (N : Nat) (h : Heap) (k : Nat) (x y : Id) : Out (Heap × Nat) × Nat :=
  collateGoS cmp x y N h k (h.next x) (h.next y)

/-- The inner `while` of the main loop of `sort`: seq_index_ops.hpp:161-164, as `carryGo`. -/
def carryGoS (cmp : Cmp) (N : Nat) (carry : Id) (cid : Nat → Id) : Nat → Nat → Heap → Nat → Out (Heap × Nat × Nat) × Nat
  | 0, i, h, k => (.ok (h, k, i), 0)
  | m + 1, i, h, k =>
    if h.next (cid i) ≠ cid i then
      match collateS cmp N h k carry (cid i) with
      | (.ok (h, k), t) => tick (t + 1) (carryGoS cmp N carry cid m (i + 1) h k)
      | (.threw (h, k), t) => (.threw (h, k, i + 1), t + 1)
      | (.ub, t) => (.ub, t + 1)
      | (.hang, t) => (.hang, t + 1)
    else (.ok (h, k, i), 0)

/-- The main loop of `sort`: seq_index_ops.hpp:159-173, as `sortGo`. -/
def sortGoS (cmp : Cmp) (N maxFill : Nat) (header carry : Id) (cid : Nat → Id) : Nat → Heap → Nat → Nat → Out (Heap × Nat × Nat) × Nat
  | n, h, k, fill =>
    if h.next header ≠ header then
      match n with
      | 0 => (.hang, 0)
      | n + 1 =>
        match carryGoS cmp N carry cid fill 0 (h.relink (h.next carry) (h.next header)) k with
        | (.ok (h, k, i), t) =>
          let h := h.swapHeaders carry (cid i)
          if i = fill then
            if fill + 1 < maxFill then
              tick (t + 1) (sortGoS cmp N maxFill header carry cid n (h.emptyInit (cid (fill + 1))) k (fill + 1))
            else (.ub, t + 1)
          else tick (t + 1) (sortGoS cmp N maxFill header carry cid n h k fill)
        | (.threw (h, k, _), t) => (.threw (h, k, fill), t + 1)
        | (.ub, t) => (.ub, t + 1)
        | (.hang, t) => (.hang, t + 1)
    else (.ok (h, k, fill), 0)

/-- The final merging loop of `sort`: seq_index_ops.hpp:175-177, as `finalGo`. -/
def finalGoS (cmp : Cmp) (N : Nat) (cid : Nat → Id) : Nat → Nat → Heap → Nat → Out (Heap × Nat) × Nat
  | 0, _, h, k => (.ok (h, k), 0)
  | m + 1, i, h, k =>
    match collateS cmp N h k (cid i) (cid (i - 1)) with
    | (.ok (h, k), t) => tick (t + 1) (finalGoS cmp N cid m (i + 1) h k)
    | (.threw s, t) => (.threw s, t + 1)
    | (.ub, t) => (.ub, t + 1)
    | (.hang, t) => (.hang, t + 1)

/-- `sequenced_index_sort(header,comp)`: seq_index_ops.hpp:115-193, as `sort`. The loop of the catch clause has `fill+1` rounds. -/
def sortS (cmp : Cmp) (N maxFill : Nat) (h : Heap) (header carry : Id) (cid : Nat → Id) : Out (Heap × Nat) × Nat :=
  if h.next header = header ∨ h.next (h.next header) = header then (.ok (h, 0), 0)
  else
    match sortGoS cmp N maxFill header carry cid N ((h.emptyInit carry).emptyInit (cid 0)) 0 0 with
    | (.ok (h, k, fill), t) =>
      match finalGoS cmp N cid (fill - 1) 1 h k with
      | (.ok (h, k), u) => (.ok (h.swapHeaders header (cid (fill - 1)), k), t + u)
      | (.threw (h, k), u) => (.threw (cleanup header carry cid fill h, k), t + u + (fill + 1))
      | (.ub, u) => (.ub, t + u)
      | (.hang, u) => (.hang, t + u)
    | (.threw (h, k, fill), t) => (.threw (cleanup header carry cid fill h, k), t + (fill + 1))
    | (.ub, t) => (.ub, t)
    | (.hang, t) => (.hang, t)

/-- The loop of `reverse(header)`: seq_index_node.hpp:88-96, as `Heap.reverse`. -/
def reverseGoS (header : Id) : Nat → Heap → Id → Option Heap × Nat
  | 0, _, _ => (none, 0)
  | n + 1, h, x =>
    if h.next x = header then (some ⟨upd h.next x (h.prior x), upd h.prior x (h.next x)⟩, 1)
    else tick 1 (reverseGoS header n ⟨upd h.next x (h.prior x), upd h.prior x (h.next x)⟩ (h.next x))

/-- The loop of `sequenced_index_remove`: seq_index_ops.hpp:34-43, as `removeGo`. -/
def removeGoS (pred : Nat → Id → Option Bool) (last : Id) : Nat → Heap → Nat → Id → Out (Heap × List Id) × Nat
  | n, h, k, first =>
    if first ≠ last then
      match n with
      | 0 => (.hang, 0)
      | n + 1 =>
        match pred k first with
        | none => (.threw (h, []), 1)
        | some true =>
          match removeGoS pred last n (eraseAt h first).1 (k + 1) (h.next first) with
          | (.ok (h, l), t) => (.ok (h, first :: l), t + 1)
          | (.threw (h, l), t) => (.threw (h, first :: l), t + 1)
          | (.ub, t) => (.ub, t + 1)
          | (.hang, t) => (.hang, t + 1)
        | some false => tick 1 (removeGoS pred last n h (k + 1) (h.next first))
    else (.ok (h, []), 0)

/-- The loop of `sequenced_index_unique`: seq_index_ops.hpp:51-56, as `uniqueGo`. -/
def uniqueGoS (pred : Nat → Id → Id → Option Bool) (last : Id) : Nat → Heap → Nat → Id → Out (Heap × List Id) × Nat
  | n, h, k, first =>
    if h.next first ≠ last then
      match n with
      | 0 => (.hang, 0)
      | n + 1 =>
        match pred k (h.next first) first with
        | none => (.threw (h, []), 1)
        | some true =>
          match uniqueGoS pred last n (eraseAt h (h.next first)).1 (k + 1) first with
          | (.ok (h', l), t) => (.ok (h', h.next first :: l), t + 1)
          | (.threw (h', l), t) => (.threw (h', h.next first :: l), t + 1)
          | (.ub, t) => (.ub, t + 1)
          | (.hang, t) => (.hang, t + 1)
        | some false => tick 1 (uniqueGoS pred last n h (k + 1) (h.next first))
    else (.ok (h, []), 0)

/-- The loop of `sequenced_index_merge` and the one that transfers the rest: seq_index_ops.hpp:66-76, multi_index_container.hpp:976-985, as `mergeGo`. A round for each element of the rest. -/
def mergeGoS (cmp : Cmp) (dec : Id → Option Bool) (last0 last1 : Id) : Nat → Heap → Nat → Id → Id → Out Heap × Nat
  | n, h, k, first0, first1 =>
    if first0 ≠ last0 ∧ first1 ≠ last1 then
      match n with
      | 0 => (.hang, 0)
      | n + 1 =>
        match cmp k first1 first0 with
        | none => (.threw h, 1)
        | some true =>
          match externalSplice1 h last0 first0 first1 (dec first1) with
          | .ok h' => tick 1 (mergeGoS cmp dec last0 last1 n h' (k + 1) first0 (h.next first1))
          | .threw h => (.threw h, 1)
          | .ub => (.ub, 1)
          | .hang => (.hang, 1)
        | some false => tick 1 (mergeGoS cmp dec last0 last1 n h (k + 1) (h.next first0) first1)
    else
      match deleteAllGo h last1 n first1 with
      | none => (.hang, n)
      | some vs => (externalSplice h last0 last0 dec vs, vs.length)

/-- `reverse()`: seq_index_node.hpp:88-96, as `Heap.reverse`. -/
def reverseS (N : Nat) (h : Heap) (header : Id) : Option Heap × Nat := reverseGoS header N h header

/-- `remove_if(pred)`: sequenced_index.hpp:584-588, as `removeIf`. -/
def removeIfS (pred : Nat → Id → Option Bool) (N : Nat) (h : Heap) (header : Id) : Out (Heap × List Id) × Nat :=
  removeGoS pred header N h 0 (h.next header)

/-- `unique(pred)`: sequenced_index.hpp:595-599, seq_index_ops.hpp:45-57, as `unique`. -/
def uniqueS (pred : Nat → Id → Id → Option Bool) (N : Nat) (h : Heap) (header : Id) : Out (Heap × List Id) × Nat :=
  if h.next header ≠ header then uniqueGoS pred header N h 0 (h.next header) else (.ok (h, []), 0)

/-- `merge(x,comp)`: sequenced_index.hpp:606-610, as `merge`. -/
def mergeS (cmp : Cmp) (dec : Id → Option Bool) (N : Nat) (h : Heap) (header header1 : Id) : Out Heap × Nat :=
  if header ≠ header1 then mergeGoS cmp dec header header1 N h 0 (h.next header) (h.next header1) else (.ok h, 0)

/-! ## They do what the functions they count for do -/

theorem collateGoS_fst (cmp : Cmp) (a b : Id) : ∀ n h k x y, (collateGoS cmp a b n h k x y).1 = collateGo cmp a b n h k x y := by
  intro n
  induction n with
  | zero => intro h k x y; unfold collateGoS collateGo; split <;> rfl
  | succ n ih =>
    intro h k x y
    unfold collateGoS collateGo
    split
    · simp only
      cases cmp k y x with
      | none => rfl
      | some b => cases b <;> exact ih ..
    · rfl

theorem collateS_fst (cmp : Cmp) (N : Nat) (h : Heap) (k : Nat) (x y : Id) : (collateS cmp N h k x y).1 = collate cmp N h k x y := collateGoS_fst ..

theorem carryGoS_fst (cmp : Cmp) (N : Nat) (carry : Id) (cid : Nat → Id) : ∀ m i h k, (carryGoS cmp N carry cid m i h k).1 = carryGo cmp N carry cid m i h k := by
  intro m
  induction m with
  | zero => intro i h k; rfl
  | succ m ih =>
    intro i h k
    unfold carryGoS carryGo
    split
    · rw [← collateS_fst]
      rcases collateS cmp N h k carry (cid i) with ⟨_ | _ | _ | _, t⟩ <;> first | rfl | exact ih ..
    · rfl

theorem sortGoS_fst (cmp : Cmp) (N M : Nat) (header carry : Id) (cid : Nat → Id) : ∀ n h k fill, (sortGoS cmp N M header carry cid n h k fill).1 = sortGo cmp N M header carry cid n h k fill := by
  intro n
  induction n with
  | zero => intro h k fill; unfold sortGoS sortGo; split <;> rfl
  | succ n ih =>
    intro h k fill
    unfold sortGoS sortGo
    split
    · simp only
      rw [← carryGoS_fst]
      rcases carryGoS cmp N carry cid fill 0 (h.relink (h.next carry) (h.next header)) k with ⟨⟨h, k, i⟩ | _ | _ | _, t⟩ <;> try rfl
      simp only
      split
      · split
        · exact ih ..
        · rfl
      · exact ih ..
    · rfl

theorem finalGoS_fst (cmp : Cmp) (N : Nat) (cid : Nat → Id) : ∀ m i h k, (finalGoS cmp N cid m i h k).1 = finalGo cmp N cid m i h k := by
  intro m
  induction m with
  | zero => intro i h k; rfl
  | succ m ih =>
    intro i h k
    unfold finalGoS finalGo
    rw [← collateS_fst]
    rcases collateS cmp N h k (cid i) (cid (i - 1)) with ⟨_ | _ | _ | _, t⟩ <;> first | rfl | exact ih ..

theorem sortS_fst (cmp : Cmp) (N M : Nat) (h : Heap) (header carry : Id) (cid : Nat → Id) : (sortS cmp N M h header carry cid).1 = sort cmp N M h header carry cid := by
  unfold sortS sort
  split
  · rfl
  · simp only
    rw [← sortGoS_fst]
    rcases sortGoS cmp N M header carry cid N ((h.emptyInit carry).emptyInit (cid 0)) 0 0 with ⟨⟨h, k, fill⟩ | _ | _ | _, t⟩ <;> try rfl
    simp only
    rw [← finalGoS_fst]
    rcases finalGoS cmp N cid (fill - 1) 1 h k with ⟨_ | _ | _ | _, u⟩ <;> rfl

theorem reverseGoS_fst (a : Id) : ∀ n h x, (reverseGoS a n h x).1 = Heap.reverse.go a n h x := by
  intro n
  induction n with
  | zero => intro h x; rfl
  | succ n ih =>
    intro h x
    unfold reverseGoS Heap.reverse.go
    simp only
    split
    · rfl
    · exact ih ..

theorem removeGoS_fst (pred : Nat → Id → Option Bool) (a : Id) : ∀ n h k x, (removeGoS pred a n h k x).1 = removeGo pred a n h k x := by
  intro n
  induction n with
  | zero => intro h k x; unfold removeGoS removeGo; split <;> rfl
  | succ n ih =>
    intro h k x
    unfold removeGoS removeGo
    split
    · simp only
      cases pred k x with
      | none => rfl
      | some b =>
        cases b with
        | false => exact ih ..
        | true =>
          simp only
          rw [← ih]
          rcases removeGoS pred a n (eraseAt h x).1 (k + 1) (h.next x) with ⟨_ | _ | _ | _, t⟩ <;> rfl
    · rfl

theorem uniqueGoS_fst (pred : Nat → Id → Id → Option Bool) (a : Id) : ∀ n h k x, (uniqueGoS pred a n h k x).1 = uniqueGo pred a n h k x := by
  intro n
  induction n with
  | zero => intro h k x; unfold uniqueGoS uniqueGo; simp only; split <;> rfl
  | succ n ih =>
    intro h k x
    unfold uniqueGoS uniqueGo
    simp only
    split
    · cases pred k (h.next x) x with
      | none => rfl
      | some b =>
        cases b with
        | false => exact ih ..
        | true =>
          simp only
          rw [← ih]
          rcases uniqueGoS pred a n (eraseAt h (h.next x)).1 (k + 1) x with ⟨_ | _ | _ | _, t⟩ <;> rfl
    · rfl

theorem mergeGoS_fst (cmp : Cmp) (dec : Id → Option Bool) (a b : Id) : ∀ n h k x y, (mergeGoS cmp dec a b n h k x y).1 = mergeGo cmp dec a b n h k x y := by
  intro n
  induction n with
  | zero =>
    intro h k x y
    unfold mergeGoS mergeGo
    split
    · rfl
    · cases deleteAllGo h b 0 y <;> rfl
  | succ n ih =>
    intro h k x y
    unfold mergeGoS mergeGo
    split
    · simp only
      cases cmp k y x with
      | none => rfl
      | some c =>
        cases c with
        | false => exact ih ..
        | true =>
          simp only
          cases externalSplice1 h a x y (dec y) <;> first | rfl | exact ih ..
    · cases deleteAllGo h b (n + 1) y <;> rfl

end MI.Seq
