import Verif.Cont.Copy
/-!
# The time copying takes

The functions of `CopyModel.lean` once more, with the rounds of all loops counted, those of the binary search of the copy map and of the initialization of bucket arrays included. Every
function is followed by a theorem which says that the results are the same.
-/
namespace MI

/-- `k` rounds more. -/
def plus {α : Type} (k : Nat) (o : α × Nat) : α × Nat := (o.1, o.2 + k)

@[simp] theorem plus_fst {α : Type} (k : Nat) (o : α × Nat) : (plus k o).1 = o.1 := rfl
@[simp] theorem plus_snd {α : Type} (k : Nat) (o : α × Nat) : (plus k o).2 = o.2 + k := rfl

/-- `std::lower_bound`, see `Ser.lowerBound` (`Verif/Ser/Matcher.lean`). -/
def lowerBoundS (p : Nat → Bool) : (fuel first len : Nat) → Nat × Nat
  | 0, first, _ => (first, 0)
  | fuel + 1, first, len =>
    if len = 0 then (first, 0)
    else
      let half := len / 2
      if p (first + half) then plus 1 (lowerBoundS p fuel (first + half + 1) (len - half - 1))
      else plus 1 (lowerBoundS p fuel first half)

theorem lowerBoundS_fst (p : Nat → Bool) : ∀ n i l, (lowerBoundS p n i l).1 = Ser.lowerBound p n i l
  | 0, _, _ => rfl
  | n + 1, i, l => by
    unfold lowerBoundS Ser.lowerBound
    split
    · rfl
    · simp only
      split <;> simp only [plus_fst, lowerBoundS_fst p n]

/-- `find(node)`: copy_map.hpp:108-113. -/
def CopyMap.findS (m : CopyMap) (x : Id) : Option Id × Nat :=
  if x = m.hdOrg then (some m.hdCpy, 0)
  else
    let k := lowerBoundS (fun k => decide ((m.entries.getD k (0, 0)).1 < x)) m.entries.length 0 m.entries.length
    ((m.entries[k.1]?).map (·.2), k.2)

theorem CopyMap.findS_fst (m : CopyMap) (x : Id) : (m.findS x).1 = m.find x := by
  unfold findS find
  split
  · rfl
  · simp only [lowerBoundS_fst]

variable {f : Id → Option Id} {g : Id → Option Id × Nat}

namespace Seq

/-- The loop of `copy_`: sequenced_index.hpp:726-734. -/
def copyLoopS (g : Id → Option Id × Nat) (h : Heap) (hd : Id) : Nat → Id → Id → Heap → Option Heap × Nat
  | 0, _, _, _ => (none, 0)
  | n + 1, org, cpy, c =>
    let nextOrg := h.next org
    match g nextOrg with
    | (none, k) => (none, k + 1)
    | (some nextCpy, k) =>
      let c := c.setNext cpy nextCpy
      let c := c.setPrior nextCpy cpy
      if nextOrg = hd then (some c, k + 1) else plus (k + 1) (copyLoopS g h hd n nextOrg nextCpy c)

/-- `copy_`: sequenced_index.hpp:721-737. -/
def copyS (g : Id → Option Id × Nat) (n : Nat) (h : Heap) (hd : Id) (c : Heap) (hd' : Id) : Option Heap × Nat := copyLoopS g h hd n hd hd' c

theorem copyLoopS_fst (hg : ∀ x, (g x).1 = f x) (h : Heap) (hd : Id) : ∀ n x y c, (copyLoopS g h hd n x y c).1 = copyLoop f h hd n x y c
  | 0, _, _, _ => rfl
  | n + 1, x, y, c => by
    unfold copyLoopS copyLoop
    have e := hg (h.next x)
    rcases q : g (h.next x) with ⟨_ | z, k⟩ <;> rw [q] at e <;> simp only at e <;> simp only [q, ← e]
    split
    · rfl
    · rw [plus_fst, copyLoopS_fst hg h hd n]

theorem copyS_fst (hg : ∀ x, (g x).1 = f x) (n : Nat) (h : Heap) (hd : Id) (c : Heap) (hd' : Id) : (copyS g n h hd c hd').1 = copy f n h hd c hd' :=
  copyLoopS_fst hg h hd n hd hd' c

end Seq

namespace Rnd

/-- The loop of `copy_`: random_access_index.hpp:811-821. -/
def copyLoopS (g : Id → Option Id × Nat) (s : Arr) : Nat → Nat → Arr → Option Arr × Nat
  | 0, _, c => (some c, 0)
  | k + 1, p, c =>
    match g (s.arr p) with
    | (none, j) => (none, j + 1)
    | (some y, j) => plus (j + 1) (copyLoopS g s k (p + 1) (c.put p y))

/-- `copy_`: random_access_index.hpp:808-824. -/
def copyS (g : Id → Option Id × Nat) (s : Arr) (count : Nat) (junk : Nat → Id) (up : Id → Nat) (hd' : Id) : Option Arr × Nat :=
  copyLoopS g s s.size 0 (newArr junk up hd' count)

theorem copyLoopS_fst (hg : ∀ x, (g x).1 = f x) (s : Arr) : ∀ k p c, (copyLoopS g s k p c).1 = copyLoop f s k p c
  | 0, _, _ => rfl
  | k + 1, p, c => by
    unfold copyLoopS copyLoop
    have e := hg (s.arr p)
    rcases q : g (s.arr p) with ⟨_ | z, j⟩ <;> rw [q] at e <;> simp only at e <;> simp only [q, ← e]
    rw [plus_fst, copyLoopS_fst hg s k]

end Rnd

namespace Ord

/-- Body of the loop of `copy_` for one entry of the map: ord_index_impl.hpp:810-836. The time is that of `map.find`, as there are no other loops. -/
def copyEntryS (g : Id → Option Id × Nat) (h c : Heap) (org cpy : Id) : Option Heap × Nat :=
  (copyEntry (fun x => (g x).1) h c org cpy, if h.parent org = 0 then 0 else (g (h.parent org)).2)

/-- The loop of `copy_`: ord_index_impl.hpp:809-836. -/
def copyEntriesS (g : Id → Option Id × Nat) (h : Heap) : List (Id × Id) → Heap → Option Heap × Nat
  | [], c => (some c, 0)
  | e :: es, c =>
    match copyEntryS g h c e.1 e.2 with
    | (none, k) => (none, k + 1)
    | (some c, k) => plus (k + 1) (copyEntriesS g h es c)

/-- `copy_`: ord_index_impl.hpp:784-840. -/
def copyS (g : Id → Option Id × Nat) (es : List (Id × Id)) (h : Heap) (hd : Id) (c : Heap) (hd' : Id) : Option Heap × Nat :=
  if h.parent hd = 0 then (some (emptyInit c hd'), 0)
  else
    let c := c.setColor hd' (h.color hd)
    let c := c.setSize hd' (h.size hd)
    let k := (g (h.parent hd)).2 + (g (h.left hd)).2 + (g (h.right hd)).2
    match (g (h.parent hd)).1, (g (h.left hd)).1, (g (h.right hd)).1 with
    | some root, some leftmost, some rightmost =>
      let c := c.setParent hd' root
      let c := c.setLeft hd' leftmost
      let c := c.setRight hd' rightmost
      plus k (copyEntriesS g h es c)
    | _, _, _ => (none, k)

theorem copyEntriesS_fst (hg : ∀ x, (g x).1 = f x) (h : Heap) : ∀ es c, (copyEntriesS g h es c).1 = copyEntries f h es c
  | [], _ => rfl
  | e :: es, c => by
    have : (fun x => (g x).1) = f := funext hg
    unfold copyEntriesS copyEntries copyEntryS
    rw [this]
    generalize copyEntry f h c e.1 e.2 = o
    rcases o with _ | c
    · rfl
    · exact copyEntriesS_fst hg h es c

theorem copyS_fst (hg : ∀ x, (g x).1 = f x) (es : List (Id × Id)) (h : Heap) (hd : Id) (c : Heap) (hd' : Id) : (copyS g es h hd c hd').1 = copy f es h hd c hd' := by
  unfold copyS copy
  split
  · rfl
  · simp only [hg]
    rcases f (h.parent hd) with _ | a <;> [rfl; skip]
    rcases f (h.left hd) with _ | b <;> [rfl; skip]
    rcases f (h.right hd) with _ | d <;> [rfl; skip]
    exact copyEntriesS_fst hg h es _

end Ord

namespace Hash

/-- The loop of `copy_` for unique indices: hashed_index.hpp:857-875. -/
def copyLoopUS (g : Id → Option Id × Nat) (h : Heap) (a b : Arr) (hd : Id) : Nat → Id → Id → Heap → Option Heap × Nat
  | 0, _, _, _ => (none, 0)
  | n + 1, org, cpy, c =>
    let prevOrg := h.prior org
    match g prevOrg with
    | (none, k) => (none, k + 1)
    | (some prevCpy, k) =>
      let c := c.setPrior cpy prevCpy
      let c :=
        if U.isFirstOfBucket h org then
          let bucCpy := b.base + (h.next prevOrg - a.base)
          let c := c.setNext prevCpy bucCpy
          c.setPrior bucCpy cpy
        else c.setNext prevCpy cpy
      if prevOrg = hd then (some c, k + 1) else plus (k + 1) (copyLoopUS g h a b hd n prevOrg prevCpy c)

/-- The links of one round of the loop for non-unique indices: hashed_index.hpp:893-923. There are at most two more calls of `map.find`. -/
def copyRoundNS (g : Id → Option Id × Nat) (h : Heap) (a b : Arr) (org nextOrg cpy nextCpy : Id) (c : Heap) : Option Heap × Nat :=
  if N.isFirstOfBucket h nextOrg then
    let bucCpy := b.base + (h.next org - a.base)
    let c := c.setNext cpy bucCpy
    let c := c.setPrior bucCpy nextCpy
    (some (c.setPrior nextCpy cpy), 0)
  else
    let c' : Option Heap × Nat :=
      if h.next org = nextOrg then (some (c.setNext cpy nextCpy), 0)
      else
        match g (h.next org) with
        | (none, k) => (none, k)
        | (some y, k) => (some (c.setNext cpy y), k)
    match c' with
    | (none, k) => (none, k)
    | (some c, k) =>
      if h.prior nextOrg ≠ org then
        match g (h.prior nextOrg) with
        | (none, j) => (none, k + j)
        | (some y, j) => (some (c.setPrior nextCpy y), k + j)
      else (some (c.setPrior nextCpy cpy), k)

/-- The loop of `copy_` for non-unique indices: hashed_index.hpp:889-927. -/
def copyLoopNS (g : Id → Option Id × Nat) (h : Heap) (a b : Arr) (hd : Id) : Nat → Id → Id → Heap → Option Heap × Nat
  | 0, _, _, _ => (none, 0)
  | n + 1, org, cpy, c =>
    let nextOrg := N.after h org
    match g nextOrg with
    | (none, k) => (none, k + 1)
    | (some nextCpy, k) =>
      match copyRoundNS g h a b org nextOrg cpy nextCpy c with
      | (none, j) => (none, k + j + 1)
      | (some c, j) => if nextOrg = hd then (some c, k + j + 1) else plus (k + j + 1) (copyLoopNS g h a b hd n nextOrg nextCpy c)

/-- Loop of `clear`: bucket_array.hpp:165. -/
def clearLoopS (b : Id) : Nat → Heap → Heap × Nat
  | 0, h => (h, 0)
  | n + 1, h => plus 1 (clearLoopS b n (h.setPrior (b + n) 0))

/-- `clear(end_)`: bucket_array.hpp:163-168. -/
def clearS (h : Heap) (a : Arr) (hd : Id) : Heap × Nat :=
  let r := clearLoopS a.base a.size h
  let h := r.1.setPrior hd hd
  let h := h.setPrior a.endB hd
  (h.setNext hd a.endB, r.2)

theorem clearLoopS_eq (b : Id) : ∀ n h, clearLoopS b n h = (clearLoop b n h, n)
  | 0, _ => rfl
  | n + 1, h => by rw [clearLoopS, clearLoopS_eq b n, clearLoop]; rfl

theorem clearS_eq (h : Heap) (a : Arr) (hd : Id) : clearS h a hd = (clear h a hd, a.size) := by
  simp only [clearS, clear, clearLoopS_eq]

/-- `copy_` (hashed_index.hpp:842-931) into the bucket array `b`, which the constructor initializes (bucket_array.hpp:142-147). -/
def copyS (ct : Cat) (g : Id → Option Id × Nat) (n : Nat) (h : Heap) (a : Arr) (count : Nat) (hd : Id) (c : Heap) (b : Arr) (hd' : Id) : Option Heap × Nat :=
  let c := clearS c b hd'
  if count ≠ 0 then
    match ct with
    | .uniq => plus c.2 (copyLoopUS g h a b hd n hd hd' c.1)
    | .multi => plus c.2 (copyLoopNS g h a b hd n hd hd' c.1)
  else (some c.1, c.2)

theorem copyLoopUS_fst (hg : ∀ x, (g x).1 = f x) (h : Heap) (a b : Arr) (hd : Id) : ∀ n x y c, (copyLoopUS g h a b hd n x y c).1 = copyLoopU f h a b hd n x y c
  | 0, _, _, _ => rfl
  | n + 1, x, y, c => by
    rw [copyLoopUS, copyLoopU]
    have e := hg (h.prior x)
    rcases q : g (h.prior x) with ⟨_ | z, k⟩ <;> rw [q] at e <;> simp only at e <;> simp only [q, ← e]
    generalize (if U.isFirstOfBucket h x = true then _ else _ : Heap) = c'
    split
    · rfl
    · rw [plus_fst, copyLoopUS_fst hg h a b hd n]

theorem copyLoopNS_fst (hg : ∀ x, (g x).1 = f x) (h : Heap) (a b : Arr) (hd : Id) : ∀ n x y c, (copyLoopNS g h a b hd n x y c).1 = copyLoopN f h a b hd n x y c
  | 0, _, _, _ => rfl
  | n + 1, x, y, c => by
    rw [copyLoopNS, copyLoopN]
    have e := hg (N.after h x)
    rcases q : g (N.after h x) with ⟨_ | z, k⟩ <;> rw [q] at e <;> simp only at e <;> simp only [q, ← e]
    have r : ∀ c' : Option Heap, (copyRoundNS g h a b x (N.after h x) y z c).1 = c' →
        (match copyRoundNS g h a b x (N.after h x) y z c with
          | (none, j) => (none, k + j + 1)
          | (some c, j) => if N.after h x = hd then (some c, k + j + 1) else plus (k + j + 1) (copyLoopNS g h a b hd n (N.after h x) z c)).1 =
        match c' with
        | none => none
        | some c => if N.after h x = hd then some c else copyLoopN f h a b hd n (N.after h x) z c := by
      rintro _ rfl
      generalize copyRoundNS g h a b x (N.after h x) y z c = o
      rcases o with ⟨_ | c', j⟩
      · rfl
      · simp only
        split
        · rfl
        · rw [plus_fst, copyLoopNS_fst hg h a b hd n]
    apply r
    have e1 := hg (h.next x)
    have e2 := hg (h.prior (N.after h x))
    unfold copyRoundNS
    generalize g (h.next x) = o1 at e1 ⊢
    generalize g (h.prior (N.after h x)) = o2 at e2 ⊢
    rw [← e1, ← e2]
    rcases o1 with ⟨_ | p, i⟩ <;> rcases o2 with ⟨_ | s, j⟩ <;> by_cases t1 : N.isFirstOfBucket h (N.after h x) = true <;> by_cases t2 : h.next x = N.after h x <;>
      by_cases t3 : h.prior (N.after h x) = x <;> simp [t1, t2, t3]

theorem copyS_fst (hg : ∀ x, (g x).1 = f x) (ct : Cat) (n : Nat) (h : Heap) (a : Arr) (count : Nat) (hd : Id) (c : Heap) (b : Arr) (hd' : Id) :
    (copyS ct g n h a count hd c b hd').1 = copy ct f n h a count hd c b hd' := by
  unfold copyS copy
  simp only [clearS_eq]
  split
  · cases ct
    · exact copyLoopUS_fst hg ..
    · exact copyLoopNS_fst hg ..
  · rfl

end Hash

namespace Cont
variable {V : Type}

/-- The copy of one index: `Layer.copy`. -/
def Layer.copyS (g : Id → Option Id × Nat) (es : List (Id × Id)) (n count : Nat) (hd hd' z : Id) (e : Env) : Layer V → Option (Layer V) × Nat
  | .ord u lt h =>
    let r := Ord.copyS g es h hd ⟨fun _ => z, fun _ => z, fun _ => z, fun _ => .red, fun _ => z⟩ hd'
    (r.1.map (.ord u lt ·), r.2)
  | .hash c eq hf pol ml h a =>
    let b : Hash.Arr := ⟨e.base, Hash.sizeFor Hash.sizes a.size⟩
    let r := Hash.copyS c g n h a count hd ⟨fun _ => z, fun _ => z⟩ b hd'
    (r.1.map (.hash c eq hf pol ml · b), r.2)
  | .seq h =>
    let r := Seq.copyS g n h hd ⟨fun _ => z, fun _ => z⟩ hd'
    (r.1.map .seq, r.2)
  | .rnd s =>
    let r := Rnd.copyS g s count e.junk (fun _ => z) hd'
    (r.1.map .rnd, r.2)

/-- The copies of all indices. -/
def copyLsS (g : Id → Option Id × Nat) (es : List (Id × Id)) (n count : Nat) (hd hd' z : Id) : (Nat → Env) → List (Layer V) → Option (List (Layer V)) × Nat
  | _, [] => (some [], 0)
  | e, L :: Ls =>
    let r := L.copyS g es n count hd hd' z (e 0)
    let s := copyLsS g es n count hd hd' z (fun i => e (i + 1)) Ls
    (match r.1, s.1 with
      | some L, some Ls => some (L :: Ls)
      | _, _ => none, r.2 + s.2)

theorem Layer.copyS_fst (hg : ∀ x, (g x).1 = f x) (es : List (Id × Id)) (n count : Nat) (hd hd' z : Id) (e : Env) (L : Layer V) :
    (L.copyS g es n count hd hd' z e).1 = L.copy f es n count hd hd' z e := by
  cases L with
  | ord => simp only [copyS, copy, Ord.copyS_fst hg]
  | hash => simp only [copyS, copy, Hash.copyS_fst hg]
  | seq => simp only [copyS, copy, Seq.copyS_fst hg]
  | rnd => simp only [copyS, copy, Rnd.copyS, Rnd.copyLoopS_fst hg]; rfl

theorem copyLsS_fst (hg : ∀ x, (g x).1 = f x) (es : List (Id × Id)) (n count : Nat) (hd hd' z : Id) :
    ∀ (Ls : List (Layer V)) e, (copyLsS g es n count hd hd' z e Ls).1 = copyLs f es n count hd hd' z e Ls
  | [], _ => rfl
  | L :: Ls, e => by
    simp only [copyLsS, copyLs, Layer.copyS_fst hg, copyLsS_fst hg es n count hd hd' z Ls]
    rcases L.copy f es n count hd hd' z (e 0) with _ | a <;> rcases copyLs f es n count hd hd' z (fun i => e (i + 1)) Ls with _ | b <;> rfl

/-- The copy constructors: `Container.copy`. The calls of `clone` are counted, the calls of `deallocate` after an exception, and all that the copies of the indices take. `S` is what
`std::sort` takes, of which the standard says that it is proportional to `n*log(n)`. What the increments of the iterator take is C69. -/
def Container.copyS (S : Nat → Nat) (m : Mem V) (c : Container V) (hd' z : Id) (ns : List Id) (e : Nat → Env) (F : CopyFault) : Out (Mem V × Option (Container V)) × Nat :=
  if F.header then (.threw (m, none), 0)
  else
    let m := m.allocate hd'
    if F.index || F.space then (dropHeader m hd', 0)
    else
      match c.ls with
      | [] => (.ub, 0)
      | L :: _ =>
        match L.walk c.budget c.hd with
        | none => (.hang, 0)
        | some xs =>
          match cloneAll F.clone 0 m xs ns [] with
          | .threw (m, es) =>
            (match m.deleteNodes (es.map (·.2)) with
            | none => .ub
            | some m => dropHeader m hd', es.length + 1 + es.length)
          | .ok (m, es) =>
            let map : CopyMap := ⟨sortEntries c.count es, c.hd, hd'⟩
            let r := copyLsS map.findS map.entries c.budget c.count c.hd hd' z e c.ls
            (match r.1 with
            | none => .ub
            | some ls => .ok (m, some ⟨hd', ls, c.count⟩), es.length + S es.length + r.2)
          | .ub => (.ub, 0)
          | .hang => (.hang, 0)

theorem Container.copyS_fst (S : Nat → Nat) (m : Mem V) (c : Container V) (hd' z : Id) (ns : List Id) (e : Nat → Env) (F : CopyFault) :
    (c.copyS S m hd' z ns e F).1 = c.copy m hd' z ns e F := by
  unfold copyS copy
  simp only
  split
  · rfl
  split
  · rfl
  generalize c.ls = l
  rcases l with _ | ⟨L, Ls⟩
  · rfl
  simp only
  generalize L.walk c.budget c.hd = o
  rcases o with _ | xs
  · rfl
  simp only
  generalize cloneAll F.clone 0 (m.allocate hd') xs ns [] = o
  rcases o with ⟨m', es⟩ | ⟨m', es⟩ | _ | _ <;> simp only [copyLsS_fst (CopyMap.findS_fst _)] <;> rfl

end Cont
end MI
