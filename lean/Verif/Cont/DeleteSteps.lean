import Verif.Cont.CopyStepsLemmas
import Verif.Cont.DeleteLemmas
import Verif.Cont.Container
import Verif.Ord.RankLemmas
/-!
# What destroying all elements takes

The functions of `Verif/Cont/Delete.lean` with the rounds of their loops, or the number of calls of the recursive function, and with the largest number of calls of that function that
are active at the same time.
-/
set_option linter.unusedVariables false
namespace MI.Cont
open MI
variable {V : Type}

/-- Rounds of loops and calls of recursive functions; calls active at the same time. -/
structure Cost where
  rounds : Nat
  depth : Nat
  deriving Repr, DecidableEq

/-- `delete_all_nodes(x)`: ord_index_impl.hpp:1301-1308, as `deleteOrd`. This call is one, and is active during those it makes. -/
def deleteOrdS (h : Ord.Heap) : Nat → List Id → Id → Out (List Id) × Cost
  | n, fr, x =>
    if x = 0 then (.ok fr, ⟨1, 1⟩)
    else
      match n with
      | 0 => (.hang, ⟨1, 1⟩)
      | n + 1 =>
        if x ∈ fr then (.ub, ⟨1, 1⟩)
        else
          match deleteOrdS h n fr (h.left x) with
          | (.ok fr, a) =>
            if x ∈ fr then (.ub, ⟨a.rounds + 1, a.depth + 1⟩)
            else
              match deleteOrdS h n fr (h.right x) with
              | (.ok fr, b) => (.ok (x :: fr), ⟨a.rounds + b.rounds + 1, max a.depth b.depth + 1⟩)
              | (r, b) => (r, ⟨a.rounds + b.rounds + 1, max a.depth b.depth + 1⟩)
          | (r, a) => (r, ⟨a.rounds + 1, a.depth + 1⟩)

/-- The loops of `delete_all_nodes_(hashed_unique_tag)` and `delete_all_nodes_(hashed_non_unique_tag)`: hashed_index.hpp:986-1013, as `deleteHash`. -/
def deleteHashS (c : Hash.Cat) (hd : Id) : Nat → Hash.Heap → List Id → Id → Out (List Id) × Nat
  | n, h, fr, x =>
    if x = hd then (.ok fr, 0)
    else
      match n with
      | 0 => (.hang, 0)
      | n + 1 =>
        if x ∈ fr then (.ub, 1)
        else
          let y := h.prior x
          match c with
          | .uniq => plus 1 (deleteHashS c hd n h (x :: fr) y)
          | .multi =>
            if y ∈ fr then (.ub, 1)
            else if h.next y ≠ x then
              if h.next y ∈ fr then (.ub, 1)
              else if h.prior (h.next y) ≠ x then
                let first := h.next y
                if h.next first ∈ fr then (.ub, 1)
                else plus 1 (deleteHashS c hd n (h.setPrior (h.next first) first) (x :: fr) y)
              else plus 1 (deleteHashS c hd n h (x :: fr) y)
            else plus 1 (deleteHashS c hd n h (x :: fr) y)

/-- The loop of `delete_all_nodes_()` of sequenced indices: sequenced_index.hpp:769-777, as `deleteSeq`. -/
def deleteSeqS (h : Seq.Heap) (hd : Id) : Nat → List Id → Id → Out (List Id) × Nat
  | n, fr, x =>
    if x = hd then (.ok fr, 0)
    else
      match n with
      | 0 => (.hang, 0)
      | n + 1 => if x ∈ fr then (.ub, 1) else plus 1 (deleteSeqS h hd n (x :: fr) (h.next x))

/-- The nodes in the order of deletion. -/
def reversed : Out (List Id) → Out (List Id)
  | .ok fr => .ok fr.reverse
  | r => r

/-- `delete_all_nodes_()`, as `Layer.deleteAll`: ord_index_impl.hpp:893-896, hashed_index.hpp:981-1013, sequenced_index.hpp:769-777,
random_access_index.hpp:858-864 (a round for each pointer of the array). -/
def Layer.deleteAllS (n : Nat) (hd : Id) : Layer V → Out (List Id) × Cost
  | .ord _ _ h => let r := deleteOrdS h n [] (h.parent hd); (reversed r.1, r.2)
  | .hash c _ _ _ _ h _ => let r := deleteHashS c hd n h [] (h.prior hd); (reversed r.1, ⟨r.2, 0⟩)
  | .seq h => let r := deleteSeqS h hd n [] (h.next hd); (reversed r.1, ⟨r.2, 0⟩)
  | .rnd s => (.ok ((List.range s.size).map s.arr), ⟨s.size, 0⟩)

/-- `clear_()` of an index, as `Layer.clear`, with its rounds: only `buckets.clear(header)` (hashed_index.hpp:1018) has a loop. -/
def Layer.clearS (hd : Id) : Layer V → Layer V × Nat
  | .ord u lt h => (.ord u lt (Ord.emptyInit h hd), 0)
  | .hash c eq hf pol ml h a => let r := Hash.clearS h a hd; (.hash c eq hf pol ml r.1 a, r.2)
  | .seq h => (.seq (h.emptyInit hd), 0)
  | .rnd s => (.rnd (Rnd.clear s), 0)

/-- `super::clear_()` chain: ord_index_impl.hpp:898-906, hashed_index.hpp:1015-1023, sequenced_index.hpp:779-787, random_access_index.hpp:866-874, as `clearC`. -/
def clearCS (hd : Id) : List (Layer V) → List (Layer V) × Nat
  | [] => ([], 0)
  | L :: Ls => let a := L.clearS hd; let b := clearCS hd Ls; (a.1 :: b.1, a.2 + b.2)

/-- `delete_all_nodes_()`: multi_index_container.hpp:964-967, as `Container.deleteAll`. -/
def Container.deleteAllS (m : Mem V) (c : Container V) : Out (Mem V) × Cost :=
  match c.ls with
  | [] => (.ok m, ⟨0, 0⟩)
  | L :: _ =>
    match L.deleteAllS c.budget c.hd with
    | (.ok xs, k) => (match m.deleteNodes xs with | none => .ub | some m => .ok m, k)
    | (.threw _, k) => (.hang, k)
    | (.ub, k) => (.ub, k)
    | (.hang, k) => (.hang, k)

/-- `clear_()`: multi_index_container.hpp:969-974, as `Container.clear`. -/
def Container.clearS (m : Mem V) (c : Container V) : Out (Res V) × Cost :=
  match c.deleteAllS m with
  | (.ok m, k) => let r := clearCS c.hd c.ls; (.ok ⟨m, { c with ls := r.1, count := 0 }, 0, true⟩, ⟨k.rounds + r.2, k.depth⟩)
  | (.threw _, k) => (.hang, k)
  | (.ub, k) => (.ub, k)
  | (.hang, k) => (.hang, k)

/-! ## They do what the functions they count for do -/

theorem deleteOrdS_fst (h : Ord.Heap) : ∀ n fr x, (deleteOrdS h n fr x).1 = deleteOrd h n fr x
  | 0, fr, x => by unfold deleteOrdS deleteOrd; split <;> rfl
  | n + 1, fr, x => by
    unfold deleteOrdS deleteOrd
    split
    · rfl
    simp only
    split
    · rfl
    have i := deleteOrdS_fst h n fr (h.left x)
    rw [← i]
    rcases deleteOrdS h n fr (h.left x) with ⟨_ | _ | _ | _, a⟩ <;> try rfl
    rename_i fr1
    simp only
    split
    · rfl
    rw [← deleteOrdS_fst h n fr1 (h.right x)]
    rcases deleteOrdS h n fr1 (h.right x) with ⟨_ | _ | _ | _, b⟩ <;> rfl

theorem deleteHashS_fst (c : Hash.Cat) (hd : Id) : ∀ n h fr x, (deleteHashS c hd n h fr x).1 = deleteHash c hd n h fr x
  | 0, h, fr, x => by unfold deleteHashS deleteHash; split <;> rfl
  | n + 1, h, fr, x => by
    unfold deleteHashS deleteHash
    cases c <;> simp only <;> (repeat' split) <;> first | rfl | exact deleteHashS_fst ..

theorem deleteSeqS_fst (h : Seq.Heap) (hd : Id) : ∀ n fr x, (deleteSeqS h hd n fr x).1 = deleteSeq h hd n fr x
  | 0, fr, x => by unfold deleteSeqS deleteSeq; split <;> rfl
  | n + 1, fr, x => by
    unfold deleteSeqS deleteSeq
    simp only
    (repeat' split) <;> first | rfl | exact deleteSeqS_fst ..

theorem Layer.deleteAllS_fst (n : Nat) (hd : Id) (L : Layer V) : (L.deleteAllS n hd).1 = L.deleteAll n hd := by
  cases L with
  | ord u lt h => simp only [deleteAllS, deleteAll, deleteOrdS_fst]; cases deleteOrd h n [] (h.parent hd) <;> rfl
  | hash c eq hf pol ml h a => simp only [deleteAllS, deleteAll, deleteHashS_fst]; cases deleteHash c hd n h [] (h.prior hd) <;> rfl
  | seq h => simp only [deleteAllS, deleteAll, deleteSeqS_fst]; cases deleteSeq h hd n [] (h.next hd) <;> rfl
  | rnd s => rfl

theorem Layer.clearS_eq (hd : Id) (L : Layer V) : L.clearS hd = (L.clear hd, L.buckets) := by
  cases L <;> simp only [clearS, clear, buckets, Hash.clearS_eq]

theorem clearCS_eq (hd : Id) : ∀ Ls : List (Layer V), clearCS hd Ls = (clearC hd Ls, (Ls.map Layer.buckets).sum)
  | [] => rfl
  | L :: Ls => by simp only [clearCS, clearC, Layer.clearS_eq, clearCS_eq hd Ls, List.map_cons, List.sum_cons]

theorem Container.deleteAllS_fst (m : Mem V) (c : Container V) : (c.deleteAllS m).1 = c.deleteAll m := by
  unfold deleteAllS deleteAll
  cases c.ls with
  | nil => rfl
  | cons L Ls =>
    simp only [← Layer.deleteAllS_fst]
    rcases L.deleteAllS c.budget c.hd with ⟨_ | _ | _ | _, k⟩ <;> rfl

theorem Container.clearS_fst (m : Mem V) (c : Container V) : (c.clearS m).1 = c.clear m := by
  unfold clearS clear
  rw [← Container.deleteAllS_fst]
  rcases c.deleteAllS m with ⟨_ | _ | _ | _, k⟩ <;> simp only [clearCS_eq]

/-! ## Bounds -/

theorem deleteOrdS_rounds {h : Ord.Heap} : ∀ {n fr x ys}, deleteOrd h n fr x = .ok ys → (deleteOrdS h n fr x).2.rounds + 2 * fr.length = 2 * ys.length + 1
  | 0, fr, x, ys, e => by
    unfold deleteOrd at e; unfold deleteOrdS
    split at e
    · rename_i k; cases e; rw [if_pos k]; simp only; omega
    · nomatch e
  | n + 1, fr, x, ys, e => by
    unfold deleteOrd at e; unfold deleteOrdS
    split at e
    · rename_i k; cases e; rw [if_pos k]; simp only; omega
    rename_i k
    rw [if_neg k]
    simp only at e ⊢
    split at e
    · nomatch e
    rename_i k1
    rw [if_neg k1]
    cases e1 : deleteOrd h n fr (h.left x) with
    | ok f1 =>
      rw [e1] at e
      simp only at e
      have i := deleteOrdS_rounds e1
      have j := deleteOrdS_fst h n fr (h.left x)
      rw [e1] at j
      obtain ⟨a, ha⟩ : ∃ a, deleteOrdS h n fr (h.left x) = (.ok f1, a) := ⟨_, Prod.ext j rfl⟩
      rw [ha] at i ⊢
      simp only at i ⊢
      split at e
      · nomatch e
      rename_i k2
      rw [if_neg k2]
      cases e2 : deleteOrd h n f1 (h.right x) with
      | ok f2 =>
        rw [e2] at e
        cases e
        have i2 := deleteOrdS_rounds e2
        have j2 := deleteOrdS_fst h n f1 (h.right x)
        rw [e2] at j2
        obtain ⟨b, hb⟩ : ∃ b, deleteOrdS h n f1 (h.right x) = (.ok f2, b) := ⟨_, Prod.ext j2 rfl⟩
        rw [hb] at i2 ⊢
        simp only [List.length_cons] at i2 ⊢
        omega
      | threw _ => rw [e2] at e; nomatch e
      | ub => rw [e2] at e; nomatch e
      | hang => rw [e2] at e; nomatch e
    | threw _ => rw [e1] at e; nomatch e
    | ub => rw [e1] at e; nomatch e
    | hang => rw [e1] at e; nomatch e

/-- No more calls are active than there are nodes on a path, and one for the null pointer. -/
theorem deleteOrdS_depth {h : Ord.Heap} : ∀ {t : Ord.T} {n : Nat} {fr : List Id} {par : Id}, Ord.At h par t → (deleteOrdS h n fr t.root).2.depth ≤ t.height + 1
  | .nil, n, fr, par, _ => by unfold deleteOrdS; simp [Ord.T.root]
  | .node c s l x r, n, fr, par, ha => by
    obtain ⟨-, -, -, h1, h2, h3, h4⟩ := ha
    show (deleteOrdS h n fr x).2.depth ≤ max l.height r.height + 1 + 1
    unfold deleteOrdS
    split
    · simp
    cases n with
    | zero => simp
    | succ n =>
      simp only [h1, h2]
      split
      · simp
      have i := deleteOrdS_depth (n := n) (fr := fr) h3
      generalize deleteOrdS h n fr l.root = p at i ⊢
      rcases p with ⟨_ | _ | _ | _, a⟩ <;> simp only at i ⊢ <;> try omega
      rename_i f1
      split
      · simp only; omega
      have j := deleteOrdS_depth (n := n) (fr := f1) h4
      generalize deleteOrdS h n f1 r.root = q at j ⊢
      rcases q with ⟨_ | _ | _ | _, b⟩ <;> simp only at j ⊢ <;> omega

theorem deleteHashS_rounds {c : Hash.Cat} {hd : Id} : ∀ {n h fr x ys}, deleteHash c hd n h fr x = .ok ys → (deleteHashS c hd n h fr x).2 + fr.length = ys.length
  | 0, h, fr, x, ys, e => by
    unfold deleteHash at e; unfold deleteHashS
    split at e
    · rename_i k; cases e; rw [if_pos k]; simp only; omega
    · nomatch e
  | n + 1, h, fr, x, ys, e => by
    have go : ∀ {h' y}, deleteHash c hd n h' (x :: fr) y = .ok ys → (plus 1 (deleteHashS c hd n h' (x :: fr) y)).2 + fr.length = ys.length := by
      intro h' y e
      have := deleteHashS_rounds e
      simp only [List.length_cons, plus_snd] at this ⊢
      omega
    unfold deleteHash at e; unfold deleteHashS
    split at e
    · rename_i k; cases e; rw [if_pos k]; simp only; omega
    rename_i k
    rw [if_neg k]
    simp only at e ⊢
    split at e
    · nomatch e
    rename_i k
    rw [if_neg k]
    cases c with
    | uniq => exact go e
    | multi =>
      simp only at e ⊢
      split at e
      · nomatch e
      rename_i k
      rw [if_neg k]
      split at e
      · rename_i k
        rw [if_pos k]
        split at e
        · nomatch e
        rename_i k
        rw [if_neg k]
        split at e
        · rename_i k
          rw [if_pos k]
          split at e
          · nomatch e
          rename_i k
          rw [if_neg k]
          exact go e
        · rename_i k
          rw [if_neg k]
          exact go e
      · rename_i k
        rw [if_neg k]
        exact go e

theorem deleteSeqS_rounds {h : Seq.Heap} {hd : Id} : ∀ {n fr x ys}, deleteSeq h hd n fr x = .ok ys → (deleteSeqS h hd n fr x).2 + fr.length = ys.length
  | 0, fr, x, ys, e => by
    unfold deleteSeq at e; unfold deleteSeqS
    split at e
    · rename_i k; cases e; rw [if_pos k]; simp only; omega
    · nomatch e
  | n + 1, fr, x, ys, e => by
    unfold deleteSeq at e; unfold deleteSeqS
    split at e
    · rename_i k; cases e; rw [if_pos k]; simp only; omega
    rename_i k
    rw [if_neg k]
    simp only at e ⊢
    split at e
    · nomatch e
    rename_i k
    rw [if_neg k]
    have := deleteSeqS_rounds e
    simp only [List.length_cons, plus_snd] at this ⊢
    omega

theorem Layer.deleteAllS_le {L : Layer V} {val : Id → V} {hd : Id} {xs : List Id} {n : Nat} (w : L.Holds val hd xs) (hn : xs.length ≤ n) :
    (L.deleteAllS n hd).2.rounds ≤ 2 * xs.length + 1 ∧ (L.deleteAllS n hd).2.depth ≤ 2 * Nat.log2 (xs.length + 1) + 1 := by
  obtain ⟨ys, e, p⟩ := Layer.deleteAll_spec w hn
  have hl := p.length_eq
  cases L with
  | ord u lt h =>
    obtain ⟨t, rt, hb, -, rfl⟩ := w.1
    have sh := rt.shape
    simp only [deleteAll] at e
    cases e1 : deleteOrd h n [] (h.parent hd) with
    | ok fr =>
      rw [e1] at e
      cases e
      have := deleteOrdS_rounds e1
      have d := deleteOrdS_depth (n := n) (fr := []) sh.at'
      have := Ord.rb_height hb
      simp only [deleteAllS]
      rw [← sh.root] at d
      simp only [List.length_reverse, List.length_nil] at *
      omega
    | threw _ => rw [e1] at e; nomatch e
    | ub => rw [e1] at e; nomatch e
    | hang => rw [e1] at e; nomatch e
  | hash c eq hf pol ml h a =>
    simp only [deleteAll] at e
    cases e1 : deleteHash c hd n h [] (h.prior hd) with
    | ok fr =>
      rw [e1] at e
      cases e
      have := deleteHashS_rounds e1
      simp only [deleteAllS]
      simp only [List.length_reverse, List.length_nil] at *
      omega
    | threw _ => rw [e1] at e; nomatch e
    | ub => rw [e1] at e; nomatch e
    | hang => rw [e1] at e; nomatch e
  | seq h =>
    simp only [deleteAll] at e
    cases e1 : deleteSeq h hd n [] (h.next hd) with
    | ok fr =>
      rw [e1] at e
      cases e
      have := deleteSeqS_rounds e1
      simp only [deleteAllS]
      simp only [List.length_reverse, List.length_nil] at *
      omega
    | threw _ => rw [e1] at e; nomatch e
    | ub => rw [e1] at e; nomatch e
    | hang => rw [e1] at e; nomatch e
  | rnd s =>
    cases e
    simp only [deleteAllS]
    simp only [List.length_map, List.length_range] at hl
    omega

theorem Container.deleteAllS_le {m : Mem V} {c : Container V} (s : Sound m.val c) :
    (c.deleteAllS m).2.rounds ≤ 2 * c.count + 1 ∧ (c.deleteAllS m).2.depth ≤ 2 * Nat.log2 (c.count + 1) + 1 := by
  have hb := s.budget
  have hf := s.fit
  unfold deleteAllS
  cases hl : c.ls with
  | nil => exact absurd hl s.ne
  | cons L Ls =>
    rw [hl] at hf
    obtain ⟨xs, yss, -, w, p, -⟩ := hf.cases
    have k := Layer.deleteAllS_le (n := c.budget) w (by rw [p.length_eq]; omega)
    rw [p.length_eq, ← s.count] at k
    simp only
    generalize L.deleteAllS c.budget c.hd = q at k ⊢
    rcases q with ⟨_ | _ | _ | _, d⟩ <;> exact k

theorem Container.clearS_le {m : Mem V} {c : Container V} (s : Sound m.val c) :
    (c.clearS m).2.rounds ≤ 2 * c.count + 1 + (c.ls.map Layer.buckets).sum ∧ (c.clearS m).2.depth ≤ 2 * Nat.log2 (c.count + 1) + 1 := by
  have k := Container.deleteAllS_le s
  unfold clearS
  generalize c.deleteAllS m = q at k ⊢
  rcases q with ⟨_ | _ | _ | _, d⟩ <;> simp only [clearCS_eq] at k ⊢ <;> omega

end MI.Cont
