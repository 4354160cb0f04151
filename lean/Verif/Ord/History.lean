import Verif.Ord.LookupLemmas
import Verif.Ord.Bits
/-!
# Histories of tree operations

One ordered index on its own: nodes are linked at a link point, unlinked, and restored before a remembered successor. These are
all the operations the container uses to change the tree of an ordered index, apart from copying and clearing.
-/
namespace MI.Ord
open MI

/-- Operations on the tree. -/
inductive Op where
  /-- `link(x,side,position,header)` -/
  | link (x : Id) (side : Side) (pos : Id)
  /-- `rebalance_for_extract(x,…)` -/
  | extract (x : Id)
  /-- `restore(x,position,header)` -/
  | restore (x pos : Id)
  /-- `empty_initialize()`, used by `clear` -/
  | clear
deriving Repr, DecidableEq

/-- One operation; `n` bounds the number of iterations of every loop. -/
def step (n : Nat) (hd : Id) (h : Heap) : Op → Option Heap
  | .link x side pos => link n h x side pos hd
  | .extract x => extract n h hd x
  | .restore x pos => restore n h x pos hd
  | .clear => some (emptyInit h hd)

/-- A sequence of operations. -/
def run (n : Nat) (hd : Id) : List Op → Heap → Option Heap
  | [], h => some h
  | op :: ops, h =>
    match step n hd h op with
    | none => none
    | some h => run n hd ops h

/-- When an operation may be used on an index with elements `xs`: new nodes are new, a link point is a free child slot, a restore
position is an element or `end()`. -/
def Legal (h : Heap) (hd : Id) (xs : List Id) : Op → Prop
  | .link x side pos =>
    x ≠ 0 ∧ x ∉ hd :: xs ∧ ((xs = [] ∧ pos = hd ∧ side = .left) ∨
      (pos ∈ xs ∧ (match side with | .left => h.left pos = 0 | .right => h.right pos = 0)))
  | .extract x => x ∈ xs
  | .restore x pos => x ≠ 0 ∧ x ∉ hd :: xs ∧ pos ∈ xs ++ [hd]
  | .clear => True

/-- `x` inserted before the element `pos`, at the end if there is no such element (`pos` is `end()`). -/
def insBefore (x pos : Id) : List Id → List Id
  | [] => [x]
  | y :: ys => if y = pos then x :: y :: ys else y :: insBefore x pos ys

/-- `x` inserted after the element `pos`. -/
def insAfter (x pos : Id) : List Id → List Id
  | [] => []
  | y :: ys => if y = pos then y :: x :: ys else y :: insAfter x pos ys

/-- What an operation does to the sequence of elements. -/
def effect (xs : List Id) : Op → List Id
  | .link x .left pos => insBefore x pos xs
  | .link x .right pos => insAfter x pos xs
  | .restore x pos => insBefore x pos xs
  | .extract x => xs.erase x
  | .clear => []

theorem insBefore_split {hd x : Id} {u v : List Id} (hnd : (hd :: (u ++ v)).Nodup) : insBefore x (hdOr hd v) (u ++ v) = u ++ x :: v := by
  induction u with
  | nil =>
    cases v with
    | nil => rfl
    | cons a v => simp [insBefore, hdOr]
  | cons a u ih =>
    have hne : a ≠ hdOr hd v := by
      cases v with
      | nil => intro e; have : a = hd := e; subst this; simp at hnd
      | cons b v => intro e; have : a = b := e; subst this; simp at hnd
    simp only [List.cons_append, insBefore, if_neg hne]
    rw [ih]
    simp only [List.cons_append, List.nodup_cons, List.mem_cons] at hnd ⊢
    tauto

theorem insAfter_split {x p : Id} {u v : List Id} (hnd : (u ++ p :: v).Nodup) : insAfter x p (u ++ p :: v) = u ++ p :: x :: v := by
  induction u with
  | nil => simp [insAfter]
  | cons a u ih =>
    have hne : a ≠ p := by rintro rfl; simp at hnd
    simp only [List.cons_append, insAfter, if_neg hne]
    rw [ih (by simp at hnd ⊢; tauto)]

theorem erase_split {x : Id} {u v : List Id} (hnd : (u ++ x :: v).Nodup) : (u ++ x :: v).erase x = u ++ v := by
  have : x ∉ u := by
    intro h
    have := (List.nodup_append.1 hnd).2.2 x h x (by simp)
    exact this rfl
  rw [List.erase_append_right _ this, List.erase_cons_head]

theorem step_effect {h : Heap} {hd : Id} {xs : List Id} {n : Nat} (hr : Rep h hd xs) (hn : xs.length + 3 ≤ n) (op : Op)
    (hl : Legal h hd xs op) : ∃ h', step n hd h op = some h' ∧ Rep h' hd (effect xs op) ∧ (effect xs op).length ≤ xs.length + 1 := by
  have hnd := rep_nodup hr
  cases op with
  | link x side pos =>
    obtain ⟨hx0, hx, hp⟩ := hl
    rcases hp with ⟨rfl, rfl, rfl⟩ | ⟨hm, hs⟩
    · obtain ⟨h', e, r, _⟩ := link_at (N := n) (pointAt_empty hr) (x := x) (by simpa using hx) hx0 (by simpa using hn)
      exact ⟨h', e, r, by simp [effect, insBefore]⟩
    · obtain ⟨u, v, rfl⟩ := List.append_of_mem hm
      cases side with
      | left =>
        obtain ⟨h', e, r, _⟩ := link_at (N := n) (pointAt_left hr hs) hx hx0 hn
        have e2 : effect (u ++ pos :: v) (.link x .left pos) = u ++ x :: pos :: v := insBefore_split hnd
        rw [e2]
        exact ⟨h', e, r, by simp; omega⟩
      | right =>
        obtain ⟨h', e, r, _⟩ := link_at (N := n) (pointAt_right hr hs) (x := x) (by simpa using hx) hx0 (by simpa using hn)
        have e2 : effect (u ++ pos :: v) (.link x .right pos) = u ++ pos :: x :: v := insAfter_split (List.nodup_cons.1 hnd).2
        rw [e2]
        exact ⟨h', e, by simpa using r, by simp; omega⟩
  | extract x =>
    have hm : x ∈ xs := hl
    obtain ⟨u, v, rfl⟩ := List.append_of_mem hm
    obtain ⟨h', e, r, _⟩ := rep_extract hr hn
    have e2 : effect (u ++ x :: v) (.extract x) = u ++ v := erase_split (List.nodup_cons.1 hnd).2
    rw [e2]
    exact ⟨h', e, r, by simp; omega⟩
  | restore x pos =>
    obtain ⟨hx0, hx, hp⟩ := hl
    have : ∃ u v, xs = u ++ v ∧ hdOr hd v = pos := by
      rcases List.mem_append.1 hp with hp | hp
      · obtain ⟨u, v, rfl⟩ := List.append_of_mem hp
        exact ⟨u, pos :: v, rfl, rfl⟩
      · simp at hp; subst hp; exact ⟨xs, [], by simp, rfl⟩
    obtain ⟨u, v, rfl, rfl⟩ := this
    obtain ⟨h', e, r, _⟩ := restore_spec hr hx hx0 hn
    have e2 : effect (u ++ v) (.restore x (hdOr hd v)) = u ++ x :: v := insBefore_split hnd
    rw [e2]
    exact ⟨h', e, r, by simp; omega⟩
  | clear => exact ⟨_, rfl, emptyInit_rep h (fun e => rep_nz hr (by simp [e])), by simp [effect]⟩

/-- Every operation of the list is legal when its turn comes; `xs` are the elements at the start. -/
def Valid (n : Nat) (hd : Id) : List Op → Heap → List Id → Prop
  | [], _, _ => True
  | op :: ops, h, xs => Legal h hd xs op ∧ ∀ h', step n hd h op = some h' → Valid n hd ops h' (effect xs op)

theorem run_effects {n : Nat} {hd : Id} (ops : List Op) : ∀ {h : Heap} {xs : List Id}, Rep h hd xs → xs.length + ops.length + 3 ≤ n →
    Valid n hd ops h xs → ∃ h', run n hd ops h = some h' ∧ Rep h' hd (ops.foldl effect xs) := by
  induction ops with
  | nil => intro h xs hr _ _; exact ⟨h, rfl, hr⟩
  | cons op ops ih =>
    intro h xs hr hn hv
    obtain ⟨hl, hv⟩ := hv
    simp only [List.length_cons] at hn
    obtain ⟨h', e, r, hlen⟩ := step_effect hr (n := n) (by omega) op hl
    obtain ⟨h'', e2, r2⟩ := ih r (by omega) (hv h' e)
    exact ⟨h'', by rw [run, e]; exact e2, r2⟩

/-- Computable version of `Legal` and `Valid`, for examples. -/
def legalB (h : Heap) (hd : Id) (xs : List Id) : Op → Bool
  | .link x .left pos => x != 0 && !(hd :: xs).contains x && ((xs.isEmpty && pos == hd) || (xs.contains pos && h.left pos == 0))
  | .link x .right pos => x != 0 && !(hd :: xs).contains x && (xs.contains pos && h.right pos == 0)
  | .extract x => xs.contains x
  | .restore x pos => x != 0 && !(hd :: xs).contains x && (xs ++ [hd]).contains pos
  | .clear => true

def validB (n : Nat) (hd : Id) : List Op → Heap → List Id → Bool
  | [], _, _ => true
  | op :: ops, h, xs => legalB h hd xs op &&
    (match step n hd h op with
      | none => true
      | some h' => validB n hd ops h' (effect xs op))

theorem legal_of {h : Heap} {hd : Id} {xs : List Id} {op : Op} (e : legalB h hd xs op = true) : Legal h hd xs op := by
  cases op with
  | link x side pos =>
    cases side <;> simp [legalB, Legal] at e ⊢ <;> tauto
  | extract x => simpa [legalB, Legal] using e
  | restore x pos => simp [legalB, Legal] at e ⊢; tauto
  | clear => trivial

theorem valid_of {n : Nat} {hd : Id} (ops : List Op) : ∀ {h : Heap} {xs : List Id}, validB n hd ops h xs = true → Valid n hd ops h xs := by
  induction ops with
  | nil => intro h xs _; trivial
  | cons op ops ih =>
    intro h xs e
    simp only [validB, Bool.and_eq_true] at e
    refine ⟨legal_of e.1, fun h' e2 => ?_⟩
    rw [e2] at e
    exact ih e.2

end MI.Ord
