import Verif.Ord.ActsHard
import Verif.Cont.OrdTime
import Verif.Props.Ord
/-!
# C69, C70: how long operations on ordered indices take

The complexity signature of ordered indices (doc/reference/ord_indices.html:444-456) is logarithmic for insertion, replacement and modification, and amortized constant for
deletion; it is constant for insertion with a hint that is right, and for replacement and modification that leave an element in its place. C64 is about calls
of the comparison predicate. Here: about the time taken, as the number of rounds of all loops that run, `Rounds`: those that go from node to
node (`walk`) and those that rebalance (`fix`). `act` (`Verif/Ord/Acts.lean`) is an operation of the interface, `acts` a sequence of operations; `s.Holds lt u hd xs`
(`Verif/Ord/ActsSpec.lean`) says that the index holds the elements `xs` in its order, `u` tells unique indices, and `n` only has to be large enough.

Proved: any operation is logarithmic; in any history deletion is amortized constant, next to logarithmic insertion; rebalancing alone is amortized constant; insertion at
either end with the right hint, and deletion of the first element, are amortized constant in any combination; traversal is linear. Refuted: insertion with any right hint is not amortized
constant, nor is deletion next to insertions that are constant, nor are replacement and modification in place constant: all of them look for the predecessor or the successor of a
node, which is the documented number of comparisons, but not a constant number of steps.
-/
namespace MI.Ord
open MI

variable {K : Type} {lt : K → K → Bool} {u : Bool} {hd : Id} {xs : List Id} {n : Nat}

/-- C69: every operation, called as documented, has its effect in logarithmic time, whatever the index has been through before. -/
theorem C69_log (sw : StrictWeak lt) {s : Idx K} {a : Act K} (w : s.Holds lt u hd xs) (hl : a.Legal hd xs) (hn : xs.length + 4 ≤ n) :
    ∃ s' r xs', act lt u n hd s a = some (s', r) ∧ s'.Holds lt u hd xs' ∧ a.Effect u xs xs' ∧
      r.walk + r.fix ≤ 20 * Nat.log2 (xs.length + 1) + 3 := by
  obtain ⟨hr, ho, hc⟩ := w
  obtain ⟨P, hP⟩ := hr.pot
  obtain ⟨s', r, xs', P', e, hr', ho', hc', ef, -, h1, h2⟩ := act_ok sw hP ho hc hn hl
  refine ⟨s', r, xs', e, ⟨hr'.rep, ho', hc'⟩, ef, ?_⟩
  cases a <;> simp only [lg] at h1 h2 <;> omega

/-- C69: any history of a container that was empty at first takes time proportional to the sum of what the documentation says of its operations: the logarithm of the number of
elements for insertion, replacement and modification, and a constant for deletion. -/
theorem C69_amortized (sw : StrictWeak lt) (h0 : hd ≠ 0) (key : Id → K) (h : Heap) {as : List (Act K)} (hl : LegalHistory lt u hd n (Idx.empty hd key h) as)
    (hn : as.length + 4 ≤ n) :
    ∃ s r xs, acts lt u n hd (Idx.empty hd key h) as = some (s, r) ∧ s.Holds lt u hd xs ∧
      r.walk + r.fix ≤ 32 * signatureOf lt u hd n (Idx.empty hd key h) as := by
  obtain ⟨hr, ho, hc⟩ := empty_holds (lt := lt) (u := u) h0 key h
  obtain ⟨P, hP⟩ := hr.pot
  have hP0 : P = 0 := by
    obtain ⟨t, -, -, -, e, rfl⟩ := hP
    have := pot_le t
    rw [e] at this; simpa using this
  obtain ⟨s, r, xs, P', e, hr', ho', hc', b1, b2, b3⟩ := acts_ok sw as hP ho hc (by simpa using hn) hl
  refine ⟨s, r, xs, e, ⟨hr'.rep, ho', hc'⟩, ?_⟩
  have := payAll_le as
  simp only [List.length_nil, saved] at b2
  omega

/-- C69: rebalancing takes amortized constant time, in any history. -/
theorem C69_rebalancing (sw : StrictWeak lt) {s : Idx K} {as : List (Act K)} (w : s.Holds lt u hd xs) (hl : LegalHistory lt u hd n s as)
    (hn : xs.length + as.length + 4 ≤ n) :
    ∃ s' r xs', acts lt u n hd s as = some (s', r) ∧ s'.Holds lt u hd xs' ∧ r.fix ≤ 2 * xs.length + 12 * as.length := by
  obtain ⟨hr, ho, hc⟩ := w
  obtain ⟨t, q1, q2, q3, q4⟩ := id hr
  have hP : RepP s.h hd xs t.pot := ⟨t, q1, q2, q3, q4, rfl⟩
  obtain ⟨s', r, xs', P', e, hr', ho', hc', b1, -, -⟩ := acts_ok sw as hP ho hc hn hl
  refine ⟨s', r, xs', e, ⟨hr'.rep, ho', hc'⟩, ?_⟩
  have h1 := payAll_le as
  have h2 := pot_le t
  rw [q4] at h2
  omega

/-- C70: insertion at the beginning with the hint `begin()`, insertion at the end with the hint `end()`, and deletion of the first element are
amortized constant, in any combination: feeding sorted data to a container, and emptying it in order, are linear. -/
theorem C70_ends_partial (sw : StrictWeak lt) {s : Idx K} {as : List (Act K)} (w : s.Holds lt u hd xs) (hl : History lt u hd (AtEnds lt u hd) n s as)
    (hn : xs.length + as.length + 4 ≤ n) :
    ∃ s' r xs', acts lt u n hd s as = some (s', r) ∧ s'.Holds lt u hd xs' ∧ r.walk + r.fix ≤ 2 * xs.length + 13 * as.length := by
  obtain ⟨s', r, xs', e, h1, h2⟩ := C69_rebalancing sw w (hl.mono (fun _ _ _ _ => trivial)) hn
  have := ends_walks sw as w hn hl e
  exact ⟨s', r, xs', e, h1, by omega⟩

/-- C70: replacement with an element that may stand in the same place, and modification of that kind, do not touch the tree. -/
theorem C70_in_place_partial (sw : StrictWeak lt) {s : Idx K} {a b : List Id} {x : Id} {k : K} (w : s.Holds lt u hd (a ++ x :: b)) (hn : (a ++ x :: b).length + 3 ≤ n)
    (ha : ∀ z ∈ a, mayPrecede lt u (s.key z) k) (hb : ∀ z ∈ b, mayPrecede lt u k (s.key z)) :
    ∃ r, act lt u n hd s (.replace x k) = some (⟨upd s.key x k, s.h, s.count⟩, r) ∧
      act lt u n hd s (.modify x k) = some (⟨upd s.key x k, s.h, s.count⟩, r) ∧
      r.fix = 0 ∧ r.walk ≤ 4 * Nat.log2 ((a ++ x :: b).length + 1) := by
  obtain ⟨hr, ho, hc⟩ := w
  have hx : x ∉ a ++ b := (List.nodup_cons.1 (List.nodup_middle.1 (List.nodup_cons.1 (rep_nodup hr)).2)).1
  have hs : OrderedBy lt u s.key (a ++ b) := ho.sub ((List.sublist_cons_self x b).append_left a)
  have hk : ∀ z ∈ a ++ b, upd s.key x k z = s.key z := fun z hz => upd_other _ _ (fun e => hx (e ▸ hz))
  obtain ⟨r1, w1, e1, h1, i1⟩ := inPlaceS_spec sw (key := upd s.key x k) (k := k) hr (hs.congr hk) hn
  have t1 : r1 = true := i1.2 ⟨fun z hz => by rw [hk z (by simp [hz])]; exact ha z hz, fun z hz => by rw [hk z (by simp [hz])]; exact hb z hz⟩
  subst t1
  exact ⟨⟨w1, 0⟩, by simp only [act, e1], by simp only [act, e1], rfl, h1⟩

/-- C69: a traversal from `begin()` to `end()` takes at most one round for each element. -/
theorem C69_traversal {h : Heap} (hr : Rep h hd xs) (hn : xs.length + 3 ≤ n) :
    ∃ w, advanceS h n xs.length (hdOr hd xs) = some (hd, w) ∧ w ≤ xs.length := traverse_le hr hn

/-- C69: `m` increments of an iterator to any element lead to the element `m` places on, in time `m` plus the logarithm of the number of elements. -/
theorem C69_advance {h : Heap} {x : Id} {a b : List Id} {m : Nat} (hr : Rep h hd (a ++ x :: b)) (hn : (a ++ x :: b).length + 3 ≤ n) (hm : m ≤ b.length) :
    ∃ y w, advanceS h n m x = some (y, w) ∧ (a ++ x :: b)[a.length + m]? = some y ∧ w ≤ m + 4 * Nat.log2 ((a ++ x :: b).length + 1) := advance_le hr hn hm

/-- C69: the rounds counted are those of the operations of the container: with `budget` as the bound on loops, `act` computes the state that `Container.insert`,
`Container.erase`, `Container.replace` and `Container.modify` (`Verif/Cont/Container.lean`) lead to in a container with an ordered index only. -/
theorem C69_container (sw : StrictWeak lt) {m : Cont.Mem K} {c : Cont.Container K} {s : Idx K} {a : Act K} {e : Nat → Cont.Env}
    (hc : c = Cont.Container.ofIdx lt u hd s) (hk : s.key = m.val) (w : s.Holds lt u hd xs) (hl : a.Legal hd xs)
    (hm : ∀ x ∈ xs, x ∈ m.alloc ∧ x ∈ m.cons) (hq : (e 0).Quiet) :
    ∃ s' r R, act lt u c.budget hd s a = some (s', r) ∧ c.act m e a = .ok R ∧ R.c = Cont.Container.ofIdx lt u hd s' ∧ R.m.val = s'.key ∧
      r.walk + r.fix ≤ 20 * Nat.log2 (c.count + 1) + 3 := by
  obtain ⟨key, h, count⟩ := s
  obtain rfl : key = m.val := hk
  subst hc
  obtain ⟨s', r, xs', h1, -, -, h2⟩ := C69_log sw w hl (n := count + 4) (by rw [show count = xs.length from w.2.2]; exact Nat.le_refl _)
  obtain ⟨R, h3, h4, h5⟩ := Cont.act_container sw w hl hm hq h1
  refine ⟨s', r, R, h1, h3, h4, h5, ?_⟩
  rwa [← w.2.2] at h2

/-! ## What is not true -/

/-- Insertion with a hint immediately after the point of insertion is amortized constant. -/
def HintedConstant : Prop :=
  ∃ C : Nat, ∀ (K : Type) (lt : K → K → Bool) (u : Bool) (hd : Id) (key : Id → K) (h : Heap) (n : Nat) (as : List (Act K)) (s : Idx K) (r : Rounds),
    StrictWeak lt → hd ≠ 0 → as.length + 4 ≤ n → History lt u hd (WellHinted lt u hd) n (Idx.empty hd key h) as →
    acts lt u n hd (Idx.empty hd key h) as = some (s, r) → r.walk + r.fix ≤ C * as.length

/-- Deletion is amortized constant, next to insertions that are: those at the end with the hint `end()`. -/
def DeletionConstant : Prop :=
  ∃ C : Nat, ∀ (K : Type) (lt : K → K → Bool) (u : Bool) (hd : Id) (key : Id → K) (h : Heap) (n : Nat) (as : List (Act K)) (s : Idx K) (r : Rounds),
    StrictWeak lt → hd ≠ 0 → as.length + 4 ≤ n → History lt u hd (EndOrErase lt u hd) n (Idx.empty hd key h) as →
    acts lt u n hd (Idx.empty hd key h) as = some (s, r) → r.walk + r.fix ≤ C * as.length

/-- Replacement of an element by an equivalent one takes constant time. -/
def InPlaceConstant : Prop :=
  ∃ C : Nat, ∀ (K : Type) (lt : K → K → Bool) (u : Bool) (hd : Id) (xs : List Id) (n : Nat) (s s' : Idx K) (x : Id) (r : Rounds),
    StrictWeak lt → s.Holds lt u hd xs → x ∈ xs → xs.length + 4 ≤ n → act lt u n hd s (.replace x (s.key x)) = some (s', r) → r.walk + r.fix ≤ C

theorem C70_hinted_full_false : ¬ HintedConstant := by
  rintro ⟨C, H⟩
  let h : Heap := ⟨fun _ => 0, fun _ => 0, fun _ => 0, fun _ => .black, fun _ => 0⟩
  generalize eb : 2 * C + 1 = b
  generalize eN : 4 ^ (b + 2) = N
  have hN : 0 < N := by rw [← eN]; exact Nat.pow_pos (by omega)
  obtain ⟨as, s, r, xs, l1, h1, e1, w1, x1⟩ := pushes (n := 2 * N + 4) N (empty_holds (hd := 1) (by decide) (fun _ => ()) h)
    (by simp only [List.length_nil]; omega)
  simp only [List.length_nil] at x1
  obtain ⟨bs, s', r', l2, h2, e2, c2⟩ := root_hints (n := 2 * N + 4) b N w1 (by omega) (by omega)
  obtain ⟨h3, e3⟩ := (h1.mono (fun _ _ _ q => q.1)).append e1 h2 e2
  have := H Unit flat false 1 (fun _ => ()) h _ _ _ _ flat_sw (by decide) (by rw [List.length_append]; omega) h3 e3
  rw [List.length_append, l1, l2] at this
  simp only [Rounds.add] at this
  have q : b * N ≤ C * (N + N) := by omega
  rw [← eb, ← Nat.two_mul, ← Nat.mul_assoc] at q
  have := Nat.le_of_mul_le_mul_right q hN
  omega

theorem C70_deletion_full_false : ¬ DeletionConstant := by
  rintro ⟨C, H⟩
  let h : Heap := ⟨fun _ => 0, fun _ => 0, fun _ => 0, fun _ => .black, fun _ => 0⟩
  generalize eb : 3 * C + 1 = b
  generalize eN : 4 ^ b = N
  have hN : 0 < N := by rw [← eN]; exact Nat.pow_pos (by omega)
  obtain ⟨as, s, r, xs, l1, h1, e1, w1, x1⟩ := pushes (n := 3 * N + 4) (2 * N) (empty_holds (hd := 1) (by decide) (fun _ => ()) h)
    (by simp only [List.length_nil]; omega)
  simp only [List.length_nil] at x1
  obtain ⟨bs, s', r', l2, h2, e2, c2⟩ := erase_lasts (n := 3 * N + 4) b N w1 (by omega) (by omega)
  obtain ⟨h3, e3⟩ := (h1.mono (fun _ _ _ q => q.2)).append e1 h2 e2
  have := H Unit flat false 1 (fun _ => ()) h _ _ _ _ flat_sw (by decide) (by rw [List.length_append]; omega) h3 e3
  rw [List.length_append, l1, l2] at this
  simp only [Rounds.add] at this
  have q : b * N ≤ C * (2 * N + N) := by omega
  rw [← eb, show 2 * N + N = 3 * N by omega, ← Nat.mul_assoc] at q
  have := Nat.le_of_mul_le_mul_right q hN
  omega

theorem C70_in_place_full_false : ¬ InPlaceConstant := by
  rintro ⟨C, H⟩
  let h : Heap := ⟨fun _ => 0, fun _ => 0, fun _ => 0, fun _ => .black, fun _ => 0⟩
  generalize eN : 4 ^ (C + 1 + 2) = N
  obtain ⟨as, s, r, xs, l1, h1, e1, w1, x1⟩ := pushes (n := N + 4) N (empty_holds (hd := 1) (by decide) (fun _ => ()) h)
    (by simp only [List.length_nil]; omega)
  simp only [List.length_nil] at x1
  obtain ⟨a, x, b, w, rfl, ha, -, e, hw⟩ := decrementS_root (b := C + 1) w1.1 (N := N + 4) (by omega) (by omega)
  obtain ⟨r, e2, -, -, -⟩ := C70_in_place_partial flat_sw w1 (k := s.key x) (n := N + 4) (by omega) (fun _ _ => rfl) (fun _ _ => rfl)
  have h2 := H Unit flat false 1 _ (N + 4) s _ x r flat_sw w1 (by simp) (by omega) e2
  have h3 : w ≤ r.walk := replace_walk w1.1 ha e e2
  omega

/-! ## Examples -/

/-- The elements that are there, in whatever order. -/
def track (xs : List Id) : Act K → List Id
  | .insert x _ _ => x :: xs
  | .erase x => xs.erase x
  | _ => xs

/-- All operations are legal. -/
def Plain (hd : Id) (xs : List Id) : List (Act K) → Prop
  | [] => True
  | a :: as => a.Legal hd xs ∧ Plain hd (track xs a) as

theorem plain_history (sw : StrictWeak lt) : ∀ (as : List (Act K)) {s : Idx K} {xs ys : List Id}, s.Holds lt false hd xs → xs.Perm ys →
    xs.length + as.length + 4 ≤ n → Plain hd ys as → LegalHistory lt false hd n s as := by
  intro as
  induction as with
  | nil => intros; trivial
  | cons a as ih =>
    intro s xs ys w p hn ⟨hl, hp⟩
    simp only [List.length_cons] at hn
    have hl' : a.Legal hd xs := by
      cases a with
      | insert x k hint => exact ⟨hl.1, fun h => hl.2.1 ((p.cons hd).mem_iff.1 h), fun q e => (p.append_right [hd]).mem_iff.2 (hl.2.2 q e)⟩
      | erase x => exact p.mem_iff.2 hl
      | replace x k => exact p.mem_iff.2 hl
      | modify x k => exact p.mem_iff.2 hl
    refine ⟨⟨xs, w, hl', trivial⟩, fun s' r e => ?_⟩
    obtain ⟨s1, r1, xs1, e1, w1, ef, -⟩ := C69_log sw w hl' (n := n) (by omega)
    rw [e1] at e; cases e
    have hlen := effect_length ef
    refine ih w1 ?_ (by omega) hp
    cases a with
    | insert x k hint =>
      rcases ef with ef | ⟨q, -⟩
      · exact ef.trans (p.cons x)
      · cases q
    | erase x => rw [show xs1 = xs.erase x from ef]; exact p.erase x
    | replace x k => exact List.Perm.trans ef p
    | modify x k =>
      rcases ef with ef | ⟨q, -⟩
      · exact ef.trans p
      · cases q

/-- An index with eight elements (`Verif/Props/Ord.lean`). -/
theorem exIdx_holds : Idx.Holds natLt false 100 ⟨exKey, exTree, 8⟩ [1, 2, 3, 4, 5, 6, 7, 8] := ⟨exTree_rep, exTree_sorted, rfl⟩

/-- Operations of all kinds: two insertions, one with a wrong hint, a replacement, a modification and two erasures. -/
def exActs : List (Act Nat) := [.insert 9 35 none, .insert 10 5 (some 4), .replace 3 80, .modify 1 45, .erase 9, .erase 5]

theorem exActs_legal : LegalHistory natLt false 100 30 ⟨exKey, exTree, 8⟩ exActs := by
  refine plain_history natLt_sw _ exIdx_holds (List.Perm.refl _) (by decide) ?_
  simp [exActs, Plain, track, Act.Legal]

example : ∃ s' r xs', acts natLt false 30 100 ⟨exKey, exTree, 8⟩ exActs = some (s', r) ∧ s'.Holds natLt false 100 xs' ∧ r.fix ≤ 2 * 8 + 12 * 6 :=
  C69_rebalancing natLt_sw exIdx_holds exActs_legal (by decide)

example : ∃ s' r xs', act natLt false 30 100 ⟨exKey, exTree, 8⟩ (.modify 4 75) = some (s', r) ∧ s'.Holds natLt false 100 xs' ∧
    Act.Effect false [1, 2, 3, 4, 5, 6, 7, 8] (.modify 4 75) xs' ∧ r.walk + r.fix ≤ 20 * Nat.log2 (8 + 1) + 3 :=
  C69_log natLt_sw exIdx_holds (by decide : (4 : Id) ∈ [1, 2, 3, 4, 5, 6, 7, 8]) (by decide)

example : ∃ s' r R, act natLt false 12 100 ⟨exKey, exTree, 8⟩ (.modify 4 75) = some (s', r) ∧
    (Cont.Container.ofIdx natLt false 100 ⟨exKey, exTree, 8⟩).act ⟨exKey, [100, 1, 2, 3, 4, 5, 6, 7, 8], [1, 2, 3, 4, 5, 6, 7, 8]⟩ (fun _ => {}) (.modify 4 75) = .ok R ∧
    R.c = Cont.Container.ofIdx natLt false 100 s' ∧ R.m.val = s'.key ∧ r.walk + r.fix ≤ 20 * Nat.log2 (8 + 1) + 3 :=
  C69_container natLt_sw rfl rfl exIdx_holds (by decide : (4 : Id) ∈ [1, 2, 3, 4, 5, 6, 7, 8]) (by decide) ⟨rfl, rfl, rfl, rfl⟩

/-- Filling a container from nothing, in no particular order, and erasing two of the elements. -/
def exFill : List (Act Nat) := [.insert 1 30 none, .insert 2 10 none, .insert 3 20 (some 1), .insert 4 40 (some 100), .insert 5 10 (some 2), .erase 1, .erase 5]

example : ∃ s r xs, acts natLt false 20 100 (Idx.empty 100 exKey exHeap) exFill = some (s, r) ∧ s.Holds natLt false 100 xs ∧
    r.walk + r.fix ≤ 32 * signatureOf natLt false 100 20 (Idx.empty 100 exKey exHeap) exFill :=
  C69_amortized natLt_sw (by decide) exKey exHeap
    (plain_history natLt_sw _ (empty_holds (by decide) _ _) (List.Perm.refl _) (by decide) (by simp [exFill, Plain, track, Act.Legal])) (by decide)

example : signatureOf natLt false 100 20 (Idx.empty 100 exKey exHeap) exFill = 13 := by decide +kernel

/-- Sorted input with the hint `end()`. -/
example : ∃ as s r xs, as.length = 1000 ∧ acts flat false 1004 1 (Idx.empty 1 (fun _ => ()) exHeap) as = some (s, r) ∧ s.Holds flat false 1 xs ∧
    r.walk + r.fix ≤ 13000 := by
  obtain ⟨as, s, r, xs, l, h1, e, w, -⟩ := pushes (n := 1004) 1000 (empty_holds (hd := 1) (by decide) (fun _ => ()) exHeap) (by decide)
  obtain ⟨s', r', xs', e', w', h⟩ := C70_ends_partial flat_sw (n := 1004) (empty_holds (hd := 1) (by decide) (fun _ => ()) exHeap)
    (h1.mono (fun s xs a q => by
      cases a with
      | insert x k hint => exact ⟨Or.inr q.2.1, q.1⟩
      | erase x => exact q.1.elim
      | replace x k => exact q.1.elim
      | modify x k => exact q.1.elim)) (by simp [l])
  rw [l] at h
  exact ⟨as, s', r', xs', l, e', w', by simpa using h⟩

/-- Key 15 instead of 20 in the place of element 2. -/
example : ∃ r, act natLt false 30 100 ⟨exKey, exTree, 8⟩ (.replace 2 15) = some (⟨upd exKey 2 15, exTree, 8⟩, r) ∧
    act natLt false 30 100 ⟨exKey, exTree, 8⟩ (.modify 2 15) = some (⟨upd exKey 2 15, exTree, 8⟩, r) ∧ r.fix = 0 ∧ r.walk ≤ 4 * Nat.log2 (8 + 1) :=
  C70_in_place_partial (a := [1]) (b := [3, 4, 5, 6, 7, 8]) natLt_sw exIdx_holds (by decide) (by unfold mayPrecede; decide +kernel) (by unfold mayPrecede; decide +kernel)

example : ∃ w, advanceS exTree 20 8 1 = some (100, w) ∧ w ≤ 8 := C69_traversal exTree_rep (by decide)

example : advanceS exTree 20 4 3 = some (7, 3) := by decide +kernel

end MI.Ord
