import Verif.Safe.Registry
import Mathlib.Data.List.Perm.Subperm
/-!
The lists of the registry, and what its operations do to them.
-/
set_option linter.unusedVariables false
namespace MI.Safe
open MI

/-- Following `next` from `h` one meets the iterators `l`, then null. -/
def Chain (next : Nat → Nat) : Nat → List Nat → Prop
  | h, [] => h = 0
  | h, a :: l => h = a ∧ a ≠ 0 ∧ Chain next (next a) l

/-- The list of each safe container consists of the live iterators attached to it. -/
structure Rep (r : Reg) (live : List Nat) : Prop where
  nz : 0 ∉ live
  chain : ∀ s, s ≠ 0 → ∃ l, Chain r.next (r.head s) l ∧ l.Nodup ∧ ∀ y, y ∈ l ↔ y ∈ live ∧ r.cont y = s

theorem Chain.congr {f g : Nat → Nat} : ∀ {l : List Nat} {h : Nat}, Chain f h l → (∀ y ∈ l, g y = f y) → Chain g h l
  | [], _, c, _ => c
  | a :: l, h, ⟨e, z, c⟩, k => ⟨e, z, by rw [k a (by simp)]; exact Chain.congr c fun y hy => k y (List.mem_cons_of_mem _ hy)⟩

theorem Chain.unique {f : Nat → Nat} : ∀ {l m : List Nat} {h : Nat}, Chain f h l → Chain f h m → l = m
  | [], [], _, _, _ => rfl
  | [], b :: m, h, e, ⟨e2, z, _⟩ => absurd (e2.symm.trans e) z
  | a :: l, [], h, ⟨e, z, _⟩, e2 => absurd (e.symm.trans e2) z
  | a :: l, b :: m, h, ⟨e, z, c⟩, ⟨e2, z2, c2⟩ => by
    obtain rfl : a = b := e.symm.trans e2
    rw [Chain.unique c c2]

theorem Chain.nz {f : Nat → Nat} : ∀ {l : List Nat} {h : Nat}, Chain f h l → 0 ∉ l
  | [], _, _ => by simp
  | a :: l, h, ⟨_, z, c⟩ => by
    simp only [List.mem_cons, not_or]
    exact ⟨z.symm, Chain.nz c⟩

theorem Rep.length {r : Reg} {live : List Nat} {s : Nat} {l : List Nat} (nd : l.Nodup) (h : ∀ y, y ∈ l ↔ y ∈ live ∧ r.cont y = s) : l.length ≤ live.length :=
  (List.subperm_of_subset nd fun y hy => ((h y).1 hy).1).length_le

/-- The predecessor of what follows `a` in a list. -/
def lastOf (a : List Nat) : Option Nat := a.getLast?

theorem lastOf_snoc (a : List Nat) (y : Nat) : lastOf (a ++ [y]) = some y := by simp [lastOf]

/-- A list, split: what `prev_->next` is. -/
theorem chain_next {r : Reg} {s : Nat} {a b : List Nat} (c : Chain r.next (r.head s) (a ++ b)) : r.nextOf s (lastOf a) = b.headD 0 := by
  rcases List.eq_nil_or_concat a with rfl | ⟨a', p, rfl⟩
  · simp only [lastOf, List.getLast?_nil, Reg.nextOf]
    cases b with
    | nil => exact c
    | cons y b => exact c.1
  · simp only [List.concat_eq_append, List.append_assoc, List.singleton_append] at c ⊢
    rw [lastOf_snoc]
    show r.next p = _
    generalize r.head s = h at c
    induction a' generalizing h with
    | nil =>
      obtain ⟨_, _, c⟩ := c
      cases b with
      | nil => exact c
      | cons y b => exact c.1
    | cons q a' ih => exact ih _ c.2.2

theorem chain_setNext {f : Nat → Nat} {p y v : Nat} {b : List Nat} : ∀ {a : List Nat} {h : Nat}, Chain f h (a ++ p :: y :: b) → (a ++ p :: y :: b).Nodup → v = f y →
    Chain (upd f p v) h (a ++ p :: b)
  | [], h, ⟨e, z, e2, z2, c⟩, nd, hv => by
    subst hv
    simp only [List.nil_append, List.nodup_cons, List.mem_cons, not_or] at nd
    refine ⟨e, z, ?_⟩
    rw [upd_same]
    refine c.congr fun w hw => upd_other _ _ ?_
    rintro rfl
    exact nd.1.2 hw
  | q :: a, h, ⟨e, z, c⟩, nd, hv => by
    simp only [List.cons_append, List.nodup_cons, List.mem_append, List.mem_cons, not_or] at nd
    refine ⟨e, z, ?_⟩
    rw [upd_other _ _ nd.1.2.1]
    exact chain_setNext c nd.2 hv

/-- Taking `y` out of its list. -/
theorem unlink_rep {r : Reg} {live : List Nat} {s y : Nat} {a b : List Nat} (h : Rep r live) (hs : s ≠ 0) (c : Chain r.next (r.head s) (a ++ y :: b))
    (nd : (a ++ y :: b).Nodup) (hl : ∀ z, z ∈ a ++ y :: b ↔ z ∈ live ∧ r.cont z = s) :
    let r' := { r.setNext s (lastOf a) (r.next y) with cont := upd r.cont y 0 }
    Rep r' live ∧ Chain r'.next (r'.head s) (a ++ b) := by
  intro r'
  have hy : y ∈ live ∧ r.cont y = s := (hl y).1 (by simp)
  have key : Chain r'.next (r'.head s) (a ++ b) ∧ (∀ t, t ≠ s → r'.head t = r.head t) ∧ ∀ z, z ∉ a → r'.next z = r.next z := by
    rcases List.eq_nil_or_concat a with rfl | ⟨a', p, rfl⟩
    · refine ⟨?_, fun t ht => upd_other _ _ ht, fun z _ => rfl⟩
      show Chain r.next (upd r.head s (r.next y) s) b
      rw [upd_same]
      exact c.2.2
    · simp only [List.concat_eq_append, List.append_assoc, List.singleton_append] at c nd ⊢
      have e1 : r'.next = upd r.next p (r.next y) := by show (Reg.setNext r s (lastOf (a'.concat p)) (r.next y)).next = _; rw [List.concat_eq_append, lastOf_snoc]; rfl
      have e2 : r'.head = r.head := by show (Reg.setNext r s (lastOf (a'.concat p)) (r.next y)).head = _; rw [List.concat_eq_append, lastOf_snoc]; rfl
      rw [e1, e2]
      refine ⟨chain_setNext c nd rfl, fun t ht => rfl, fun z hz => upd_other _ _ ?_⟩
      rintro rfl
      exact hz (by simp)
  refine ⟨⟨h.nz, fun t ht => ?_⟩, key.1⟩
  by_cases e : t = s
  · subst e
    refine ⟨a ++ b, key.1, (List.nodup_middle.1 nd).of_cons, fun z => ?_⟩
    show _ ↔ z ∈ live ∧ upd r.cont y 0 z = t
    have nin := (List.nodup_cons.1 (List.nodup_middle.1 nd)).1
    by_cases k : z = y
    · subst k
      rw [upd_same]
      exact ⟨fun q => absurd q nin, fun q => absurd q.2.symm hs⟩
    · rw [upd_other _ _ k, ← hl]
      simp [k]
  · obtain ⟨l, l1, l2, l3⟩ := h.chain t ht
    have dis : ∀ z ∈ l, z ∉ a := fun z k k2 => e (((l3 z).1 k).2.symm.trans ((hl z).1 (by simp [k2])).2)
    refine ⟨l, ?_, l2, fun z => ?_⟩
    · rw [key.2.1 t e]
      exact l1.congr fun z hz => key.2.2 z (dis z hz)
    · show _ ↔ z ∈ live ∧ upd r.cont y 0 z = t
      by_cases k : z = y
      · subst k
        rw [upd_same, l3, hy.2]
        exact ⟨fun q => absurd q.2.symm e, fun q => absurd q.2.symm ht⟩
      · rw [upd_other _ _ k, l3]

/-- Attaching an iterator that is not attached. -/
theorem attach_rep {r : Reg} {live live' : List Nat} {it s : Nat} (h : Rep r live) (hz : it ≠ 0) (hd : it ∈ live → r.cont it = 0)
    (hl : ∀ y, y ∈ live' ↔ y = it ∨ y ∈ live) :
    Rep (r.attach it s) live' ∧ ∀ t l, t ≠ 0 → t ≠ s → Chain r.next (r.head t) l → it ∉ l → Chain (r.attach it s).next ((r.attach it s).head t) l := by
  have nz : 0 ∉ live' := by rw [hl]; rintro (k | k); exacts [hz k.symm, h.nz k]
  have hcont : (r.attach it s).cont = upd r.cont it s := by unfold Reg.attach; dsimp only; split <;> rfl
  have mem : ∀ (t : Nat), t ≠ s → t ≠ 0 → ∀ y, (y ∈ live' ∧ upd r.cont it s y = t ↔ y ∈ live ∧ r.cont y = t) := by
    intro t ts t0 y
    rw [hl]
    by_cases e : y = it
    · subst e
      rw [upd_same]
      exact ⟨fun q => absurd q.2.symm ts, fun q => absurd (q.2.symm.trans (hd q.1)) t0⟩
    · rw [upd_other _ _ e]
      simp [e]
  have nin : ∀ (t : Nat) (l : List Nat), t ≠ 0 → (∀ y, y ∈ l ↔ y ∈ live ∧ r.cont y = t) → it ∉ l := fun t l t0 k q => t0 (((k it).1 q).2.symm.trans (hd ((k it).1 q).1))
  by_cases e : s = 0
  · have e1 : (r.attach it s).next = r.next := by simp [Reg.attach, e]
    have e2 : (r.attach it s).head = r.head := by simp [Reg.attach, e]
    refine ⟨⟨nz, fun t ht => ?_⟩, fun t l ht hts c _ => by rw [e1, e2]; exact c⟩
    obtain ⟨l, l1, l2, l3⟩ := h.chain t ht
    refine ⟨l, by rw [e1, e2]; exact l1, l2, fun y => ?_⟩
    rw [hcont, l3, mem t (fun k => ht (k.trans e)) ht]
  · have e1 : (r.attach it s).next = upd r.next it (r.head s) := by simp [Reg.attach, e]
    have e2 : (r.attach it s).head = upd r.head s it := by simp [Reg.attach, e]
    refine ⟨⟨nz, fun t ht => ?_⟩, fun t l ht hts c q => by
      rw [e1, e2, upd_other _ _ hts]; exact c.congr fun y hy => upd_other _ _ fun k => q (k ▸ hy)⟩
    obtain ⟨l, l1, l2, l3⟩ := h.chain t ht
    have ni := nin t l ht l3
    have cg : ∀ v, Chain (upd r.next it v) (r.head t) l := fun v => l1.congr fun y hy => upd_other _ _ fun k => ni (k ▸ hy)
    by_cases k : t = s
    · subst k
      refine ⟨it :: l, ?_, List.nodup_cons.2 ⟨ni, l2⟩, fun y => ?_⟩
      · rw [e1, e2, upd_same]
        exact ⟨rfl, hz, by rw [upd_same]; exact cg _⟩
      · rw [hcont, hl, List.mem_cons, l3]
        by_cases q : y = it
        · subst q; simp
        · rw [upd_other _ _ q]; simp [q]
    · exact ⟨l, by rw [e1, e2, upd_other _ _ k]; exact cg _, l2, fun y => by rw [hcont, l3, mem t k ht]⟩

/-- Only the membership of the list of live iterators counts, and that of unattached ones does not. -/
theorem Rep.drop {r : Reg} {live live' : List Nat} {it : Nat} (h : Rep r live) (hc : r.cont it = 0) (hl : ∀ y, y ∈ live' → y ∈ live) (hm : ∀ y, y ∈ live → y ≠ it → y ∈ live') : Rep r live' := by
  refine ⟨fun k => h.nz (hl 0 k), fun s hs => ?_⟩
  obtain ⟨l, l1, l2, l3⟩ := h.chain s hs
  refine ⟨l, l1, l2, fun y => ?_⟩
  rw [l3]
  refine ⟨fun k => ⟨hm y k.1 ?_, k.2⟩, fun k => ⟨hl y k.1, k.2⟩⟩
  rintro rfl
  exact hs (k.2.symm.trans hc)

theorem Rep.fields {r r' : Reg} {live : List Nat} (h : Rep r live) (e1 : r'.cont = r.cont) (e2 : r'.next = r.next) (e3 : r'.head = r.head) : Rep r' live :=
  ⟨h.nz, fun s hs => by rw [e1, e2, e3]; exact h.chain s hs⟩

theorem findPrev_spec {r : Reg} {s it : Nat} {b : List Nat} (hz : it ≠ 0) : ∀ {m a : List Nat} {n : Nat}, Chain r.next (r.head s) (a ++ (m ++ it :: b)) →
    it ∉ m → m.length < n → r.findPrev s it n (lastOf a) = some (lastOf (a ++ m))
  | _, _, 0, _, _, hn => absurd hn (Nat.not_lt_zero _)
  | [], a, n + 1, c, hi, hn => by
    have := chain_next c
    simp only [Reg.findPrev, this, List.nil_append, List.headD_cons, if_true, List.append_nil]
  | y :: m, a, n + 1, c, hi, hn => by
    have e := chain_next c
    simp only [List.mem_cons, not_or] at hi
    have hy : y ≠ 0 := fun k => c.nz (by simp [k])
    simp only [Reg.findPrev, e, List.cons_append, List.headD_cons]
    rw [if_neg (fun k => hi.1 k.symm), if_neg hy]
    have := findPrev_spec hz (m := m) (a := a ++ [y]) (n := n) (by simpa using c) hi.2 (by simpa using hn)
    rw [lastOf_snoc] at this
    simpa using this

/-- What an operation of the registry does to the iterators: `f y` is the container `y` is attached to afterwards. -/
structure Eff (r r' : Reg) (live : List Nat) (f : Nat → Nat) : Prop where
  rep : Rep r' live
  cont : r'.cont = f
  node : r'.node = r.node
  unchecked : r'.unchecked = r.unchecked

theorem detach_spec {r : Reg} {live : List Nat} {it n : Nat} (h : Rep r live) (hi : it ∈ live) (hn : live.length < n) :
    ∃ r', r.detach n it = some r' ∧ Eff r r' live (upd r.cont it 0) := by
  unfold Reg.detach
  by_cases e : r.cont it = 0
  · refine ⟨r, if_pos e, h, ?_, rfl, rfl⟩
    funext y
    by_cases k : y = it
    · subst k; rw [upd_same, e]
    · rw [upd_other _ _ k]
  · rw [if_neg e]
    obtain ⟨l, l1, l2, l3⟩ := h.chain _ e
    have hz : it ≠ 0 := fun k => h.nz (k ▸ hi)
    have hl := Rep.length l2 l3
    obtain ⟨a, b, rfl⟩ := List.append_of_mem ((l3 it).2 ⟨hi, rfl⟩)
    have ni : it ∉ a := fun k => (List.nodup_append.1 l2).2.2 it k it (by simp) rfl
    have f := findPrev_spec (r := r) (s := r.cont it) (b := b) hz (m := a) (a := []) (n := n) l1 ni (by simp at hl; omega)
    have u := unlink_rep h e l1 l2 l3
    rw [List.nil_append, show lastOf [] = none from rfl] at f
    rw [f]
    refine ⟨_, rfl, u.1, rfl, ?_, ?_⟩ <;> cases lastOf a <;> rfl

/-- What a sweep of the list of `s` does to the attachment of `y`. -/
def swept (r : Reg) (live : List Nat) (p : Nat → Bool) (s t : Nat) (y : Nat) : Nat := if y ∈ live ∧ r.cont y = s ∧ p y = true then t else r.cont y

theorem sweep_loop {live : List Nat} {p : Nat → Bool} {s t : Nat} (hs : s ≠ 0) (ts : t ≠ s) : ∀ {b a : List Nat} {r : Reg} {n : Nat}, Rep r live →
    Chain r.next (r.head s) (a ++ b) → (a ++ b).Nodup → (∀ z, z ∈ a ++ b ↔ z ∈ live ∧ r.cont z = s) → (∀ z ∈ a, p z = false) → b.length < n →
    ∃ r', Reg.sweep p s t n (lastOf a) r = some r' ∧ Eff r r' live (swept r live p s t)
  | _, _, _, 0, _, _, _, _, _, hn => absurd hn (Nat.not_lt_zero _)
  | [], a, r, n + 1, h, c, nd, hl, hp, hn => by
    have e := chain_next c
    simp only [Reg.sweep, e, List.headD_nil, if_true]
    refine ⟨r, rfl, h, ?_, rfl, rfl⟩
    funext y
    unfold swept
    rw [if_neg]
    rintro ⟨k1, k2, k3⟩
    have := (hl y).2 ⟨k1, k2⟩
    rw [List.append_nil] at this
    rw [hp y this] at k3
    exact nomatch k3
  | y :: b, a, r, n + 1, h, c, nd, hl, hp, hn => by
    have e := chain_next c
    have hy : y ≠ 0 := fun k => c.nz (by simp [k])
    have ym : y ∈ live ∧ r.cont y = s := (hl y).1 (by simp)
    simp only [Reg.sweep, e, List.headD_cons, if_neg hy]
    by_cases py : p y = true
    · rw [if_pos py]
      obtain ⟨u1, u2⟩ := unlink_rep h hs c nd hl
      have nd' := List.nodup_cons.1 (List.nodup_middle.1 nd)
      obtain ⟨v1, v2⟩ := attach_rep (live' := live) (it := y) (s := t) u1 hy (fun _ => upd_same _ _ _) (fun z => by
        constructor
        · exact Or.inr
        · rintro (rfl | k); exacts [ym.1, k])
      have ea : (r.setNext s (lastOf a) (r.next y)).attach y t = ({ r.setNext s (lastOf a) (r.next y) with cont := upd r.cont y 0 } : Reg).attach y t := by
        have : upd (r.setNext s (lastOf a) (r.next y)).cont y t = upd (upd r.cont y 0) y t := by
          have q : (r.setNext s (lastOf a) (r.next y)).cont = r.cont := by cases lastOf a <;> rfl
          rw [q]
          funext z
          by_cases k : z = y
          · subst k; rw [upd_same, upd_same]
          · rw [upd_other _ _ k, upd_other _ _ k, upd_other _ _ k]
        simp only [Reg.attach, this]
      rw [ea]
      generalize hr1 : ({ r.setNext s (lastOf a) (r.next y) with cont := upd r.cont y 0 } : Reg).attach y t = r1 at *
      have hc1 : r1.cont = upd r.cont y t := by
        rw [← hr1]
        simp only [Reg.attach]
        have : upd (upd r.cont y 0) y t = upd r.cont y t := by
          funext z
          by_cases k : z = y
          · subst k; rw [upd_same, upd_same]
          · rw [upd_other _ _ k, upd_other _ _ k, upd_other _ _ k]
        split <;> exact this
      have hn1 : r1.node = r.node ∧ r1.unchecked = r.unchecked := by
        rw [← hr1]
        simp only [Reg.attach]
        split <;> cases lastOf a <;> exact ⟨rfl, rfl⟩
      obtain ⟨r', k1, k2⟩ := sweep_loop hs ts (b := b) (a := a) (r := r1) (n := n) v1 (v2 s _ hs (fun k => ts k.symm) u2 nd'.1) nd'.2 (fun z => by
        rw [hc1]
        by_cases k : z = y
        · subst k
          rw [upd_same]
          exact ⟨fun q => absurd q nd'.1, fun q => absurd q.2 ts⟩
        · rw [upd_other _ _ k, ← hl]; simp [k]) hp (by simpa using hn)
      refine ⟨r', k1, k2.rep, ?_, k2.node.trans hn1.1, k2.unchecked.trans hn1.2⟩
      rw [k2.cont]
      funext z
      unfold swept
      rw [hc1]
      by_cases k : z = y
      · subst k
        rw [upd_same, if_neg (fun q => ts q.2.1), if_pos ⟨ym.1, ym.2, py⟩]
      · rw [upd_other _ _ k]
    · rw [if_neg py]
      have := sweep_loop hs ts (b := b) (a := a ++ [y]) (r := r) (n := n) h (by simpa using c) (by simpa using nd) (by simpa using hl) (fun z hz => by
        rcases List.mem_append.1 hz with k | k
        · exact hp z k
        · rw [List.mem_singleton.1 k]; simpa using py) (by simpa using hn)
      rw [lastOf_snoc] at this
      exact this

theorem sweep_spec {r : Reg} {live : List Nat} {p : Nat → Bool} {s t n : Nat} (h : Rep r live) (hs : s ≠ 0) (ts : t ≠ s) (hn : live.length < n) :
    ∃ r', Reg.sweep p s t n none r = some r' ∧ Eff r r' live (swept r live p s t) := by
  obtain ⟨l, l1, l2, l3⟩ := h.chain s hs
  exact sweep_loop hs ts (b := l) (a := []) h l1 l2 l3 (by simp) (Nat.lt_of_le_of_lt (Rep.length l2 l3) hn)

theorem setAll_spec {v : Nat} : ∀ {l : List Nat} {h n : Nat} {r : Reg}, Chain r.next h l → l.length < n →
    Reg.setAll v n h r = some { r with cont := fun y => if y ∈ l then v else r.cont y }
  | _, _, 0, _, _, hn => absurd hn (Nat.not_lt_zero _)
  | [], h, n + 1, r, c, hn => by
    have : h = 0 := c
    simp [Reg.setAll, this]
  | a :: l, h, n + 1, r, ⟨e, z, c⟩, hn => by
    subst e
    simp only [Reg.setAll, if_neg z]
    rw [setAll_spec (l := l) (r := { r with cont := upd r.cont h v }) c (by simpa using hn)]
    congr 2
    funext y
    simp only [List.mem_cons, upd]
    by_cases k1 : y ∈ l <;> by_cases k2 : y = h <;> simp [k1, k2]

theorem destroyContainer_spec {r : Reg} {live : List Nat} {s n : Nat} (h : Rep r live) (hs : s ≠ 0) (hn : live.length < n) :
    ∃ r', r.destroyContainer n s = some r' ∧ Eff r r' live (fun y => if y ∈ live ∧ r.cont y = s then 0 else r.cont y) := by
  obtain ⟨l, l1, l2, l3⟩ := h.chain s hs
  have k := setAll_spec (v := 0) (n := n) l1 (Nat.lt_of_le_of_lt (Rep.length l2 l3) hn)
  refine ⟨{ r with cont := fun y => if y ∈ l then 0 else r.cont y, head := upd r.head s 0 }, by unfold Reg.destroyContainer; rw [k], ⟨h.nz, fun t ht => ?_⟩, ?_, rfl, rfl⟩
  · by_cases e : t = s
    · subst e
      refine ⟨[], upd_same _ _ _, List.nodup_nil, fun y => ?_⟩
      simp only [List.not_mem_nil, l3, false_iff, not_and]
      intro k1
      by_cases k2 : y ∈ live ∧ r.cont y = t
      · rw [if_pos k2]; exact fun q => ht q.symm
      · rw [if_neg k2]; exact fun q => k2 ⟨k1, q⟩
    · obtain ⟨m, m1, m2, m3⟩ := h.chain t ht
      refine ⟨m, ?_, m2, fun y => ?_⟩
      · show Chain r.next (upd r.head s 0 t) m
        rw [upd_other _ _ e]; exact m1
      · rw [m3]
        show _ ↔ y ∈ live ∧ (if y ∈ l then 0 else r.cont y) = t
        by_cases q : y ∈ l
        · rw [if_pos q]
          replace q := (l3 y).1 q
          exact ⟨fun w => absurd (w.2.symm.trans q.2) e, fun w => absurd w.2.symm ht⟩
        · rw [if_neg q]
  · funext y; simp only [l3]

/-- What exchanging the lists of `s` and `t` does. -/
def swapped (r : Reg) (live : List Nat) (s t : Nat) (y : Nat) : Nat :=
  if y ∈ live ∧ r.cont y = s then t else if y ∈ live ∧ r.cont y = t then s else r.cont y

theorem swap_spec {r : Reg} {live : List Nat} {s t n : Nat} (h : Rep r live) (hs : s ≠ 0) (ht : t ≠ 0) (hn : live.length < n) :
    ∃ r', r.swap n s t = some r' ∧ Eff r r' live (swapped r live s t) := by
  obtain ⟨l, l1, l2, l3⟩ := h.chain s hs
  obtain ⟨m, m1, m2, m3⟩ := h.chain t ht
  have k := setAll_spec (v := t) (n := n) l1 (Nat.lt_of_le_of_lt (Rep.length l2 l3) hn)
  have k2 := setAll_spec (v := s) (n := n) (r := { r with cont := fun y => if y ∈ l then t else r.cont y }) m1 (Nat.lt_of_le_of_lt (Rep.length m2 m3) hn)
  have ec : (fun y => if y ∈ m then s else if y ∈ l then t else r.cont y) = swapped r live s t := by
    funext y
    unfold swapped
    simp only [l3, m3]
    by_cases q1 : y ∈ live
    · by_cases q2 : r.cont y = s
      · by_cases q3 : r.cont y = t
        · simp [q1, q2, q3, q2.symm.trans q3]
        · simp [q1, q2]
      · simp [q1, q2]
    · simp [q1]
  refine ⟨{ r with cont := fun y => if y ∈ m then s else if y ∈ l then t else r.cont y, head := upd (upd r.head s (r.head t)) t (r.head s) }, by unfold Reg.swap; rw [k]; dsimp only; rw [k2], ⟨h.nz, fun u hu => ?_⟩, ec, rfl, rfl⟩
  show ∃ l', Chain r.next (upd (upd r.head s (r.head t)) t (r.head s) u) l' ∧ l'.Nodup ∧ ∀ y, y ∈ l' ↔ y ∈ live ∧ (fun y => if y ∈ m then s else if y ∈ l then t else r.cont y) y = u
  rw [ec]
  by_cases e1 : u = t
  · subst e1
    rw [upd_same]
    refine ⟨l, l1, l2, fun y => ?_⟩
    rw [l3]
    unfold swapped
    by_cases q1 : y ∈ live
    · by_cases q2 : r.cont y = s
      · simp [q1, q2]
      · by_cases q3 : r.cont y = u
        · simp only [q1, q3, true_and, if_true]
          rw [if_neg (by rw [← q3]; exact q2)]
          exact eq_comm
        · simp [q1, q2, q3]
    · simp [q1]
  · rw [upd_other _ _ e1]
    by_cases e2 : u = s
    · subst e2
      rw [upd_same]
      refine ⟨m, m1, m2, fun y => ?_⟩
      rw [m3]
      unfold swapped
      by_cases q1 : y ∈ live
      · by_cases q2 : r.cont y = u
        · simp only [q1, q2, true_and, if_true]
          exact eq_comm
        · by_cases q3 : r.cont y = t
          · simp [q1, q3]
          · simp [q1, q2, q3]
      · simp [q1]
    · rw [upd_other _ _ e2]
      obtain ⟨o, o1, o2, o3⟩ := h.chain u hu
      refine ⟨o, o1, o2, fun y => ?_⟩
      rw [o3]
      unfold swapped
      by_cases q1 : y ∈ live
      · by_cases q2 : r.cont y = s
        · simp [q1, q2]
          exact ⟨fun k => absurd k.symm e2, fun k => absurd k.symm e1⟩
        · by_cases q3 : r.cont y = t
          · simp only [q1, q3, true_and, if_true]
            rw [if_neg (by rw [← q3]; exact q2)]
            exact ⟨fun k => absurd k.symm e1, fun k => absurd k.symm e2⟩
          · simp [q1, q2, q3]
      · simp [q1]

/-- What an operation of the registry does to the live iterators: `f y` is the container `y` is attached to afterwards. -/
structure Does (r r' : Reg) (live : List Nat) (f : Nat → Nat) : Prop where
  rep : Rep r' live
  cont : ∀ y ∈ live, r'.cont y = f y
  node : ∀ y ∈ live, r'.node y = r.node y
  unchecked : ∀ y ∈ live, r'.unchecked y = r.unchecked y

theorem Eff.does {r r' : Reg} {live : List Nat} {f : Nat → Nat} (h : Eff r r' live f) : Does r r' live f :=
  ⟨h.rep, fun y _ => by rw [h.cont], fun y _ => by rw [h.node], fun y _ => by rw [h.unchecked]⟩

theorem does_refl {r : Reg} {live : List Nat} (h : Rep r live) : Does r r live r.cont := ⟨h, fun _ _ => rfl, fun _ _ => rfl, fun _ _ => rfl⟩

theorem attach_cont (r : Reg) (it s : Nat) : (r.attach it s).cont = upd r.cont it s := by
  unfold Reg.attach; dsimp only; split <;> rfl

theorem attach_node (r : Reg) (it s : Nat) : (r.attach it s).node = r.node := by
  unfold Reg.attach; dsimp only; split <;> rfl

theorem attach_unchecked (r : Reg) (it s : Nat) : (r.attach it s).unchecked = r.unchecked := by
  unfold Reg.attach; dsimp only; split <;> rfl

/-- A new iterator. -/
theorem make_spec {r : Reg} {live : List Nat} {it s : Nat} {x : Id} (h : Rep r live) (hz : it ≠ 0) (hi : it ∉ live) :
    Rep (r.make it s x) (it :: live) ∧ (r.make it s x).cont = upd r.cont it s ∧ (r.make it s x).node = upd r.node it x ∧
      (r.make it s x).unchecked = upd r.unchecked it false := by
  refine ⟨?_, attach_cont _ _ _, attach_node _ _ _, attach_unchecked _ _ _⟩
  exact (attach_rep (live' := it :: live) (h.fields (r' := { r with node := upd r.node it x, unchecked := upd r.unchecked it false }) rfl rfl rfl) hz (fun k => absurd k hi) (fun y => List.mem_cons)).1

theorem copy_spec {r : Reg} {live : List Nat} {it a : Nat} (h : Rep r live) (hz : it ≠ 0) (hi : it ∉ live) :
    Rep (r.copy it a) (it :: live) ∧ (r.copy it a).cont = upd r.cont it (r.cont a) ∧ (r.copy it a).node = upd r.node it (r.node a) ∧
      (r.copy it a).unchecked = upd r.unchecked it (r.unchecked a) := by
  refine ⟨?_, attach_cont _ _ _, attach_node _ _ _, attach_unchecked _ _ _⟩
  exact (attach_rep (live' := it :: live) (h.fields (r' := { r with node := upd r.node it (r.node a), unchecked := upd r.unchecked it (r.unchecked a) }) rfl rfl rfl) hz (fun k => absurd k hi) (fun y => List.mem_cons)).1

/-- The destructor of a local iterator. -/
theorem kill_spec {r : Reg} {live : List Nat} {it n : Nat} (h : Rep r (it :: live)) (hi : it ∉ live) (hn : live.length + 1 < n) :
    ∃ r', r.detach n it = some r' ∧ Does r r' live r.cont := by
  obtain ⟨r', k1, k2⟩ := detach_spec h (List.mem_cons_self ..) (n := n) (by simpa using hn)
  refine ⟨r', k1, ?_, fun y hy => ?_, fun y _ => by rw [k2.node], fun y _ => by rw [k2.unchecked]⟩
  · exact k2.rep.drop (it := it) (by rw [k2.cont, upd_same]) (fun y hy => List.mem_cons_of_mem _ hy) (fun y hy ne => (List.mem_cons.1 hy).resolve_left ne)
  · rw [k2.cont, upd_other]
    rintro rfl
    exact hi hy

theorem detachEquivalent_spec {r : Reg} {live : List Nat} {it n : Nat} (h : Rep r (it :: live)) (hi : it ∉ live) (hc : r.cont it ≠ 0) (hn : live.length + 1 < n) :
    ∃ r', r.detachEquivalent n it = some r' ∧ r'.cont it = 0 ∧ Does r r' (it :: live) (fun y => if r.cont y = r.cont it ∧ r.node y = r.node it then 0 else r.cont y) := by
  unfold Reg.detachEquivalent
  rw [if_neg hc]
  obtain ⟨r1, k1, k2⟩ := sweep_spec (p := fun y => y != it && r.node y == r.node it) (t := 0) h hc hc.symm (n := n) (by simpa using hn)
  rw [k1]
  obtain ⟨r2, k3, k4⟩ := detach_spec (it := it) k2.rep (by simp) (n := n) (by simpa using hn)
  refine ⟨r2, k3, by rw [k4.cont, upd_same], k4.rep, fun y hy => ?_, fun y _ => by rw [k4.node, k2.node], fun y _ => by rw [k4.unchecked, k2.unchecked]⟩
  rw [k4.cont]
  by_cases e : y = it
  · subst e; simp
  · rw [upd_other _ _ e, k2.cont]
    unfold swept
    simp [e, hy]

theorem detachIterators_spec {r : Reg} {live : List Nat} {it s n : Nat} {x : Id} (h : Rep r live) (hz : it ≠ 0) (hi : it ∉ live) (hs : s ≠ 0) (hn : live.length + 1 < n) :
    ∃ r', r.detachIterators n it s x = some r' ∧ Does r r' live (fun y => if r.cont y = s ∧ r.node y = x then 0 else r.cont y) := by
  obtain ⟨m1, m2, m3, m4⟩ := make_spec (s := s) (x := x) h hz hi
  obtain ⟨r1, k1, k2, k3⟩ := detachEquivalent_spec (n := n) m1 hi (by rw [m2, upd_same]; exact hs) hn
  obtain ⟨r2, k4, k5⟩ := kill_spec k3.rep hi hn
  have ne : ∀ y ∈ live, y ≠ it := fun y hy k => hi (k ▸ hy)
  refine ⟨r2, by unfold Reg.detachIterators; rw [k1]; exact k4, k5.rep, fun y hy => ?_, fun y hy => ?_, fun y hy => ?_⟩
  · rw [k5.cont y hy, k3.cont y (List.mem_cons_of_mem _ hy), m2, m3, upd_same, upd_same, upd_other _ _ (ne y hy), upd_other _ _ (ne y hy)]
  · rw [k5.node y hy, k3.node y (List.mem_cons_of_mem _ hy), m3, upd_other _ _ (ne y hy)]
  · rw [k5.unchecked y hy, k3.unchecked y (List.mem_cons_of_mem _ hy), m4, upd_other _ _ (ne y hy)]

theorem detachDereferenceable_spec {r : Reg} {live : List Nat} {t s n : Nat} {hd : Id} (h : Rep r live) (hz : t ≠ 0) (hi : t ∉ live) (hs : s ≠ 0) (hn : live.length + 1 < n) :
    ∃ r', r.detachDereferenceable n t s hd = some r' ∧ Does r r' live (fun y => if r.cont y = s ∧ r.node y ≠ hd then 0 else r.cont y) := by
  obtain ⟨m1, m2, m3, m4⟩ := make_spec (s := s) (x := hd) h hz hi
  obtain ⟨r1, k1, k2⟩ := sweep_spec (p := fun y => (r.make t s hd).node y != (r.make t s hd).node t) (t := 0) m1 hs hs.symm (n := n) (by simpa using hn)
  obtain ⟨r2, k4, k5⟩ := kill_spec k2.rep hi hn
  have ne : ∀ y ∈ live, y ≠ t := fun y hy k => hi (k ▸ hy)
  refine ⟨r2, by unfold Reg.detachDereferenceable; dsimp only; rw [k1]; exact k4, k5.rep, fun y hy => ?_, fun y hy => ?_, fun y hy => ?_⟩
  · rw [k5.cont y hy, k2.cont]
    unfold swept
    rw [m2, m3, upd_same]
    simp [hy, upd_other _ _ (ne y hy)]
  · rw [k5.node y hy, k2.node, m3, upd_other _ _ (ne y hy)]
  · rw [k5.unchecked y hy, k2.unchecked, m4, upd_other _ _ (ne y hy)]

theorem transferEquivalent_spec {r : Reg} {live : List Nat} {it t s n : Nat} {hd : Id} (h : Rep r (it :: live)) (hi : it ∉ live) (hc : r.cont it ≠ 0) (hs : s ≠ r.cont it)
    (s0 : s ≠ 0) (tz : t ≠ 0) (ht : t ∉ it :: live) (hn : live.length + 2 < n) :
    ∃ r', r.transferEquivalent n it t s hd = some r' ∧ Does r r' live (fun y => if r.cont y = r.cont it ∧ r.node y = r.node it then s else r.cont y) := by
  unfold Reg.transferEquivalent
  rw [if_neg hc]
  obtain ⟨m1, m2, m3, m4⟩ := make_spec (s := s) (x := hd) h tz ht
  obtain ⟨r1, k1, k2⟩ := kill_spec (n := n) m1 ht (by simpa using hn)
  rw [k1]
  have ne : ∀ y ∈ it :: live, y ≠ t := fun y hy k => ht (k ▸ hy)
  have c1 : ∀ y ∈ it :: live, r1.cont y = r.cont y := fun y hy => by rw [k2.cont y hy, m2, upd_other _ _ (ne y hy)]
  have n1 : ∀ y ∈ it :: live, r1.node y = r.node y := fun y hy => by rw [k2.node y hy, m3, upd_other _ _ (ne y hy)]
  have u1 : ∀ y ∈ it :: live, r1.unchecked y = r.unchecked y := fun y hy => by rw [k2.unchecked y hy, m4, upd_other _ _ (ne y hy)]
  have hc1 := c1 it (by simp)
  have hn1 := n1 it (by simp)
  obtain ⟨r2, k3, k4⟩ := sweep_spec (p := fun y => y != it && r1.node y == r1.node it) (s := r1.cont it) (t := s) k2.rep (by rw [hc1]; exact hc) (by rw [hc1]; exact hs) (n := n) (by simp; omega)
  dsimp only
  rw [k3]
  obtain ⟨r3, k5, k6⟩ := kill_spec k4.rep hi (n := n) (by omega)
  refine ⟨r3, k5, k6.rep, fun y hy => ?_, fun y hy => ?_, fun y hy => ?_⟩
  · have hy' : y ∈ it :: live := List.mem_cons_of_mem _ hy
    have e : y ≠ it := fun k => hi (k ▸ hy)
    rw [k6.cont y hy, k4.cont]
    unfold swept
    simp [hy, e, c1 y hy', n1 y hy', hc1, hn1]
  · rw [k6.node y hy, k4.node, n1 y (List.mem_cons_of_mem _ hy)]
  · rw [k6.unchecked y hy, k4.unchecked, u1 y (List.mem_cons_of_mem _ hy)]

theorem transferIterators_spec {r : Reg} {live : List Nat} {it it2 t s d n : Nat} {hd x : Id} {same : Bool} (h : Rep r live) (nz : 0 ∉ [it, it2, t]) (nd : [it, it2, t].Nodup)
    (hi : ∀ y ∈ [it, it2, t], y ∉ live) (hs : s ≠ 0) (d0 : d ≠ 0) (sd : d ≠ s) (hn : live.length + 3 < n) :
    ∃ r', r.transferIterators n it it2 t s d hd x same = some r' ∧
      Does r r' live (fun y => if r.cont y = s ∧ r.node y = x then (if same then d else 0) else r.cont y) := by
  simp only [List.mem_cons, List.not_mem_nil, or_false, not_or, List.nodup_cons, not_false_eq_true, List.nodup_nil, and_true] at nz nd
  unfold Reg.transferIterators
  cases same with
  | false =>
    obtain ⟨r', k1, k2⟩ := detachIterators_spec (x := x) (s := s) (n := n) h (fun k => nz.1 k.symm) (hi it (by simp)) hs (by omega)
    exact ⟨r', by simpa using k1, by simpa using k2⟩
  | true =>
    obtain ⟨m1, m2, m3, m4⟩ := make_spec (s := s) (x := x) h (fun k => nz.1 k.symm) (hi it (by simp))
    obtain ⟨c1, c2, c3, c4⟩ := copy_spec (it := it2) (a := it) m1 (fun k => nz.2.1 k.symm) (by
      simp only [List.mem_cons, not_or]; exact ⟨fun k => nd.1.1 k.symm, hi it2 (by simp)⟩)
    have i2 : it2 ∉ it :: live := by simp only [List.mem_cons, not_or]; exact ⟨fun k => nd.1.1 k.symm, hi it2 (by simp)⟩
    have e1 : ((r.make it s x).copy it2 it).cont it2 = s := by rw [c2, upd_same, m2, upd_same]
    have e2 : ((r.make it s x).copy it2 it).node it2 = x := by rw [c3, upd_same, m3, upd_same]
    obtain ⟨r1, k1, k2⟩ := transferEquivalent_spec (t := t) (s := d) (n := n) (hd := hd) c1 i2 (by rw [e1]; exact hs) (by rw [e1]; exact sd) d0 (fun k => nz.2.2 k.symm) (by
      simp only [List.mem_cons, not_or]; exact ⟨fun k => nd.2 k.symm, fun k => nd.1.2 k.symm, hi t (by simp)⟩) (by simp; omega)
    obtain ⟨r2, k3, k4⟩ := kill_spec (n := n) k2.rep (hi it (by simp)) (by omega)
    have ne : ∀ y ∈ live, y ≠ it ∧ y ≠ it2 := fun y hy => ⟨fun k => hi it (by simp) (k ▸ hy), fun k => hi it2 (by simp) (k ▸ hy)⟩
    refine ⟨r2, by rw [if_pos rfl, k1]; exact k3, k4.rep, fun y hy => ?_, fun y hy => ?_, fun y hy => ?_⟩
    · rw [k4.cont y hy, k2.cont y (List.mem_cons_of_mem _ hy), e1, e2, c2, c3, upd_other _ _ (ne y hy).2, upd_other _ _ (ne y hy).2, m2, m3, upd_other _ _ (ne y hy).1, upd_other _ _ (ne y hy).1]
      simp
    · rw [k4.node y hy, k2.node y (List.mem_cons_of_mem _ hy), c3, upd_other _ _ (ne y hy).2, m3, upd_other _ _ (ne y hy).1]
    · rw [k4.unchecked y hy, k2.unchecked y (List.mem_cons_of_mem _ hy), c4, upd_other _ _ (ne y hy).2, m4, upd_other _ _ (ne y hy).1]

/-- `operator=`. -/
theorem assign_spec {r : Reg} {live : List Nat} {it a n : Nat} (h : Rep r live) (hi : it ∈ live) (hn : live.length < n) :
    ∃ r', r.assign n it a = some r' ∧ Rep r' live ∧ r'.cont = upd r.cont it (r.cont a) ∧ r'.node = upd r.node it (r.node a) ∧ r'.unchecked = upd r.unchecked it (r.unchecked a) := by
  unfold Reg.assign
  dsimp only
  have h' := h.fields (r' := { r with node := upd r.node it (r.node a), unchecked := upd r.unchecked it (r.unchecked a) }) rfl rfl rfl
  by_cases e : r.cont it = r.cont a
  · refine ⟨_, if_pos e, h', ?_, rfl, rfl⟩
    funext y
    by_cases k : y = it
    · subst k; rw [upd_same]; exact e
    · rw [upd_other _ _ k]
  · rw [if_neg e]
    obtain ⟨r1, k1, k2⟩ := detach_spec h' hi hn
    rw [k1]
    refine ⟨_, rfl, (attach_rep (live' := live) k2.rep (fun k => h.nz (k ▸ hi)) (fun _ => by rw [k2.cont, upd_same]) (fun y => ⟨Or.inr, ?_⟩)).1, ?_, ?_, ?_⟩
    · rintro (rfl | k); exacts [hi, k]
    · rw [attach_cont, k2.cont]
      funext y
      by_cases k : y = it
      · subst k; rw [upd_same, upd_same]
      · rw [upd_other _ _ k, upd_other _ _ k, upd_other _ _ k]
    · rw [attach_node, k2.node]
    · rw [attach_unchecked, k2.unchecked]

theorem load_spec {r : Reg} {live : List Nat} {it n : Nat} {x : Id} (h : Rep r live) (hi : it ∈ live) (hn : live.length < n) :
    ∃ r', r.load n it x = some r' ∧ Rep r' live ∧ r'.cont = upd r.cont it 0 ∧ r'.node = upd r.node it x ∧ r'.unchecked = upd r.unchecked it true := by
  unfold Reg.load
  obtain ⟨r1, k1, k2⟩ := detach_spec (h.fields (r' := { r with node := upd r.node it x }) rfl rfl rfl) hi hn
  rw [k1]
  refine ⟨_, rfl, k2.rep.fields rfl rfl rfl, k2.cont, k2.node, ?_⟩
  show upd r1.unchecked it true = _
  rw [k2.unchecked]

theorem blank_spec {r : Reg} {live : List Nat} {it : Nat} {x : Id} (h : Rep r live) (hz : it ≠ 0) (hi : it ∉ live) : Rep (r.blank it x) (it :: live) := by
  refine ⟨fun k => ?_, fun s hs => ?_⟩
  · rcases List.mem_cons.1 k with k | k
    · exact hz k.symm
    · exact h.nz k
  · obtain ⟨l, l1, l2, l3⟩ := h.chain s hs
    have ni : it ∉ l := fun k => hi ((l3 it).1 k).1
    refine ⟨l, l1.congr fun y hy => ?_, l2, fun y => ?_⟩
    · refine upd_other _ _ ?_
      rintro rfl
      exact ni hy
    · show _ ↔ y ∈ it :: live ∧ upd r.cont it 0 y = s
      by_cases k : y = it
      · subst k
        rw [upd_same]
        exact ⟨fun q => absurd q ni, fun q => absurd q.2.symm hs⟩
      · rw [upd_other _ _ k, l3]
        simp [k]

end MI.Safe
