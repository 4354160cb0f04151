import Verif.Mt.Model
import Verif.Safe.RegistryLemmas
/-!
A logic for the programs of threads: what a thread may touch, what other threads leave alone, and when a program is safe.
-/
set_option linter.unusedVariables false
namespace MI.Mt
open MI MI.Safe

/-- Memory, and for every iterator the safe container it is in the list of. -/
structure G extends Mem where
  lnk : Nat → Nat

/-- What a thread may touch. -/
structure Perm where
  t : Tid
  /-- iterators it may change -/
  mine : Nat → Prop
  /-- iterators it may read -/
  sees : Nat → Prop
  rC : Nat → Prop
  wC : Nat → Prop
  sub : ∀ y, mine y → sees y

/-- The list of `s` is not touched by others. -/
def Perm.held (P : Perm) (g : G) (s : Nat) : Prop := P.wC s ∨ (P.rC s ∧ g.mtx s = some P.t)

def Perm.canLink (P : Perm) (g : G) : Link → Prop
  | .head s => P.held g s
  | .next y => (g.lnk y ≠ 0 ∧ P.held g (g.lnk y)) ∨ (g.lnk y = 0 ∧ P.mine y)

theorem canLink_next (P : Perm) (g : G) (y : Nat) : P.canLink g (.next y) ↔ (g.lnk y ≠ 0 ∧ P.held g (g.lnk y)) ∨ (g.lnk y = 0 ∧ P.mine y) := .rfl

/-- A `next` member of the list of `s`. -/
def G.In (g : G) (s : Nat) : Link → Prop
  | .head u => u = s
  | .next y => g.lnk y = s

structure GRep (g : G) : Prop where
  z : g.lnk 0 = 0
  chain : ∀ s, s ≠ 0 → ∃ l, Chain g.next (g.head s) l ∧ l.Nodup ∧ ∀ y, y ∈ l ↔ g.lnk y = s

/-- From `p` on, the iterators `l`, then `e`. -/
def Path (g : G) (s : Nat) : Link → List Nat → Nat → Prop
  | p, [], e => g.link p = e
  | p, y :: l, e => g.link p = y ∧ y ≠ e ∧ y ≠ 0 ∧ g.lnk y = s ∧ Path g s (.next y) l e

def lastLink : Link → List Nat → Link
  | p, [] => p
  | _, y :: l => lastLink (.next y) l

/-! ### changes -/

def G.setCont (g : G) (y v : Nat) : G := { g with cont := upd g.cont y v }
def G.setVal (g : G) (y : Nat) (v : Id × Bool) : G := { g with val := upd g.val y v }
def G.setNext (g : G) (y v : Nat) : G := { g with next := upd g.next y v }
def G.setMtx (g : G) (s : Nat) (v : Option Tid) : G := { g with mtx := upd g.mtx s v }
def G.push (g : G) (s v : Nat) : G := { g with head := upd g.head s v, lnk := upd g.lnk v s }
def G.cut (g : G) (p : Link) (z : Nat) : G := { g.toMem.setLink p (g.next z) with lnk := upd g.lnk z 0 }
def G.wipe (g : G) (s : Nat) : G := { g with head := upd g.head s 0, lnk := fun y => if g.lnk y = s then 0 else g.lnk y }
def G.xchg (g : G) (s d : Nat) : G :=
  { g with head := upd (upd g.head s (g.head d)) d (g.head s), lnk := fun y => if g.lnk y = s then d else if g.lnk y = d then s else g.lnk y }
def G.contAll (g : G) (v : Nat) (l : List Nat) : G := { g with cont := fun y => if y ∈ l then v else g.cont y }

/-- A write to a `next` member. -/
inductive WL (P : Perm) (g : G) : Link → Nat → G → Prop
  | next {y : Nat} (v : Nat) : P.mine y → g.lnk y = 0 → WL P g (.next y) v (g.setNext y v)
  | push {s v : Nat} : s ≠ 0 → P.held g s → v ≠ 0 → P.mine v → g.lnk v = 0 → g.next v = g.head s → WL P g (.head s) v (g.push s v)
  | cut {s : Nat} {p : Link} {z : Nat} : s ≠ 0 → P.held g s → g.In s p → g.link p = z → z ≠ 0 → g.lnk z = s → P.mine z → WL P g p (g.next z) (g.cut p z)
  | wipe {s : Nat} : s ≠ 0 → P.wC s → (∀ y, g.lnk y = s → P.mine y) → WL P g (.head s) 0 (g.wipe s)

/-- A step. -/
inductive Act (P : Perm) (g : G) : G → Prop
  | skip : Act P g g
  | cont {y : Nat} (v : Nat) : P.mine y → Act P g (g.setCont y v)
  | val {y : Nat} (v : Id × Bool) : P.mine y → Act P g (g.setVal y v)
  | wl {p : Link} {v : Nat} {g' : G} : WL P g p v g' → Act P g g'
  | xchg {s d : Nat} : s ≠ 0 → d ≠ 0 → s ≠ d → P.wC s → P.wC d → (∀ y, g.lnk y = s ∨ g.lnk y = d → P.mine y) → Act P g (g.xchg s d)
  | lock {s : Nat} : g.mtx s = none → Act P g (g.setMtx s (some P.t))
  | unlock {s : Nat} : g.mtx s = some P.t → Act P g (g.setMtx s none)

/-- Nothing `P` may look at has changed. -/
structure Agree (P : Perm) (g h : G) : Prop where
  cont : ∀ y, P.sees y → h.cont y = g.cont y
  val : ∀ y, P.sees y → h.val y = g.val y
  lnk : ∀ y, P.mine y → h.lnk y = g.lnk y
  lnkS : ∀ s y, s ≠ 0 → P.held g s → (h.lnk y = s ↔ g.lnk y = s)
  next : ∀ y, P.canLink g (.next y) → h.next y = g.next y
  head : ∀ s, P.held g s → h.head s = g.head s
  mtx : ∀ s, h.mtx s = some P.t ↔ g.mtx s = some P.t

theorem Agree.refl (P : Perm) (g : G) : Agree P g g := ⟨fun _ _ => rfl, fun _ _ => rfl, fun _ _ => rfl, fun _ _ _ _ => .rfl, fun _ _ => rfl, fun _ _ => rfl, fun _ => .rfl⟩

theorem Agree.held {P : Perm} {g h : G} (a : Agree P g h) (s : Nat) : P.held h s ↔ P.held g s := by
  unfold Perm.held; rw [a.mtx]

theorem Agree.canNext {P : Perm} {g h : G} (a : Agree P g h) (y : Nat) (k : P.canLink g (.next y)) : P.canLink h (.next y) := by
  rcases k with ⟨k1, k2⟩ | ⟨k1, k2⟩
  · have : h.lnk y = g.lnk y := (a.lnkS _ y k1 k2).2 rfl
    exact .inl ⟨by rw [this]; exact k1, by rw [this, a.held]; exact k2⟩
  · exact .inr ⟨by rw [a.lnk y k2]; exact k1, k2⟩

theorem Agree.canLink {P : Perm} {g h : G} (a : Agree P g h) (p : Link) (k : P.canLink g p) : P.canLink h p := by
  cases p with
  | head s => exact (a.held s).2 k
  | next y => exact a.canNext y k

theorem Agree.link {P : Perm} {g h : G} (a : Agree P g h) (p : Link) (k : P.canLink g p) : h.link p = g.link p := by
  cases p with
  | head s => exact a.head s k
  | next y => exact a.next y k

theorem Agree.trans {P : Perm} {g h i : G} (a : Agree P g h) (b : Agree P h i) : Agree P g i where
  cont y k := (b.cont y k).trans (a.cont y k)
  val y k := (b.val y k).trans (a.val y k)
  lnk y k := (b.lnk y k).trans (a.lnk y k)
  lnkS s y z k := (b.lnkS s y z ((a.held s).2 k)).trans (a.lnkS s y z k)
  next y k := (b.next y (a.canNext y k)).trans (a.next y k)
  head s k := (b.head s ((a.held s).2 k)).trans (a.head s k)
  mtx s := (b.mtx s).trans (a.mtx s)

theorem Agree.In {P : Perm} {g h : G} (a : Agree P g h) {s : Nat} (z : s ≠ 0) (k : P.held g s) {p : Link} (i : g.In s p) : h.In s p := by
  cases p with
  | head u => exact i
  | next y => exact (a.lnkS s y z k).2 i

theorem canLink_of_In {P : Perm} {g : G} {s : Nat} (z : s ≠ 0) (k : P.held g s) {p : Link} (i : g.In s p) : P.canLink g p := by
  cases p with
  | head u => cases i; exact k
  | next y => exact .inl ⟨by rw [show g.lnk y = s from i]; exact z, by rw [show g.lnk y = s from i]; exact k⟩

theorem Agree.path {P : Perm} {g h : G} (a : Agree P g h) {s : Nat} (z : s ≠ 0) (k : P.held g s) {e : Nat} : ∀ {l : List Nat} {p : Link}, g.In s p →
    Path g s p l e → Path h s p l e
  | [], p, i, q => (a.link p (canLink_of_In z k i)).trans q
  | y :: l, p, i, ⟨q1, q2, q3, q4, q5⟩ =>
    ⟨(a.link p (canLink_of_In z k i)).trans q1, q2, q3, (a.lnkS s y z k).2 q4, Agree.path a z k (p := .next y) q4 q5⟩

/-! ### changes made by a thread in two states that look alike to it -/

section
variable {P : Perm} {g h : G} (a : Agree P g h)
include a

theorem agree_cont (y v : Nat) : Agree P (g.setCont y v) (h.setCont y v) :=
  { a with
    cont := fun z k => by
      show upd h.cont y v z = upd g.cont y v z
      by_cases e : z = y
      · subst e; rw [upd_same, upd_same]
      · rw [upd_other _ _ e, upd_other _ _ e]; exact a.cont z k
    lnkS := fun s y k1 k2 => a.lnkS s y k1 k2
    next := fun y k => a.next y k
    head := fun s k => a.head s k }

theorem agree_val (y : Nat) (v : Id × Bool) : Agree P (g.setVal y v) (h.setVal y v) :=
  { a with
    val := fun z k => by
      show upd h.val y v z = upd g.val y v z
      by_cases e : z = y
      · subst e; rw [upd_same, upd_same]
      · rw [upd_other _ _ e, upd_other _ _ e]; exact a.val z k
    lnkS := fun s y k1 k2 => a.lnkS s y k1 k2
    next := fun y k => a.next y k
    head := fun s k => a.head s k }

theorem agree_contAll (v : Nat) (l : List Nat) : Agree P (g.contAll v l) (h.contAll v l) :=
  { a with
    cont := fun z k => by
      show (if z ∈ l then v else h.cont z) = (if z ∈ l then v else g.cont z)
      rw [a.cont z k]
    lnkS := fun s y k1 k2 => a.lnkS s y k1 k2
    next := fun y k => a.next y k
    head := fun s k => a.head s k }

theorem agree_next (y v : Nat) : Agree P (g.setNext y v) (h.setNext y v) :=
  { a with
    lnkS := fun s y k1 k2 => a.lnkS s y k1 k2
    next := fun z k => by
      show upd h.next y v z = upd g.next y v z
      by_cases e : z = y
      · subst e; rw [upd_same, upd_same]
      · rw [upd_other _ _ e, upd_other _ _ e]; exact a.next z k
    head := fun s k => a.head s k }

theorem agree_push {s v : Nat} (hm : P.mine v) (hl : g.lnk v = 0) : Agree P (g.push s v) (h.push s v) :=
  { a with
    lnk := fun y k => by
      show upd h.lnk v s y = upd g.lnk v s y
      by_cases e : y = v
      · subst e; rw [upd_same, upd_same]
      · rw [upd_other _ _ e, upd_other _ _ e]; exact a.lnk y k
    lnkS := fun u y z k => by
      show upd h.lnk v s y = u ↔ upd g.lnk v s y = u
      by_cases e : y = v
      · subst e; rw [upd_same, upd_same]
      · rw [upd_other _ _ e, upd_other _ _ e]; exact a.lnkS u y z k
    next := fun y k => by
      by_cases e : y = v
      · subst e; exact a.next y (.inr ⟨hl, hm⟩)
      · refine a.next y ?_
        have : (g.push s v).lnk y = g.lnk y := upd_other _ _ e
        rw [canLink_next] at k
        rw [this] at k
        exact k
    head := fun u k => by
      show upd h.head s v u = upd g.head s v u
      by_cases e : u = s
      · subst e; rw [upd_same, upd_same]
      · rw [upd_other _ _ e, upd_other _ _ e]; exact a.head u k }

theorem agree_cut {s z : Nat} {p : Link} (hs : s ≠ 0) (hd : P.held g s) (hi : g.In s p) (hz : g.lnk z = s) : Agree P (g.cut p z) (h.cut p z) := by
  have cz : P.canLink g (.next z) := .inl ⟨by rw [hz]; exact hs, by rw [hz]; exact hd⟩
  have ez := a.next z cz
  have mt : (g.cut p z).mtx = g.mtx := by cases p <;> rfl
  have mt' : (h.cut p z).mtx = h.mtx := by cases p <;> rfl
  have hh : ∀ u, P.held (g.cut p z) u ↔ P.held g u := fun u => by unfold Perm.held; rw [mt]
  have ct : (g.cut p z).cont = g.cont ∧ (h.cut p z).cont = h.cont := by cases p <;> exact ⟨rfl, rfl⟩
  have vt : (g.cut p z).val = g.val ∧ (h.cut p z).val = h.val := by cases p <;> exact ⟨rfl, rfl⟩
  have cn : ∀ y, P.canLink (g.cut p z) (.next y) → P.canLink g (.next y) := fun y k => by
    by_cases e : y = z
    · subst e; exact cz
    · have : (g.cut p z).lnk y = g.lnk y := upd_other _ _ e
      rw [canLink_next] at k
      rw [this, hh] at k
      exact k
  refine ⟨fun y k => ?_, fun y k => ?_, fun y k => ?_, fun u y w k => ?_, fun y k => ?_, fun u k => ?_, fun u => ?_⟩
  · rw [ct.1, ct.2]; exact a.cont y k
  · rw [vt.1, vt.2]; exact a.val y k
  · show upd h.lnk z 0 y = upd g.lnk z 0 y
    by_cases e : y = z
    · subst e; rw [upd_same, upd_same]
    · rw [upd_other _ _ e, upd_other _ _ e]; exact a.lnk y k
  · show upd h.lnk z 0 y = u ↔ upd g.lnk z 0 y = u
    by_cases e : y = z
    · subst e; rw [upd_same, upd_same]
    · rw [upd_other _ _ e, upd_other _ _ e]; exact a.lnkS u y w ((hh u).1 k)
  · have k2 := cn y k
    clear k
    cases p with
    | head u => exact a.next y k2
    | next q =>
      show upd h.next q (h.next z) y = upd g.next q (g.next z) y
      by_cases e : y = q
      · subst e; rw [upd_same, upd_same, ez]
      · rw [upd_other _ _ e, upd_other _ _ e]; exact a.next y k2
  · have k := (hh u).1 k
    cases p with
    | head q =>
      show upd h.head q (h.next z) u = upd g.head q (g.next z) u
      by_cases e : u = q
      · subst e; rw [upd_same, upd_same, ez]
      · rw [upd_other _ _ e, upd_other _ _ e]; exact a.head u k
    | next q => exact a.head u k
  · rw [mt, mt']; exact a.mtx u

theorem agree_wipe {s : Nat} (hs : s ≠ 0) (hw : P.wC s) (hm : ∀ y, g.lnk y = s → P.mine y) : Agree P (g.wipe s) (h.wipe s) := by
  have key : ∀ y, h.lnk y = s ↔ g.lnk y = s := fun y => a.lnkS s y hs (.inl hw)
  have lk : ∀ y, (g.wipe s).lnk y = if g.lnk y = s then 0 else g.lnk y := fun y => rfl
  have lk' : ∀ y, (h.wipe s).lnk y = if g.lnk y = s then 0 else h.lnk y := fun y => by
    show (if h.lnk y = s then 0 else h.lnk y) = _
    simp only [key]
  refine ⟨a.cont, a.val, fun y k => ?_, fun u y w k => ?_, fun y k => ?_, fun u k => ?_, a.mtx⟩
  · rw [lk, lk', a.lnk y k]
  · rw [lk, lk']
    split
    · exact .rfl
    · exact a.lnkS u y w k
  · refine a.next y ?_
    rw [canLink_next] at k
    rw [lk] at k
    by_cases e : g.lnk y = s
    · exact .inl ⟨by rw [e]; exact hs, by rw [e]; exact .inl hw⟩
    · rw [if_neg e] at k; exact k
  · show upd h.head s 0 u = upd g.head s 0 u
    by_cases e : u = s
    · subst e; rw [upd_same, upd_same]
    · rw [upd_other _ _ e, upd_other _ _ e]; exact a.head u k

theorem agree_xchg {s d : Nat} (hs : s ≠ 0) (hd : d ≠ 0) (hw : P.wC s) (hx : P.wC d) : Agree P (g.xchg s d) (h.xchg s d) := by
  have k1 : ∀ y, h.lnk y = s ↔ g.lnk y = s := fun y => a.lnkS s y hs (.inl hw)
  have k2 : ∀ y, h.lnk y = d ↔ g.lnk y = d := fun y => a.lnkS d y hd (.inl hx)
  have lk : ∀ y, (g.xchg s d).lnk y = if g.lnk y = s then d else if g.lnk y = d then s else g.lnk y := fun y => rfl
  have lk' : ∀ y, (h.xchg s d).lnk y = if g.lnk y = s then d else if g.lnk y = d then s else h.lnk y := fun y => by
    show (if h.lnk y = s then d else if h.lnk y = d then s else h.lnk y) = _
    simp only [k1, k2]
  refine ⟨a.cont, a.val, fun y k => ?_, fun u y w k => ?_, fun y k => ?_, fun u k => ?_, a.mtx⟩
  · rw [lk, lk', a.lnk y k]
  · rw [lk, lk']
    split
    · exact .rfl
    · split
      · exact .rfl
      · exact a.lnkS u y w k
  · refine a.next y ?_
    rw [canLink_next] at k
    rw [lk] at k
    by_cases e : g.lnk y = s
    · exact .inl ⟨by rw [e]; exact hs, by rw [e]; exact .inl hw⟩
    · rw [if_neg e] at k
      by_cases e2 : g.lnk y = d
      · exact .inl ⟨by rw [e2]; exact hd, by rw [e2]; exact .inl hx⟩
      · rw [if_neg e2] at k; exact k
  · show upd (upd h.head s (h.head d)) d (h.head s) u = upd (upd g.head s (g.head d)) d (g.head s) u
    rw [a.head s (.inl hw), a.head d (.inl hx)]
    by_cases e : u = d
    · subst e; rw [upd_same, upd_same]
    · rw [upd_other _ _ e, upd_other _ _ e]
      by_cases e : u = s
      · subst e; rw [upd_same, upd_same]
      · rw [upd_other _ _ e, upd_other _ _ e]; exact a.head u k

theorem agree_unlock (s : Nat) : Agree P (g.setMtx s none) (h.setMtx s none) := by
  have hh : ∀ u, P.held (g.setMtx s none) u → P.held g u := by
    rintro u (k | ⟨k1, k2⟩)
    · exact .inl k
    · refine .inr ⟨k1, ?_⟩
      by_cases e : u = s
      · subst e; exact absurd k2 (by show upd g.mtx u none u ≠ _; rw [upd_same]; simp)
      · rw [← k2]; exact (upd_other _ _ e).symm
  refine ⟨a.cont, a.val, a.lnk, fun u y w k => a.lnkS u y w (hh u k), fun y k => a.next y ?_, fun u k => a.head u (hh u k), fun u => ?_⟩
  · rcases k with k | k
    · exact .inl ⟨k.1, hh _ k.2⟩
    · exact .inr k
  · show upd h.mtx s none u = _ ↔ upd g.mtx s none u = _
    by_cases e : u = s
    · subst e; rw [upd_same, upd_same]
    · rw [upd_other _ _ e, upd_other _ _ e]; exact a.mtx u

theorem agree_WL {p : Link} {v : Nat} {g' : G} (w : WL P g p v g') : ∃ h', WL P h p v h' ∧ Agree P g' h' := by
  cases w with
  | next v h1 h2 => exact ⟨_, .next v h1 (by rw [a.lnk _ h1]; exact h2), agree_next a _ _⟩
  | push h1 h2 h3 h4 h5 h6 =>
    exact ⟨_, .push h1 ((a.held _).2 h2) h3 h4 (by rw [a.lnk _ h4]; exact h5) (by rw [a.next _ (.inr ⟨h5, h4⟩), a.head _ h2]; exact h6), agree_push a h4 h5⟩
  | cut h1 h2 h3 h4 h5 h6 h7 =>
    have := a.next _ (.inl ⟨by rw [h6]; exact h1, by rw [h6]; exact h2⟩)
    rw [← this]
    exact ⟨_, .cut h1 ((a.held _).2 h2) (a.In h1 h2 h3) ((a.link _ (canLink_of_In h1 h2 h3)).trans h4) h5 ((a.lnkS _ _ h1 h2).2 h6) h7, agree_cut a h1 h2 h3 h6⟩
  | wipe h1 h2 h3 =>
    exact ⟨_, .wipe h1 h2 fun y k => h3 y ((a.lnkS _ _ h1 (.inl h2)).1 k), agree_wipe a h1 h2 h3⟩

end

end MI.Mt
