import Verif.Mt.Logic
/-!
When a program is safe to run, and that this lasts whatever other threads do.
-/
set_option linter.unusedVariables false
namespace MI.Mt
open MI MI.Safe

/-- `y` is moved to the list of `t`, `p` being its predecessor. -/
def G.move (g : G) (p : Link) (y t : Nat) : G :=
  let g1 := (g.cut p y).setCont y t
  if t = 0 then g1 else (g1.setNext y (g1.head t)).push t y

/-- An iterator that a loop takes out. -/
def G.hit (g : G) (neg : Bool) (it y : Nat) : Bool :=
  if neg then !((g.val y).1 == (g.val it).1) else y != it && (g.val y).1 == (g.val it).1

/-- What the loops do. -/
def G.swept (neg : Bool) (it t : Nat) : G → Link → List Nat → G
  | g, _, [] => g
  | g, p, y :: l => if g.hit neg it y then G.swept neg it t (g.move p y t) p l else G.swept neg it t g (.next y) l

/-- `p` is not a member of the iterators `l`. -/
def Out (p : Link) (l : List Nat) : Prop := ∀ y, p = .next y → y ∉ l

structure SweepOk (P : Perm) (g : G) (it t s : Nat) (p : Link) (l : List Nat) : Prop where
  w : P.wC s
  z : s ≠ 0
  ts : t ≠ s
  tw : t = 0 ∨ P.wC t
  i : g.In s p
  path : Path g s p l 0
  nd : l.Nodup
  out : Out p l
  mine : ∀ y ∈ l, P.mine y
  cont : ∀ y ∈ l, g.cont y = s
  si : P.sees it
  ci : g.cont it = s

/-- Running the program is safe and ends in a state that satisfies `Q`. -/
def wp (P : Perm) (Q : G → Prop) : Code → G → Prop
  | .done, g => Q g
  | .crash, _ => False
  | .rdCont y k, g => P.sees y ∧ wp P Q (k (g.cont y)) g
  | .wrCont y v k, g => P.mine y ∧ wp P Q k (g.setCont y v)
  | .rdVal y k, g => P.sees y ∧ wp P Q (k (g.val y)) g
  | .wrVal y v k, g => P.mine y ∧ wp P Q k (g.setVal y v)
  | .rdLink p k, g => P.canLink g p ∧ wp P Q (k (g.link p)) g
  | .wrLink p v k, g => ∃ g', WL P g p v g' ∧ wp P Q k g'
  | .lock s k, g => (P.rC s ∨ P.wC s) ∧ g.mtx s ≠ some P.t ∧ ∀ h, Agree P g h → GRep h → wp P Q k (h.setMtx s (some P.t))
  | .unlock s k, g => g.mtx s = some P.t ∧ wp P Q k (g.setMtx s none)
  | .find it p k, g => ∃ s l, s ≠ 0 ∧ P.held g s ∧ g.In s p ∧ Path g s p l it ∧ wp P Q (k (lastLink p l)) g
  | .sweep neg it t p k, g => ∃ s l, SweepOk P g it t s p l ∧ wp P Q k (g.swept neg it t p l)
  | .setAll v y k, g => ∃ s l, s ≠ 0 ∧ P.wC s ∧ Chain g.next y l ∧ (∀ z ∈ l, P.mine z ∧ g.lnk z = s) ∧ wp P Q k (g.contAll v l)
  | .xchg s d k, g => s ≠ 0 ∧ d ≠ 0 ∧ s ≠ d ∧ P.wC s ∧ P.wC d ∧ (∀ y, g.lnk y = s ∨ g.lnk y = d → P.mine y) ∧ wp P Q k (g.xchg s d)

/-! ### stability -/

theorem agree_move {P : Perm} {g h : G} (a : Agree P g h) {s y t : Nat} {p : Link} (hs : s ≠ 0) (hd : P.held g s) (hi : g.In s p) (hz : g.lnk y = s) (hm : P.mine y)
    (ht : t = 0 ∨ P.wC t) : Agree P (g.move p y t) (h.move p y t) := by
  have a1 := agree_cont (agree_cut a hs hd hi hz) y t
  unfold G.move
  by_cases e : t = 0
  · rw [if_pos e, if_pos e]; exact a1
  · rw [if_neg e, if_neg e]
    have hw : P.wC t := ht.resolve_left e
    have := a1.head t (.inl hw)
    rw [this]
    refine agree_push (agree_next a1 y _) hm ?_
    show upd g.lnk y 0 y = 0
    rw [upd_same]

theorem hit_agree {P : Perm} {g h : G} (a : Agree P g h) {neg : Bool} {it y : Nat} (s1 : P.sees it) (s2 : P.sees y) : h.hit neg it y = g.hit neg it y := by
  unfold G.hit
  rw [a.val _ s1, a.val _ s2]

theorem path_congr {g h : G} {s e : Nat} : ∀ {l : List Nat} {p p' : Link}, h.link p' = g.link p → (∀ y ∈ l, h.next y = g.next y ∧ h.lnk y = g.lnk y) →
    Path g s p l e → Path h s p' l e
  | [], p, p', q, _, w => q.trans w
  | y :: l, p, p', q, k, ⟨w1, w2, w3, w4, w5⟩ =>
    ⟨q.trans w1, w2, w3, by rw [(k y (by simp)).2]; exact w4, path_congr (p := .next y) (p' := .next y) (k y (by simp)).1 (fun z hz => k z (List.mem_cons_of_mem _ hz)) w5⟩

theorem move_cont (g : G) (p : Link) (y t : Nat) : (g.move p y t).cont = upd g.cont y t := by
  unfold G.move; cases p <;> (dsimp only; split <;> rfl)

theorem move_val (g : G) (p : Link) (y t : Nat) : (g.move p y t).val = g.val := by
  unfold G.move; cases p <;> (dsimp only; split <;> rfl)

theorem move_mtx (g : G) (p : Link) (y t : Nat) : (g.move p y t).mtx = g.mtx := by
  unfold G.move; cases p <;> (dsimp only; split <;> rfl)

theorem move_lnk (g : G) (p : Link) (y t : Nat) : (g.move p y t).lnk = upd g.lnk y t := by
  unfold G.move; dsimp only
  split
  · next e => subst e; rfl
  · show upd (upd g.lnk y 0) y t = _
    funext z
    by_cases e : z = y
    · subst e; rw [upd_same, upd_same]
    · rw [upd_other _ _ e, upd_other _ _ e, upd_other _ _ e]

theorem move_next (g : G) (p : Link) (y t z : Nat) (h1 : z ≠ y) (h2 : p ≠ .next z) : (g.move p y t).next z = g.next z := by
  have : (g.cut p y).next z = g.next z := by
    cases p with
    | head u => rfl
    | next q => exact upd_other _ _ fun e => h2 (by rw [e])
  unfold G.move
  dsimp only
  split
  · exact this
  · show upd (g.cut p y).next y _ z = _
    rw [upd_other _ _ h1]; exact this

theorem move_link (g : G) (p : Link) (y t s : Nat) (hi : g.In s p) (hz : p ≠ .next y) (hs : t ≠ s) : (g.move p y t).link p = g.next y := by
  unfold G.move
  dsimp only
  cases p with
  | head u =>
    have hi : u = s := hi
    subst hi
    split
    · show upd g.head u (g.next y) u = _
      rw [upd_same]
    · show upd (upd g.head u (g.next y)) t y u = _
      rw [upd_other _ _ (Ne.symm hs), upd_same]
  | next q =>
    have hq : q ≠ y := fun e => hz (by rw [e])
    split
    · show upd g.next q (g.next y) q = _
      rw [upd_same]
    · show upd (upd g.next q (g.next y)) y _ q = _
      rw [upd_other _ _ hq, upd_same]

/-- After one iterator has been taken out, the loop goes on. -/
theorem SweepOk.moved {P : Perm} {g : G} {it t s y : Nat} {p : Link} {l : List Nat} (k : SweepOk P g it t s p (y :: l)) (hit : y ≠ it) :
    SweepOk P (g.move p y t) it t s p l := by
  obtain ⟨q1, q2, q3, q4, q5⟩ := k.path
  have nd := List.nodup_cons.1 k.nd
  have py : p ≠ .next y := fun e => k.out y e (by simp)
  refine ⟨k.w, k.z, k.ts, k.tw, ?_, ?_, nd.2, fun z e hz => k.out z e (by simp [hz]), fun z hz => k.mine z (by simp [hz]), fun z hz => ?_, k.si, ?_⟩
  · have hi := k.i
    cases p with
    | head u => exact hi
    | next q =>
      show (g.move _ y t).lnk q = s
      rw [move_lnk, upd_other _ _ fun e => py (by rw [e])]; exact hi
  · refine path_congr (p := .next y) (move_link g p y t s k.i py k.ts) (fun z hz => ⟨move_next g p y t z (fun e => nd.1 (e ▸ hz)) fun e => k.out z e (by simp [hz]), ?_⟩) q5
    have : z ≠ y := fun e => nd.1 (e ▸ hz)
    rw [move_lnk, upd_other _ _ this]
  · have : z ≠ y := fun e => nd.1 (e ▸ hz)
    rw [move_cont, upd_other _ _ this]; exact k.cont z (by simp [hz])
  · rw [move_cont, upd_other _ _ (Ne.symm hit)]; exact k.ci

theorem SweepOk.passed {P : Perm} {g : G} {it t s y : Nat} {p : Link} {l : List Nat} (k : SweepOk P g it t s p (y :: l)) : SweepOk P g it t s (.next y) l := by
  obtain ⟨q1, q2, q3, q4, q5⟩ := k.path
  have nd := List.nodup_cons.1 k.nd
  exact ⟨k.w, k.z, k.ts, k.tw, q4, q5, nd.2, fun z e hz => nd.1 (by cases e; exact hz), fun z hz => k.mine z (by simp [hz]), fun z hz => k.cont z (by simp [hz]), k.si, k.ci⟩

theorem hit_ne {g : G} {neg : Bool} {it y : Nat} (h : g.hit neg it y = true) : y ≠ it := by
  rintro rfl
  unfold G.hit at h
  split at h <;> simp at h

theorem SweepOk.agree {P : Perm} {g h : G} (a : Agree P g h) {it t s : Nat} {p : Link} {l : List Nat} (k : SweepOk P g it t s p l) : SweepOk P h it t s p l :=
  ⟨k.w, k.z, k.ts, k.tw, a.In k.z (.inl k.w) k.i, a.path k.z (.inl k.w) k.i k.path, k.nd, k.out, k.mine,
    fun y hy => (a.cont y (P.sub y (k.mine y hy))).trans (k.cont y hy), k.si, (a.cont it k.si).trans k.ci⟩

theorem agree_swept {P : Perm} {neg : Bool} {it t s : Nat} : ∀ {l : List Nat} {g h : G} {p : Link}, Agree P g h → SweepOk P g it t s p l →
    Agree P (g.swept neg it t p l) (h.swept neg it t p l)
  | [], g, h, p, a, k => a
  | y :: l, g, h, p, a, k => by
    have hy := k.mine y (by simp)
    unfold G.swept
    rw [hit_agree a k.si (P.sub y hy)]
    by_cases e : g.hit neg it y
    · rw [if_pos e, if_pos e]
      exact agree_swept (agree_move a k.z (.inl k.w) k.i k.path.2.2.2.1 hy k.tw) (k.moved (hit_ne e))
    · rw [if_neg e, if_neg e]
      exact agree_swept a k.passed

/-- A program that is safe to run stays so when other threads run. -/
theorem wp.stable {P : Perm} {Q : G → Prop} (hQ : ∀ g h, Agree P g h → Q g → Q h) : ∀ {c : Code} {g h : G}, wp P Q c g → Agree P g h → wp P Q c h
  | .done, g, h, w, a => hQ g h a w
  | .crash, g, h, w, a => w
  | .rdCont y k, g, h, ⟨w1, w2⟩, a => ⟨w1, by rw [a.cont y w1]; exact wp.stable hQ w2 a⟩
  | .wrCont y v k, g, h, ⟨w1, w2⟩, a => ⟨w1, wp.stable hQ w2 (agree_cont a y v)⟩
  | .rdVal y k, g, h, ⟨w1, w2⟩, a => ⟨w1, by rw [a.val y w1]; exact wp.stable hQ w2 a⟩
  | .wrVal y v k, g, h, ⟨w1, w2⟩, a => ⟨w1, wp.stable hQ w2 (agree_val a y v)⟩
  | .rdLink p k, g, h, ⟨w1, w2⟩, a => ⟨a.canLink p w1, by rw [a.link p w1]; exact wp.stable hQ w2 a⟩
  | .wrLink p v k, g, h, ⟨g', w1, w2⟩, a => by
    obtain ⟨h', v1, v2⟩ := agree_WL a w1
    exact ⟨h', v1, wp.stable hQ w2 v2⟩
  | .lock s k, g, h, ⟨w1, w2, w3⟩, a => ⟨w1, fun e => w2 ((a.mtx s).1 e), fun i b r => w3 i (a.trans b) r⟩
  | .unlock s k, g, h, ⟨w1, w2⟩, a => ⟨(a.mtx s).2 w1, wp.stable hQ w2 (agree_unlock a s)⟩
  | .find it p k, g, h, ⟨s, l, w1, w2, w3, w4, w5⟩, a => ⟨s, l, w1, (a.held s).2 w2, a.In w1 w2 w3, a.path w1 w2 w3 w4, wp.stable hQ w5 a⟩
  | .sweep neg it t p k, g, h, ⟨s, l, w1, w2⟩, a => ⟨s, l, w1.agree a, wp.stable hQ w2 (agree_swept a w1)⟩
  | .setAll v y k, g, h, ⟨s, l, w1, w2, w3, w4, w5⟩, a =>
    ⟨s, l, w1, w2, w3.congr fun z hz => a.next z (.inl ⟨by rw [(w4 z hz).2]; exact w1, by rw [(w4 z hz).2]; exact .inl w2⟩),
      fun z hz => ⟨(w4 z hz).1, (a.lnk z (w4 z hz).1).trans (w4 z hz).2⟩, wp.stable hQ w5 (agree_contAll a v l)⟩
  | .xchg s d k, g, h, ⟨w1, w2, w3, w4, w5, w6, w7⟩, a =>
    ⟨w1, w2, w3, w4, w5, fun y k => w6 y (by rwa [a.lnkS s y w1 (.inl w4), a.lnkS d y w2 (.inl w5)] at k), wp.stable hQ w7 (agree_xchg a w1 w2 w4 w5)⟩

/-! ### steps -/

theorem wp_test {P : Perm} {Q : G → Prop} {g : G} {a b : Nat} {k : Bool → Code} (h1 : P.sees a) (h2 : P.sees b)
    (h3 : (g.cont a ≠ 0 ∨ (g.val a).2 = true) ∧ (g.cont b ≠ 0 ∨ (g.val b).2 = true) ∧ ((g.cont a ≠ 0 ∧ g.cont b ≠ 0 ∧ g.cont a = g.cont b) ∨ (g.val a).2 = true ∨ (g.val b).2 = true))
    (w : wp P Q (k ((g.val a).1 == (g.val b).1)) g) : wp P Q (testCode a b k) g := by
  refine ⟨h1, h1, h2, h2, ?_⟩
  dsimp only
  rw [if_pos h3]
  exact w

theorem wp_body {P : Perm} {Q : G → Prop} {g : G} {neg : Bool} {it t s y : Nat} {p : Link} {l : List Nat} {k : Code} (o : SweepOk P g it t s p (y :: l))
    (w : wp P Q k (g.swept neg it t p (y :: l))) : wp P Q (sweepBody neg it t p y k) g := by
  have hy := o.mine y (by simp)
  have hc := o.cont y (by simp)
  obtain ⟨q1, q2, q3, q4, q5⟩ := o.path
  have htest : ∀ {k : Bool → Code}, wp P Q (k ((g.val y).1 == (g.val it).1)) g → wp P Q (testCode y it k) g := fun w =>
    wp_test (P.sub y hy) o.si ⟨.inl (by rw [hc]; exact o.z), .inl (by rw [o.ci]; exact o.z), .inl ⟨by rw [hc]; exact o.z, by rw [o.ci]; exact o.z, by rw [hc, o.ci]⟩⟩ w
  have hpass : g.hit neg it y = false → wp P Q (.sweep neg it t (.next y) k) g := fun e =>
    ⟨s, l, o.passed, by unfold G.swept at w; rw [if_neg (by simp [e])] at w; exact w⟩
  have hcut : g.hit neg it y = true → wp P Q (.rdLink (.next y) fun z => .wrLink p z <| .wrCont y t <|
      if t = 0 then .sweep neg it t p k else .rdLink (.head t) fun h => .wrLink (.next y) h <| .wrLink (.head t) y <| .sweep neg it t p k) g := fun e => by
    unfold G.swept at w
    rw [if_pos e] at w
    have om := o.moved (hit_ne e)
    refine ⟨canLink_of_In (p := .next y) o.z (.inl o.w) q4, g.cut p y, .cut o.z (.inl o.w) o.i q1 q3 q4 hy, hy, ?_⟩
    unfold G.move at om w
    dsimp only at om w
    by_cases ht : t = 0
    · rw [if_pos ht] at om w ⊢
      exact ⟨s, l, om, w⟩
    · rw [if_neg ht] at om w ⊢
      have tw := o.tw.resolve_left ht
      have h0 : ((g.cut p y).setCont y t).lnk y = 0 := upd_same _ _ _
      refine ⟨.inl tw, _, .next _ hy h0, _, .push ht (.inl tw) q3 hy h0 ?_, s, l, om, w⟩
      exact upd_same _ _ _
  unfold sweepBody
  dsimp only
  cases neg with
  | true =>
    rw [if_pos rfl]
    refine htest ?_
    by_cases e : (g.val y).1 = (g.val it).1
    · rw [if_pos (by simpa using e)]
      exact hpass (by simp [G.hit, e])
    · rw [if_neg (by simpa using e)]
      exact hcut (by simp [G.hit, e])
  | false =>
    rw [if_neg (by simp)]
    by_cases ei : y = it
    · rw [if_pos ei]
      exact hpass (by simp [G.hit, ei])
    · rw [if_neg ei]
      refine htest ?_
      by_cases e : (g.val y).1 = (g.val it).1
      · rw [if_pos (by simpa using e)]
        exact hcut (by simp [G.hit, e, ei])
      · rw [if_neg (by simpa using e)]
        exact hpass (by simp [G.hit, e])

/-- A program that is safe to run makes safe steps. -/
theorem wp.step {P : Perm} {Q : G → Prop} {c c' : Code} {g : G} {m : Mem} (w : wp P Q c g) (r : GRep g) (e : c.exec P.t g.toMem = some (c', m)) :
    ∃ g', g'.toMem = m ∧ Act P g g' ∧ wp P Q c' g' := by
  cases c with
  | done => exact absurd e (by simp [Code.exec])
  | crash => exact absurd e (by simp [Code.exec])
  | rdCont y k =>
    simp only [Code.exec, Option.some.injEq, Prod.mk.injEq] at e
    obtain ⟨rfl, rfl⟩ := e
    exact ⟨g, rfl, .skip, w.2⟩
  | wrCont y v k =>
    simp only [Code.exec, Option.some.injEq, Prod.mk.injEq] at e
    obtain ⟨rfl, rfl⟩ := e
    exact ⟨_, rfl, .cont v w.1, w.2⟩
  | rdVal y k =>
    simp only [Code.exec, Option.some.injEq, Prod.mk.injEq] at e
    obtain ⟨rfl, rfl⟩ := e
    exact ⟨g, rfl, .skip, w.2⟩
  | wrVal y v k =>
    simp only [Code.exec, Option.some.injEq, Prod.mk.injEq] at e
    obtain ⟨rfl, rfl⟩ := e
    exact ⟨_, rfl, .val v w.1, w.2⟩
  | rdLink p k =>
    simp only [Code.exec, Option.some.injEq, Prod.mk.injEq] at e
    obtain ⟨rfl, rfl⟩ := e
    exact ⟨g, rfl, .skip, w.2⟩
  | wrLink p v k =>
    simp only [Code.exec, Option.some.injEq, Prod.mk.injEq] at e
    obtain ⟨rfl, rfl⟩ := e
    obtain ⟨g', w1, w2⟩ := w
    refine ⟨g', ?_, .wl w1, w2⟩
    cases w1 <;> rfl
  | lock s k =>
    simp only [Code.exec] at e
    split at e
    · next hf =>
      simp only [Option.some.injEq, Prod.mk.injEq] at e
      obtain ⟨rfl, rfl⟩ := e
      exact ⟨_, rfl, .lock hf, w.2.2 g (.refl P g) r⟩
    · cases e
  | unlock s k =>
    simp only [Code.exec, Option.some.injEq, Prod.mk.injEq] at e
    obtain ⟨rfl, rfl⟩ := e
    exact ⟨_, rfl, .unlock w.1, w.2⟩
  | find it p k =>
    simp only [Code.exec, Option.some.injEq, Prod.mk.injEq] at e
    obtain ⟨rfl, rfl⟩ := e
    obtain ⟨s, l, w1, w2, w3, w4, w5⟩ := w
    refine ⟨g, rfl, .skip, ?_⟩
    cases l with
    | nil => rw [if_pos (show g.link p = it from w4)]; exact w5
    | cons y l =>
      obtain ⟨q1, q2, q3, q4, q5⟩ := w4
      rw [q1, if_neg q2, if_neg q3]
      exact ⟨s, l, w1, w2, q4, q5, w5⟩
  | sweep neg it t p k =>
    simp only [Code.exec, Option.some.injEq, Prod.mk.injEq] at e
    obtain ⟨rfl, rfl⟩ := e
    obtain ⟨s, l, w1, w2⟩ := w
    refine ⟨g, rfl, .skip, ?_⟩
    cases l with
    | nil => rw [if_pos (show g.link p = 0 from w1.path)]; exact w2
    | cons y l =>
      rw [w1.path.1, if_neg w1.path.2.2.1]
      exact wp_body w1 w2
  | setAll v y k =>
    obtain ⟨s, l, w1, w2, w3, w4, w5⟩ := w
    simp only [Code.exec] at e
    cases l with
    | nil =>
      rw [if_pos (show y = 0 from w3)] at e
      simp only [Option.some.injEq, Prod.mk.injEq] at e
      obtain ⟨rfl, rfl⟩ := e
      refine ⟨g, rfl, .skip, ?_⟩
      have : g.contAll v [] = g := by simp [G.contAll]
      rw [this] at w5; exact w5
    | cons z l =>
      obtain ⟨q1, q2, q3⟩ := w3
      subst q1
      rw [if_neg q2] at e
      simp only [Option.some.injEq, Prod.mk.injEq] at e
      obtain ⟨rfl, rfl⟩ := e
      have hy := w4 y (by simp)
      refine ⟨_, rfl, .cont v hy.1, .inl ⟨by show g.lnk y ≠ 0; rw [hy.2]; exact w1, .inl (by show P.wC (g.lnk y); rw [hy.2]; exact w2)⟩,
        s, l, w1, w2, q3, fun z hz => w4 z (by simp [hz]), ?_⟩
      have : (g.setCont y v).contAll v l = g.contAll v (y :: l) := by
        unfold G.contAll G.setCont
        congr 2
        funext z
        by_cases e : z ∈ l
        · simp [e]
        · by_cases e2 : z = y
          · subst e2; simp [upd_same]
          · rw [if_neg e, if_neg (by simp [e, e2])]
            exact upd_other _ _ e2
      rw [this]; exact w5
  | xchg s d k =>
    simp only [Code.exec, Option.some.injEq, Prod.mk.injEq] at e
    obtain ⟨rfl, rfl⟩ := e
    obtain ⟨w1, w2, w3, w4, w5, w6, w7⟩ := w
    exact ⟨_, rfl, .xchg w1 w2 w3 w4 w5 w6, w7⟩

end MI.Mt
