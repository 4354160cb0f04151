import Verif.Ord.Link
/-! Rebalancing after a removal (helper lemmas). -/
namespace MI.Ord
open MI

/-- Second half of the round for a left child. -/
def fixL2 (h : Heap) (hd xp w : Id) : Fix :=
  if isBlack h (h.left w) ∧ isBlack h (h.right w) then
    .go (h.setColor w .red) xp (h.parent xp)
  else
    let (h, w) :=
      if isBlack h (h.right w) then
        let h := if h.left w ≠ 0 then h.setColor (h.left w) .black else h
        let h := h.setColor w .red
        let h := rotateRight h hd w
        (h, h.right xp)
      else (h, w)
    let h := h.setColor w (h.color xp)
    let h := h.setColor xp .black
    let h := if h.right w ≠ 0 then h.setColor (h.right w) .black else h
    .stop (rotateLeft h hd xp)

theorem extractFixL_red {h : Heap} {hd xp : Id} (hc : h.color (h.right xp) = .red) :
    extractFixL h hd xp = (let h1 := rotateLeft ((h.setColor (h.right xp) .black).setColor xp .red) hd xp
      fixL2 h1 hd xp (h1.right xp)) := by
  unfold extractFixL fixL2
  simp only [if_pos hc]

theorem extractFixL_black {h : Heap} {hd xp : Id} (hc : ¬ h.color (h.right xp) = .red) :
    extractFixL h hd xp = fixL2 h hd xp (h.right xp) := by
  unfold extractFixL fixL2
  simp only [if_neg hc]

theorem isBlack_iff {h : Heap} {hd : Id} {k : Ctx} {t : T} (H : Shape h hd (plug k t)) : isBlack h t.root ↔ t.black := by
  unfold isBlack
  cases t with
  | nil => simp [T.black]
  | node c s l x r =>
    have := H.read
    simp [T.black, this.2.1, this.2.2.2.2.2.1]

theorem fixL2_go {h0 : Heap} {hd : Id} {xs : List Id} {h : Heap} {k : Ctx} {cp : Color} {sp sw : Nat} {t a b : T} {p w : Id}
    (H : St h0 hd xs h (plug k (.node cp sp t p (.node .black sw a w b)))) (ha : a.black) (hb : b.black) :
    ∃ h', fixL2 h hd p w = .go h' p (ctxPar hd k) ∧ St h0 hd xs h' (plug k (.node cp sp t p (.node .red sw a w b))) := by
  have rp := H.read
  have rw' := St.read (k := ⟨.right, cp, sp, p, t⟩ :: k) H
  have ra := (isBlack_iff (k := ⟨.left, .black, sw, w, b⟩ :: ⟨.right, cp, sp, p, t⟩ :: k) H.shape).2 ha
  have rb := (isBlack_iff (k := ⟨.right, .black, sw, w, a⟩ :: ⟨.right, cp, sp, p, t⟩ :: k) H.shape).2 hb
  refine ⟨_, ?_, St.recolor (k := ⟨.right, cp, sp, p, t⟩ :: k) H .red⟩
  unfold fixL2
  rw [if_pos (by rw [rw'.2.2.2.1, rw'.2.2.2.2.1]; exact ⟨ra, rb⟩), rp.1]

theorem fixL2_far {h0 : Heap} {hd : Id} {xs : List Id} {h : Heap} {k : Ctx} {cp : Color} {sp sw sb : Nat} {t a b1 b2 : T} {p w z : Id}
    (H : St h0 hd xs h (plug k (.node cp sp t p (.node .black sw a w (.node .red sb b1 z b2))))) :
    ∃ h' s', fixL2 h hd p w = .stop h' ∧
      St h0 hd xs h' (plug k (.node cp sp (.node .black s' t p a) w (.node .black sb b1 z b2))) := by
  have rp := H.read
  have rw' := St.read (k := ⟨.right, cp, sp, p, t⟩ :: k) H
  have rz := St.read (k := ⟨.right, .black, sw, w, a⟩ :: ⟨.right, cp, sp, p, t⟩ :: k) H
  simp only [root_node] at rp rw' rz
  have hzb : ¬ isBlack h z := by simp [isBlack, rz.2.1, rz.2.2.2.2.2.1]
  have H1 := St.recolor (k := ⟨.right, cp, sp, p, t⟩ :: k) H cp
  have H2 := St.recolor (k := k) H1 .black
  have H3 := St.recolor (k := ⟨.right, cp, sw, w, a⟩ :: ⟨.right, .black, sp, p, t⟩ :: k) H2 .black
  obtain ⟨s', H4⟩ := St.rotL (k := k) H3
  refine ⟨_, s', ?_, H4⟩
  unfold fixL2
  have e1 : ¬ (isBlack h (h.left w) ∧ isBlack h (h.right w)) := by rw [rw'.2.2.2.2.1]; exact fun q => hzb q.2
  have e2 : ¬ isBlack h (h.right w) := by rw [rw'.2.2.2.2.1]; exact hzb
  rw [if_neg e1]
  simp only [if_neg e2]
  have e3 : ((h.setColor w (h.color p)).setColor p .black).right w = z := by simp [rw'.2.2.2.2.1]
  rw [if_pos (by rw [e3]; exact rz.2.2.2.2.2.1), e3, rp.2.1]

theorem fixL2_near {h0 : Heap} {hd : Id} {xs : List Id} {h : Heap} {k : Ctx} {cp : Color} {sp sw sa : Nat} {t b a1 a2 : T} {p w y : Id}
    (H : St h0 hd xs h (plug k (.node cp sp t p (.node .black sw (.node .red sa a1 y a2) w b)))) (hb : b.black) :
    ∃ h' s1 s2, fixL2 h hd p w = .stop h' ∧
      St h0 hd xs h' (plug k (.node cp sp (.node .black s1 t p a1) y (.node .black s2 a2 w b))) := by
  have rp := H.read
  have rw' := St.read (k := ⟨.right, cp, sp, p, t⟩ :: k) H
  have ry := St.read (k := ⟨.left, .black, sw, w, b⟩ :: ⟨.right, cp, sp, p, t⟩ :: k) H
  simp only [root_node] at rp rw' ry
  have hyb : ¬ isBlack h y := by simp [isBlack, ry.2.1, ry.2.2.2.2.2.1]
  have rb := (isBlack_iff (k := ⟨.right, .black, sw, w, .node .red sa a1 y a2⟩ :: ⟨.right, cp, sp, p, t⟩ :: k) H.shape).2 hb
  have H1 := St.recolor (k := ⟨.left, .black, sw, w, b⟩ :: ⟨.right, cp, sp, p, t⟩ :: k) H .black
  have H2 := St.recolor (k := ⟨.right, cp, sp, p, t⟩ :: k) H1 .red
  obtain ⟨s2, H3⟩ := St.rotR (k := ⟨.right, cp, sp, p, t⟩ :: k) H2
  have q1 := St.read (k := k) H3
  have q2 := St.read (k := ⟨.right, cp, sp, p, t⟩ :: k) H3
  have q3 := St.read (k := ⟨.right, .black, sw, y, a1⟩ :: ⟨.right, cp, sp, p, t⟩ :: k) H3
  simp only [root_node] at q1 q2 q3
  have H4 := St.recolor (k := ⟨.right, cp, sp, p, t⟩ :: k) H3 cp
  have H5 := St.recolor (k := k) H4 .black
  have H6 := St.recolor (k := ⟨.right, cp, sw, y, a1⟩ :: ⟨.right, .black, sp, p, t⟩ :: k) H5 .black
  obtain ⟨s1, H7⟩ := St.rotL (k := k) H6
  refine ⟨_, s1, s2, ?_, H7⟩
  unfold fixL2
  have e1 : ¬ (isBlack h (h.left w) ∧ isBlack h (h.right w)) := by rw [rw'.2.2.2.1]; exact fun q => hyb q.1
  have e2 : isBlack h (h.right w) := by rw [rw'.2.2.2.2.1]; exact rb
  rw [if_neg e1]
  simp only [if_pos e2, rw'.2.2.2.1, if_pos ry.2.2.2.2.2.1]
  generalize rotateRight ((h.setColor y .black).setColor w .red) hd w = g at *
  simp only [q1.2.2.2.2.1, q1.2.1, sc_right, q2.2.2.2.2.1, if_pos q3.2.2.2.2.2.1]

/-- Red-black up to the colour of the root. -/
def T.WRB : T → Nat → Prop
  | .node .red _ l _ r, n => l.RB n ∧ r.RB n
  | .node .black s l x r, n => T.RB (.node .black s l x r) n
  | .nil, n => n = 0

theorem wrb_black {t : T} {n : Nat} (h : t.WRB n) (hb : t.black) : t.RB n := by
  cases t with
  | nil => exact h
  | node c s l x r => cases c with
    | red => cases hb
    | black => exact h

theorem rb_wrb {t : T} {n : Nat} (h : t.RB n) : t.WRB n := by
  cases t with
  | nil => exact h
  | node c s l x r => cases c with
    | red => exact ⟨h.2.2.1, h.2.2.2⟩
    | black => exact h

/-- The result of a round: another round at `k'`, or the end. `P` is the potential before. -/
def FixOk (h0 : Heap) (hd : Id) (xs : List Id) (k : Ctx) (t : T) (P : Nat) (r : Fix) : Prop :=
  (∃ h' k' t' m, r = .go h' t'.root (ctxPar hd k') ∧ St h0 hd xs h' (plug k' t') ∧ t'.WRB m ∧ CRB k' (m + 1) ∧ t' ≠ .nil ∧
      (k'.length < k.length ∨ ¬ t'.black) ∧ (plug k' t').pot ≤ P ∧ (t'.black → (plug k' t').pot + 1 ≤ P)) ∨
    (∃ h' t', r = .stop h' ∧ St h0 hd xs h' t' ∧ RBTree t' ∧ (t.root ≠ 0 → h'.color t.root = .black) ∧ t'.pot ≤ P + 2)

theorem rb_node_of_succ {t : T} {n : Nat} (h : t.RB (n + 1)) (hb : t.black) :
    ∃ s a w b, t = .node .black s a w b ∧ a.RB n ∧ b.RB n := by
  cases t with
  | nil => cases h
  | node c s a w b =>
    cases c with
    | red => cases hb
    | black =>
      obtain ⟨m, e, h1, h2⟩ := h
      have : m = n := by omega
      subst this
      exact ⟨s, a, w, b, rfl, h1, h2⟩

theorem color_of_black {h : Heap} {hd : Id} {k : Ctx} {t : T} (H : Shape h hd (plug k t)) (hb : t.black) :
    t.root ≠ 0 → h.color t.root = .black := fun h0 => ((isBlack_iff H).2 hb).resolve_left h0

theorem fixL2_ok {h0 : Heap} {hd : Id} {xs : List Id} {h : Heap} {k K : Ctx} {cp : Color} {sp sw n : Nat} {t a b : T} {p w : Id}
    (H : St h0 hd xs h (plug k (.node cp sp t p (.node .black sw a w b)))) (ht : t.RB n) (htb : t.black)
    (ha : a.RB n) (hb : b.RB n) (hc : CRB (⟨.left, cp, sp, p, .node .black sw a w b⟩ :: k) (n + 1))
    (hK : k.length < K.length ∨ cp = .red) :
    FixOk h0 hd xs K t (plug k (.node cp sp t p (.node .black sw a w b))).pot (fixL2 h hd p w) := by
  have rt := red_black htb
  rcases black_or_red b with hbb | ⟨sb, b1, z, b2, rfl⟩
  · rcases black_or_red a with hab | ⟨sa, a1, y, a2, rfl⟩
    · obtain ⟨h', e, H'⟩ := fixL2_go H hab hbb
      left
      cases cp with
      | red =>
        refine ⟨h', k, .node .red sp t p (.node .red sw a w b), n, e, H', ⟨ht, ⟨hab, hbb, ha, hb⟩⟩, ?_, by simp, Or.inr (by simp [T.black]), ?_, fun q => absurd q (by simp [T.black])⟩
        · exact hc.2.2.1
        · simp only [pot_plug, T.pot, red_node, wt, rt, red_black hab, red_black hbb, decide_true, reduceCtorEq, decide_false]; omega
      | black =>
        refine ⟨h', k, .node .black sp t p (.node .red sw a w b), n + 1, e, H', ⟨n, rfl, ht, ⟨hab, hbb, ha, hb⟩⟩, ?_, by simp, ?_, ?_, fun _ => ?_⟩
        · exact hc.2
        · left; exact hK.resolve_right (by simp)
        · simp only [pot_plug, T.pot, red_node, wt, rt, red_black hab, red_black hbb, decide_true, reduceCtorEq, decide_false]; omega
        · simp only [pot_plug, T.pot, red_node, wt, rt, red_black hab, red_black hbb, decide_true, reduceCtorEq, decide_false]; omega
    · obtain ⟨h', s1, s2, e, H'⟩ := fixL2_near H hbb
      right
      refine ⟨h', _, e, H', ?_, ?_, ?_⟩
      rotate_left 2
      · have g1 := red_black ha.1
        have g2 := red_black ha.2.1
        cases cp <;> simp only [pot_plug, T.pot, red_node, wt, rt, g1, g2, red_black hbb, decide_true, reduceCtorEq, decide_false] <;> omega
      · rw [rb_plug]
        obtain ⟨_, _, r3, r4⟩ := ha
        cases cp with
        | red =>
          refine ⟨n + 1, hc.2.2.1, ⟨rfl, rfl, ⟨n, rfl, ht, r3⟩, ⟨n, rfl, r4, hb⟩⟩, fun hm => absurd hm hc.2.2.2⟩
        | black =>
          refine ⟨n + 2, hc.2, ⟨n + 1, rfl, ⟨n, rfl, ht, r3⟩, ⟨n, rfl, r4, hb⟩⟩, fun _ => rfl⟩
      · exact color_of_black (k := ⟨.left, .black, s1, p, a1⟩ :: ⟨.left, cp, sp, y, .node .black s2 a2 w b⟩ :: k) H'.shape htb
  · obtain ⟨h', s1, e, H'⟩ := fixL2_far H
    right
    refine ⟨h', _, e, H', ?_, ?_, ?_⟩
    rotate_left 2
    · have g1 := red_black hb.1
      have g2 := red_black hb.2.1
      cases cp <;> rcases black_or_red a with hab | ⟨sa, a1, y, a2, rfl⟩ <;>
        first
        | (simp only [pot_plug, T.pot, red_node, wt, rt, g1, g2, red_black hab, decide_true, reduceCtorEq, decide_false]; omega)
        | (simp only [pot_plug, T.pot, red_node, wt, rt, g1, g2, decide_true, reduceCtorEq, decide_false]; omega)
    · rw [rb_plug]
      obtain ⟨_, _, r3, r4⟩ := hb
      cases cp with
      | red =>
        refine ⟨n + 1, hc.2.2.1, ⟨rfl, rfl, ⟨n, rfl, ht, ha⟩, ⟨n, rfl, r3, r4⟩⟩, fun hm => absurd hm hc.2.2.2⟩
      | black =>
        refine ⟨n + 2, hc.2, ⟨n + 1, rfl, ⟨n, rfl, ht, ha⟩, ⟨n, rfl, r3, r4⟩⟩, fun _ => rfl⟩
    · exact color_of_black (k := ⟨.left, .black, s1, p, a⟩ :: ⟨.left, cp, sp, w, .node .black sb b1 z b2⟩ :: k) H'.shape htb

theorem extractFixL_ok {h0 : Heap} {hd : Id} {xs : List Id} {h : Heap} {k : Ctx} {cp : Color} {sp n : Nat} {t W : T} {p : Id}
    (H : St h0 hd xs h (plug (⟨.left, cp, sp, p, W⟩ :: k) t)) (ht : t.RB n) (htb : t.black)
    (hc : CRB (⟨.left, cp, sp, p, W⟩ :: k) (n + 1)) :
    FixOk h0 hd xs (⟨.left, cp, sp, p, W⟩ :: k) t (plug (⟨.left, cp, sp, p, W⟩ :: k) t).pot (extractFixL h hd p) := by
  have rp := St.read (k := k) (x := p) (l := t) (r := W) H
  rcases black_or_red W with hW | ⟨sw, a, w, b, rfl⟩
  · have hWn : W.RB (n + 1) := by cases cp with
      | red => exact hc.2.1
      | black => exact hc.1
    obtain ⟨sw, a, w, b, rfl, ha, hb⟩ := rb_node_of_succ hWn hW
    have rw' := St.read (k := ⟨.right, cp, sp, p, t⟩ :: k) (x := w) H
    rw [extractFixL_black (by rw [rp.2.2.2.2.1, root_node, rw'.2.1]; simp), rp.2.2.2.2.1, root_node]
    exact fixL2_ok (k := k) H ht htb ha hb hc (Or.inl (by simp))
  · cases cp with
    | red => exact absurd hc.1 (by simp [T.black])
    | black =>
    have rw' := St.read (k := ⟨.right, .black, sp, p, t⟩ :: k) (x := w) H
    rw [extractFixL_red (by rw [rp.2.2.2.2.1, root_node, rw'.2.1]), rp.2.2.2.2.1, root_node]
    have H1 := St.recolor (k := ⟨.right, .black, sp, p, t⟩ :: k) (x := w) H .black
    have H2 := St.recolor (k := k) H1 .red
    obtain ⟨s', H3⟩ := St.rotL (k := k) H2
    obtain ⟨⟨h1, h2, h3, h4⟩, h5⟩ := hc
    obtain ⟨sa, a1, y, a2, rfl, ha1, ha2⟩ := rb_node_of_succ h3 h1
    have q := St.read (k := ⟨.left, .black, sp, w, b⟩ :: k) H3
    simp only [q.2.2.2.2.1, root_node]
    have := fixL2_ok (K := ⟨.left, .black, sp, p, .node .red sw (.node .black sa a1 y a2) w b⟩ :: k) (k := ⟨.left, .black, sp, w, b⟩ :: k) H3 ht htb ha1 ha2
      ⟨rfl, h3, ⟨h4, h5⟩, by simp [mustBlack]⟩ (Or.inr rfl)
    have e : (plug (⟨.left, .black, sp, w, b⟩ :: k) (.node .red s' t p (.node .black sa a1 y a2))).pot =
        (plug (⟨.left, .black, sp, p, .node .red sw (.node .black sa a1 y a2) w b⟩ :: k) t).pot := by
      simp only [plug, Fr.fill, pot_plug, T.pot, red_node, wt, red_black htb, red_black h2, decide_true, reduceCtorEq, decide_false]; omega
    rw [e] at this
    exact this

def Fix.mirror : Fix → Fix
  | .go h x xp => .go h.mirror x xp
  | .stop h => .stop h.mirror

@[simp] theorem isBlack_mirror (h : Heap) (p : Id) : isBlack h.mirror p = isBlack h p := rfl

theorem extractFixR_mirror (h : Heap) (hd xp : Id) : extractFixR h hd xp = (extractFixL h.mirror hd xp).mirror := by
  have key : ∀ (h : Heap) (w : Id),
      (if isBlack h (h.right w) ∧ isBlack h (h.left w) then
        Fix.go (h.setColor w .red) xp (h.parent xp)
      else
        let (h, w) :=
          if isBlack h (h.left w) then
            let h := if h.right w ≠ 0 then h.setColor (h.right w) .black else h
            let h := h.setColor w .red
            let h := rotateLeft h hd w
            (h, h.left xp)
          else (h, w)
        let h := h.setColor w (h.color xp)
        let h := h.setColor xp .black
        let h := if h.left w ≠ 0 then h.setColor (h.left w) .black else h
        Fix.stop (rotateRight h hd xp)) = (fixL2 h.mirror hd xp w).mirror := by
    intro h w
    unfold fixL2
    by_cases h1 : isBlack h (h.right w) ∧ isBlack h (h.left w)
    · have h2 : isBlack h.mirror (h.mirror.left w) ∧ isBlack h.mirror (h.mirror.right w) := h1
      rw [if_pos h1, if_pos h2]; rfl
    · have h2 : ¬ (isBlack h.mirror (h.mirror.left w) ∧ isBlack h.mirror (h.mirror.right w)) := h1
      rw [if_neg h1, if_neg h2]
      have tail : ∀ (h : Heap) (w : Id),
          (let h := h.setColor w (h.color xp)
          let h := h.setColor xp .black
          let h := if h.left w ≠ 0 then h.setColor (h.left w) .black else h
          Fix.stop (rotateRight h hd xp)) =
          (let h := h.mirror.setColor w (h.mirror.color xp)
          let h := h.setColor xp .black
          let h := if h.right w ≠ 0 then h.setColor (h.right w) .black else h
          Fix.stop (rotateLeft h hd xp)).mirror := by
        intro h w
        simp only [Fix.mirror, rotateRight_mirror]
        congr 3
        by_cases h5 : ((h.setColor w (h.color xp)).setColor xp .black).left w ≠ 0
        · have h6 : ((h.mirror.setColor w (h.mirror.color xp)).setColor xp .black).right w ≠ 0 := h5
          rw [if_pos h5, if_pos h6]; rfl
        · have h6 : ¬ ((h.mirror.setColor w (h.mirror.color xp)).setColor xp .black).right w ≠ 0 := h5
          rw [if_neg h5, if_neg h6]; rfl
      by_cases h3 : isBlack h (h.left w)
      · have h4 : isBlack h.mirror (h.mirror.right w) := h3
        simp only [if_pos h3, if_pos h4]
        have eq : ∀ g : Heap, rotateLeft g hd w = (rotateRight g.mirror hd w).mirror := fun g => rotateLeft_mirror g hd w
        by_cases h5 : h.right w ≠ 0
        · have h6 : h.mirror.left w ≠ 0 := h5
          simp only [if_pos h5, if_pos h6]
          rw [eq]
          exact tail _ _
        · have h6 : ¬ h.mirror.left w ≠ 0 := h5
          simp only [if_neg h5, if_neg h6]
          rw [eq]
          exact tail _ _
      · have h4 : ¬ isBlack h.mirror (h.mirror.right w) := h3
        simp only [if_neg h3, if_neg h4]
        exact tail h w
  by_cases hr : h.color (h.left xp) = .red
  · have hr' : h.mirror.color (h.mirror.right xp) = .red := hr
    rw [extractFixL_red hr']
    unfold extractFixR
    simp only [if_pos hr]
    rw [key, rotateRight_mirror]
    rfl
  · have hr' : ¬ h.mirror.color (h.mirror.right xp) = .red := hr
    rw [extractFixL_black hr']
    unfold extractFixR
    simp only [if_neg hr]
    rw [key]
    rfl

theorem wrb_mirror {t : T} {n : Nat} : t.mirror.WRB n ↔ t.WRB n := by
  cases t with
  | nil => rfl
  | node c s l x r =>
    cases c with
    | red => simp only [T.mirror, T.WRB, T.mirror_RB]; tauto
    | black => exact T.mirror_RB (.node .black s l x r)

theorem crb_mirror (k : Ctx) : ∀ {n}, CRB (k.map Fr.mirror) n ↔ CRB k n := by
  induction k with
  | nil => intro n; rfl
  | cons f k ih =>
    intro n
    rcases f with ⟨side, c, s, x, sib⟩
    have hm : mustBlack (k.map Fr.mirror) ↔ mustBlack k := by cases k <;> rfl
    cases c
    · simp only [List.map_cons, Fr.mirror, CRB, T.mirror_black, T.mirror_RB, ih, hm]
    · simp only [List.map_cons, Fr.mirror, CRB, T.mirror_RB, ih]

theorem ctxPar_mirror (hd : Id) (k : Ctx) : ctxPar hd (k.map Fr.mirror) = ctxPar hd k := by
  cases k <;> rfl

theorem fixOk_mirror {h0 : Heap} {hd : Id} {xs : List Id} {k : Ctx} {t : T} {n : Nat} {r : Fix}
    (H : FixOk h0.mirror hd xs.reverse (k.map Fr.mirror) t.mirror n r) : FixOk h0 hd xs k t n r.mirror := by
  rcases H with ⟨h', k', t', m, rfl, H1, H2, H3, H4, H5, H6, H7⟩ | ⟨h', t', rfl, H1, H2, H3, H4⟩
  · left
    refine ⟨h'.mirror, k'.map Fr.mirror, t'.mirror, m, ?_, ?_, wrb_mirror.2 H2, (crb_mirror k').2 H3, ?_, ?_,
      by rw [← plug_mirror, mirror_pot]; exact H6, by rw [T.mirror_black, ← plug_mirror, mirror_pot]; exact H7⟩
    · simp [Fix.mirror, ctxPar_mirror]
    · rw [← plug_mirror]; simpa using H1.mirror
    · intro e; apply H4
      have : t'.mirror.mirror = T.nil := by rw [e]; rfl
      simpa using this
    · simpa using H5
  · right
    refine ⟨h'.mirror, t'.mirror, rfl, by simpa using H1.mirror, (mirror_RBTree _).2 H2, by rw [T.mirror_root] at H3; exact H3,
      by rw [mirror_pot]; exact H4⟩

theorem extractFixR_ok {h0 : Heap} {hd : Id} {xs : List Id} {h : Heap} {k : Ctx} {cp : Color} {sp n : Nat} {t W : T} {p : Id}
    (H : St h0 hd xs h (plug (⟨.right, cp, sp, p, W⟩ :: k) t)) (ht : t.RB n) (htb : t.black)
    (hc : CRB (⟨.right, cp, sp, p, W⟩ :: k) (n + 1)) :
    FixOk h0 hd xs (⟨.right, cp, sp, p, W⟩ :: k) t (plug (⟨.right, cp, sp, p, W⟩ :: k) t).pot (extractFixR h hd p) := by
  rw [extractFixR_mirror]
  apply fixOk_mirror
  have H' := H.mirror
  rw [plug_mirror] at H'
  rw [← mirror_pot (plug _ t), plug_mirror]
  exact extractFixL_ok (k := k.map Fr.mirror) H' (T.mirror_RB t |>.2 ht) ((T.mirror_black t).2 htb)
    ((crb_mirror (⟨.right, cp, sp, p, W⟩ :: k)).2 hc)

/-- Final recolouring. -/
def blacken (h : Heap) (x : Id) : Heap := if x ≠ 0 then h.setColor x .black else h

theorem setColor_same {h : Heap} {x : Id} {c : Color} (e : h.color x = c) : h.setColor x c = h := by
  unfold Heap.setColor
  have : upd h.color x c = h.color := by
    funext z; unfold upd; split
    · rename_i q; rw [q, e]
    · rfl
  rw [this]

theorem extractFix_spec {h0 : Heap} {hd : Id} {xs : List Id} (m : Nat) : ∀ (k : Ctx) {h : Heap} {N n : Nat} {t : T},
    (k.length < m ∨ ¬ t.black) →
    St h0 hd xs h (plug k t) → t.WRB n → CRB k (n + 1) → m + 1 ≤ N →
    ∃ h' x' f, extractFixS hd N h t.root (ctxPar hd k) = some ((h', x'), f) ∧ ∃ t', St h0 hd xs (blacken h' x') t' ∧ RBTree t' ∧
      f + t'.pot ≤ (plug k t).pot + 5 ∧ (¬ t.black → f + t'.pot ≤ (plug k t).pot + 4) := by
  have stopCase : ∀ (k : Ctx) {h : Heap} {N n : Nat} {t : T}, St h0 hd xs h (plug k t) → t.WRB n → CRB k (n + 1) →
      (k = [] ∨ ¬ t.black) →
      ∃ h' x' f, extractFixS hd (N + 1) h t.root (ctxPar hd k) = some ((h', x'), f) ∧ ∃ t', St h0 hd xs (blacken h' x') t' ∧ RBTree t' ∧
        f + t'.pot ≤ (plug k t).pot + 4 := by
    intro k h N n t H hw hc hor
    have e : extractFixS hd (N + 1) h t.root (ctxPar hd k) = some ((h, t.root), 0) := by
      unfold extractFixS
      rw [if_neg]
      rintro ⟨q1, q2⟩
      rcases hor with rfl | hor
      · exact q1 (H.shape.root_iff.2 rfl)
      · exact hor ((isBlack_iff H.shape).1 q2)
    refine ⟨h, t.root, 0, e, ?_⟩
    cases t with
    | nil =>
      refine ⟨plug k .nil, ?_, ?_, by omega⟩
      · simpa [blacken] using H
      · rcases hor with rfl | hor
        · exact ⟨trivial, 0, rfl⟩
        · exact absurd trivial hor
    | node c s l x r =>
      have hr := H.read
      refine ⟨plug k (.node .black s l x r), ?_, ?_, by
        rw [pot_plug, pot_plug]
        have q1 := pot_blacken c s l x r
        have q2 := ctxPot_le k (T.node .black s l x r).red (T.node c s l x r).red
        omega⟩
      · simp only [blacken, root_node, ne_eq, hr.2.2.2.2.2.1, not_false_eq_true, if_true]
        exact H.recolor .black
      · cases c with
        | red => exact (rb_plug _ _).2 ⟨n + 1, hc, ⟨n, rfl, hw.1, hw.2⟩, fun _ => rfl⟩
        | black =>
          rcases hor with rfl | hor
          · exact ⟨rfl, n, hw⟩
          · exact absurd rfl hor
  have weaken : ∀ {h : Heap} {N : Nat} {k : Ctx} {t : T},
      (∃ h' x' f, extractFixS hd N h t.root (ctxPar hd k) = some ((h', x'), f) ∧ ∃ t', St h0 hd xs (blacken h' x') t' ∧ RBTree t' ∧
        f + t'.pot ≤ (plug k t).pot + 4) →
      ∃ h' x' f, extractFixS hd N h t.root (ctxPar hd k) = some ((h', x'), f) ∧ ∃ t', St h0 hd xs (blacken h' x') t' ∧ RBTree t' ∧
        f + t'.pot ≤ (plug k t).pot + 5 ∧ (¬ t.black → f + t'.pot ≤ (plug k t).pot + 4) := by
    rintro h N k t ⟨h', x', f, e, t', a, b, c⟩
    exact ⟨h', x', f, e, t', a, b, by omega, fun _ => c⟩
  induction m with
  | zero =>
    intro k h N n t hm H hw hc hN
    obtain ⟨N, rfl⟩ : ∃ M, N = M + 1 := ⟨N - 1, by omega⟩
    exact weaken (stopCase k H hw hc (Or.inr (hm.resolve_left (by omega))))
  | succ m ih =>
    intro k h N n t hm H hw hc hN
    obtain ⟨N, rfl⟩ : ∃ M, N = M + 1 := ⟨N - 1, by omega⟩
    by_cases hb : t.black
    · cases k with
      | nil => exact weaken (stopCase [] H hw hc (Or.inl rfl))
      | cons f k =>
        have hm := hm.resolve_right (fun q => q hb)
        rcases f with ⟨side, cp, sp, p, W⟩
        have hWn : W.RB (n + 1) := by cases cp with
          | red => exact hc.2.1
          | black => exact hc.1
        have hW0 : W ≠ .nil := by rintro rfl; cases hWn
        have hrb := wrb_black hw hb
        have hok : FixOk h0 hd xs (⟨side, cp, sp, p, W⟩ :: k) t (plug (⟨side, cp, sp, p, W⟩ :: k) t).pot
            (if t.root = h.left p then extractFixL h hd p else extractFixR h hd p) := by
          cases side
          · have rp := St.read (k := k) (x := p) (l := t) (r := W) H
            rw [if_pos rp.2.2.2.1.symm]
            exact extractFixL_ok H hrb hb hc
          · have rp := St.read (k := k) (x := p) (l := W) (r := t) H
            have hne : ¬ t.root = h.left p := by
              rw [rp.2.2.2.1]
              intro e
              cases W with
              | nil => exact hW0 rfl
              | node c s l w r =>
                have rw' := St.read (k := ⟨.left, cp, sp, p, t⟩ :: k) (x := w) H
                rw [root_node] at e
                have hm : t.root ∈ t.ids := root_mem (by rw [e]; exact rw'.2.2.2.2.2.1)
                refine St.ne_of_mem H hm (y := w) ?_ e
                rw [ctxIds_cons]; simp [T.ids]
            rw [if_neg hne]
            exact extractFixR_ok H hrb hb hc
        have hcond : t.root ≠ h.parent hd ∧ isBlack h t.root :=
          ⟨fun e => (by have := H.shape.root_iff.1 e; cases this), (isBlack_iff H.shape).2 hb⟩
        have hpar : ctxPar hd (⟨side, cp, sp, p, W⟩ :: k) = p := rfl
        rw [hpar, extractFixS, if_pos hcond]
        rcases hok with ⟨h', k', t', m', e, H1, H2, H3, H4, H5, H6, H7⟩ | ⟨h', t', e, H1, H2, H3, H4⟩
        · rw [e]
          obtain ⟨h'', x'', f, q1, t'', q2, q3, q4, q5⟩ := ih k' (H5.imp (fun q => by omega) id) H1 H2 H3 (N := N) (by omega)
          refine ⟨h'', x'', f + 1, by simp only [q1, tick_some], t'', q2, q3, ?_, fun q => absurd hb q⟩
          by_cases hb' : t'.black
          · have := H7 hb'; omega
          · have := q5 hb'; omega
        · rw [e]
          refine ⟨h', t.root, 1, rfl, t', ?_, H2, by omega, fun q => absurd hb q⟩
          unfold blacken
          split
          · rename_i q; rw [setColor_same (H3 q)]; exact H1
          · exact H1
    · exact weaken (stopCase k H hw hc (Or.inr hb))

end MI.Ord
