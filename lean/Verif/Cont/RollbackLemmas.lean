import Verif.Cont.CascadeLemmas
/-!
What the chains of `modify_rollback_`, `check_rollback_`, `replace_` and `clear_` do.
-/
set_option linter.unusedVariables false
namespace MI.Cont
open MI
variable {V : Type}

section
variable {val val' : Id → V} {hd x : Id} {els : List Id} {n : Nat}

theorem hx_erase {L : Layer V} {xs : List Id} (w : L.Holds val hd xs) (hxs : x ∈ xs) : x ∉ hd :: xs.erase x := by
  intro k
  rcases List.mem_cons.1 k with rfl | k
  · exact (List.nodup_cons.1 w.nodup).1 hxs
  · exact (w.xs_nodup.mem_erase_iff.1 k).1 rfl

theorem rollbackC_spec (x0 : x ≠ 0) (hx : x ∈ els) (hv : ∀ y, y ≠ x → val' y = val y) (hn : els.length + 3 ≤ n) :
    ∀ {Ls : List (Layer V)} {xss : List (List Id)} {e : Nat → Env}, OkAll (specs Ls) → Fit val hd els Ls xss → Clear [x] Ls →
    ∃ Ls', specs Ls' = specs Ls ∧ (∀ p, Clear p Ls → Clear p Ls') ∧
      ((∃ xss', rollbackC n hd val' x e Ls = .ok (Ls', true) ∧ Fit val' hd els Ls' xss' ∧ Each (Moved (val x) val' x) (specs Ls) xss xss' ∧
          ¬ Banned (specs Ls) val' (els.erase x) (val' x)) ∨
       (rollbackC n hd val' x e Ls = .ok (Ls', false) ∧ Fit val hd els Ls' xss ∧ Banned (specs Ls) val' (els.erase x) (val' x)) ∨
       (rollbackC n hd val' x e Ls = .threw (Ls', false) ∧ Fit val hd els Ls' xss ∧ ∃ i, ¬ (e i).Quiet))
  | [], xss, e, ok, f, av => by
    obtain rfl := f.nil'
    refine ⟨[], rfl, fun _ h => h, Or.inl ⟨[], rfl, .nil, trivial, ?_⟩⟩
    rintro ⟨S, hS, -⟩
    exact nomatch hS
  | L :: Ls, xss, e, ok, f, av => by
    have f0 := f
    obtain ⟨xs, yss, rfl, w, p, f2⟩ := f.cases
    have hxs : x ∈ xs := p.mem_iff.2 hx
    have hl : xs.length + 3 ≤ n := by rw [p.length_eq]; exact hn
    obtain ⟨Lt, t1, t2, t3⟩ := rollbackC_spec x0 hx hv hn (e := tl e) ok.tail f2 av.tail
    rcases Layer.inPlace_spec (e := e 0) (n := n) ok.head w hxs hv hl with ⟨k1, k2, k3⟩ | ⟨b, k1, k2, k3⟩
    · refine ⟨L :: Ls, rfl, fun _ h => h, Or.inr (Or.inr ⟨by simp only [rollbackC, k1], f0, 0, ?_⟩)⟩
      rintro ⟨-, -, -, q⟩
      simp [k2] at q
    cases b with
    | true =>
      have w' := k2.1 rfl
      refine ⟨L :: Lt, by simp [t1], fun q hq => .cons hq.head (t2 q hq.tail), ?_⟩
      rcases t3 with ⟨xss', i3, i4, i5, i6⟩ | ⟨i3, i4, i5⟩ | ⟨i3, i4, i, i5⟩
      · refine Or.inl ⟨xs :: xss', by simp only [rollbackC, k1, i3], .cons w' p i4, ⟨moved_keep ok.head w' hxs, i5⟩, ?_⟩
        exact not_banned_cons (p.erase x) (noBans ok.head w' hxs) i6
      · exact Or.inr (Or.inl ⟨by simp only [rollbackC, k1, i3], .cons w p i4, i5.tail⟩)
      · exact Or.inr (Or.inr ⟨by simp only [rollbackC, k1, i3], .cons w p i4, i + 1, i5⟩)
    | false =>
      have kd : L.keyed = true := by
        cases h : L.keyed
        · exact nomatch k3 h
        · rfl
      obtain ⟨L1, sv, u1, u2, u3, u4, rdy, L3, b1, b2, b3, b4⟩ := Layer.takeOut_spec (n := n) (val' := val') kd w hxs x0 hv hl
      have pe := p.erase x
      rcases Layer.point_spec (e := e 0) (n := n) (hint := none) (u2 ▸ ok.head) u3 x0 (hx_erase w hxs) (u4 x (av.head x (by simp))) (fun _ h => nomatch h)
          (by have := List.length_erase_le (a := x) (l := xs); omega) with ⟨j1, j2⟩ | ⟨y, hy, j1, j2, j3⟩ | ⟨pt, u, v, j1, j2, j3, j4, j5⟩
      · refine ⟨L3 :: Ls, by simp [b2], fun q hq => .cons (fun z hz => b4 z (hq.head z hz)) hq.tail, Or.inr (Or.inr ⟨?_, .cons b3 p f2, 0, ?_⟩)⟩
        · simp only [rollbackC, k1, u1, j1, b1]
        · rintro ⟨-, -, q, -⟩
          simp [j2] at q
      · refine ⟨L3 :: Ls, by simp [b2], fun q hq => .cons (fun z hz => b4 z (hq.head z hz)) hq.tail, Or.inr (Or.inl ⟨?_, .cons b3 p f2, ?_⟩)⟩
        · simp only [rollbackC, k1, u1, j1, b1]
        · exact Banned.head pe ⟨u2 ▸ j2, y, hy, u2 ▸ j3⟩
      · obtain ⟨L2, l1, l2, l3, l4⟩ := j5 rdy
        have pp : (u ++ x :: v).Perm els := by
          refine List.perm_middle.trans ?_
          rw [← j2]
          exact (List.perm_cons_erase hxs).symm.trans p
        rcases t3 with ⟨xss', i3, i4, i5, i6⟩ | ⟨i3, i4, i5⟩ | ⟨i3, i4, i, i5⟩
        · refine ⟨L2 :: Lt, by simp [l2, u2, t1], fun q hq => .cons (fun z hz => l4 z (u4 z (hq.head z hz))) (t2 q hq.tail),
            Or.inl ⟨(u ++ x :: v) :: xss', by simp only [rollbackC, k1, u1, j1, i3, l1], .cons l3 pp i4, ⟨?_, i5⟩, ?_⟩⟩
          · exact moved_point kd j2 (u2 ▸ j4) (fun b lt h => holds_ord w b lt h (fun k => nomatch k2.2 k))
              (fun c eq hf h q => nomatch k2.2 (holds_hash ok.head w hv h q)) (hd := hd)
          · exact not_banned_cons pe (u2 ▸ j3) i6
        · exact ⟨L3 :: Lt, by simp [b2, t1], fun q hq => .cons (fun z hz => b4 z (hq.head z hz)) (t2 q hq.tail),
            Or.inr (Or.inl ⟨by simp only [rollbackC, k1, u1, j1, i3, b1], .cons b3 p i4, i5.tail⟩)⟩
        · exact ⟨L3 :: Lt, by simp [b2, t1], fun q hq => .cons (fun z hz => b4 z (hq.head z hz)) (t2 q hq.tail),
            Or.inr (Or.inr ⟨by simp only [rollbackC, k1, u1, j1, i3, b1], .cons b3 p i4, i + 1, i5⟩)⟩

theorem checkC_spec (hx : x ∈ els) (hv : ∀ y, y ≠ x → val' y = val y) (hn : els.length + 3 ≤ n) :
    ∀ {Ls : List (Layer V)} {xss : List (List Id)} {e : Nat → Env}, OkAll (specs Ls) → Fit val hd els Ls xss →
    (checkC n hd val' x e Ls = .threw false ∧ ∃ i, ¬ (e i).Quiet) ∨
    ∃ b, checkC n hd val' x e Ls = .ok b ∧ (b = true ↔ Fit val' hd els Ls xss)
  | [], xss, e, ok, f => by
    obtain rfl := f.nil'
    exact Or.inr ⟨true, rfl, ⟨fun _ => .nil, fun _ => rfl⟩⟩
  | L :: Ls, xss, e, ok, f => by
    obtain ⟨xs, yss, rfl, w, p, f2⟩ := f.cases
    have hxs : x ∈ xs := p.mem_iff.2 hx
    have hl : xs.length + 3 ≤ n := by rw [p.length_eq]; exact hn
    rcases Layer.inPlace_spec (e := e 0) (n := n) ok.head w hxs hv hl with ⟨k1, k2, k3⟩ | ⟨b, k1, k2, k3⟩
    · refine Or.inl ⟨by simp only [checkC, k1], 0, ?_⟩
      rintro ⟨-, -, -, q⟩
      simp [k2] at q
    cases b with
    | true =>
      rcases checkC_spec hx hv hn (e := tl e) ok.tail f2 with ⟨i1, i, i2⟩ | ⟨b, i1, i2⟩
      · exact Or.inl ⟨by simp only [checkC, k1, i1], i + 1, i2⟩
      · refine Or.inr ⟨b, by simp only [checkC, k1, i1], ?_⟩
        rw [i2]
        constructor
        · exact fun h => .cons (k2.1 rfl) p h
        · intro h
          obtain ⟨xs', yss', e', -, -, h⟩ := h.cases
          cases e'
          exact h
    | false =>
      refine Or.inr ⟨false, by simp only [checkC, k1], ⟨(fun h => nomatch h), fun h => ?_⟩⟩
      obtain ⟨xs', yss', e', h, -, -⟩ := h.cases
      cases e'
      exact k2.2 h

theorem keeps_spec {L : Layer V} {xs : List Id} {e : Env} (ok : L.spec.Ok) (w : L.Holds val hd xs) (hx : x ∈ xs)
    (hv : ∀ y, y ≠ x → val' y = val y) (hn : xs.length + 3 ≤ n) :
    (L.keeps n hd val' (val x) e x = .threw false ∧ e.place = true ∧ L.keyed = true) ∨
    ∃ b, L.keeps n hd val' (val x) e x = .ok b ∧ (b = true → L.Holds val' hd xs) ∧ (∀ c lt, L.spec = .ord c lt → b = false → ¬ L.Holds val' hd xs) ∧
      (∀ c eq hf, L.spec = .hash c eq hf → eq (val' x) (val x) = true → b = true) := by
  have base := Layer.inPlace_spec (e := e) (n := n) ok w hx hv hn
  cases L with
  | seq h => exact Or.inr ⟨true, rfl, fun _ => w, (fun _ _ h => nomatch h), (fun _ _ _ h => nomatch h)⟩
  | rnd s => exact Or.inr ⟨true, rfl, fun _ => w, (fun _ _ h => nomatch h), (fun _ _ _ h => nomatch h)⟩
  | ord u lt t =>
    rcases base with ⟨k1, k2, k3⟩ | ⟨b, k1, k2, k3⟩
    · exact Or.inl ⟨k1, k2, k3⟩
    · exact Or.inr ⟨b, k1, k2.1, (fun _ _ _ h k => by rw [k2.2 k] at h; exact nomatch h), (fun _ _ _ h => nomatch h)⟩
  | hash c eq hf pol ml h a =>
    cases ke : e.place with
    | true => left; exact ⟨by simp only [Layer.keeps, ke, if_true], rfl, rfl⟩
    | false =>
      refine Or.inr ⟨eq (val' x) (val x), by simp only [Layer.keeps, ke, Bool.false_eq_true, if_false], ?_, (fun _ _ h => nomatch h), (fun _ _ _ h q => by cases h; exact q)⟩
      intro q
      have eh : EqHash eq hf := ok
      have hvx : ∀ y, eq (val' y) (val y) = true := by
        intro y
        by_cases h : y = x
        · rw [h]; exact q
        · rw [hv y h]; exact eh.refl _
      refine ⟨w.1, Hash.Holds.congr w.2 (fun y hy => eh.cons (hvx y)) (fun y hy z hz => ?_)⟩
      show eq (val' y) (val' z) = eq (val y) (val z)
      have h1 := hvx y
      have h2 := hvx z
      apply Bool.eq_iff_iff.2
      constructor
      · intro k
        exact eh.trans (eh.symm h1) (eh.trans k h2)
      · intro k
        exact eh.trans h1 (eh.trans k (eh.symm h2))

theorem replaceC_spec {v : V} {at' : Bool} (x0 : x ≠ 0) (hx : x ∈ els) (hn : els.length + 3 ≤ n) :
    ∀ {Ls : List (Layer V)} {xss : List (List Id)} {e : Nat → Env}, OkAll (specs Ls) → Fit val hd els Ls xss → Clear [x] Ls →
    ∃ Ls', specs Ls' = specs Ls ∧ (∀ p, Clear p Ls → Clear p Ls') ∧
      ((∃ xss', replaceC n hd val x v at' e Ls = .ok (Ls', upd val x v, true) ∧ Fit (upd val x v) hd els Ls' xss' ∧
          Each (Moved (val x) (upd val x v) x) (specs Ls) xss xss' ∧ ¬ Banned (specs Ls) (upd val x v) (els.erase x) v) ∨
       (replaceC n hd val x v at' e Ls = .ok (Ls', val, false) ∧ Fit val hd els Ls' xss ∧ Banned (specs Ls) (upd val x v) (els.erase x) v) ∨
       (replaceC n hd val x v at' e Ls = .threw (Ls', val, false) ∧ Fit val hd els Ls' xss ∧ ((∃ i, ¬ (e i).Quiet) ∨ at' = true)))
  | [], xss, e, ok, f, av => by
    obtain rfl := f.nil'
    cases at' with
    | true => exact ⟨[], rfl, fun _ h => h, Or.inr (Or.inr ⟨rfl, .nil, Or.inr rfl⟩)⟩
    | false =>
      refine ⟨[], rfl, fun _ h => h, Or.inl ⟨[], rfl, .nil, trivial, ?_⟩⟩
      rintro ⟨S, hS, -⟩
      exact nomatch hS
  | L :: Ls, xss, e, ok, f, av => by
    have f0 := f
    obtain ⟨xs, yss, rfl, w, p, f2⟩ := f.cases
    have hxs : x ∈ xs := p.mem_iff.2 hx
    have hl : xs.length + 3 ≤ n := by rw [p.length_eq]; exact hn
    have hv : ∀ y, y ≠ x → upd val x v y = val y := fun y hy => upd_other _ _ hy
    have hvx : upd val x v x = v := upd_same _ _ _
    obtain ⟨Lt, t1, t2, t3⟩ := replaceC_spec (v := v) (at' := at') x0 hx hn (e := tl e) ok.tail f2 av.tail
    -- the layer is left alone
    have keep : ∀ (w' : L.Holds (upd val x v) hd xs), replaceC n hd val x v at' e (L :: Ls) = (match replaceC n hd val x v at' (tl e) Ls with
          | .ok r => .ok (L :: r.1, r.2)
          | .threw r => .threw (L :: r.1, r.2)
          | .ub => .ub
          | .hang => .hang) → ∃ Ls', specs Ls' = specs (L :: Ls) ∧ (∀ p, Clear p (L :: Ls) → Clear p Ls') ∧
      ((∃ xss', replaceC n hd val x v at' e (L :: Ls) = .ok (Ls', upd val x v, true) ∧ Fit (upd val x v) hd els Ls' xss' ∧
          Each (Moved (val x) (upd val x v) x) (specs (L :: Ls)) (xs :: yss) xss' ∧ ¬ Banned (specs (L :: Ls)) (upd val x v) (els.erase x) v) ∨
       (replaceC n hd val x v at' e (L :: Ls) = .ok (Ls', val, false) ∧ Fit val hd els Ls' (xs :: yss) ∧ Banned (specs (L :: Ls)) (upd val x v) (els.erase x) v) ∨
       (replaceC n hd val x v at' e (L :: Ls) = .threw (Ls', val, false) ∧ Fit val hd els Ls' (xs :: yss) ∧ ((∃ i, ¬ (e i).Quiet) ∨ at' = true))) := by
      intro w' h
      refine ⟨L :: Lt, by simp [t1], fun q hq => .cons hq.head (t2 q hq.tail), ?_⟩
      rcases t3 with ⟨xss', i3, i4, i5, i6⟩ | ⟨i3, i4, i5⟩ | ⟨i3, i4, i5⟩
      · refine Or.inl ⟨xs :: xss', by rw [h, i3], .cons w' p i4, ⟨moved_keep ok.head w' hxs, i5⟩, ?_⟩
        have := noBans ok.head w' hxs
        rw [hvx] at this
        exact not_banned_cons (p.erase x) this i6
      · exact Or.inr (Or.inl ⟨by rw [h, i3], .cons w p i4, i5.tail⟩)
      · refine Or.inr (Or.inr ⟨by rw [h, i3], .cons w p i4, ?_⟩)
        exact i5.imp (fun ⟨i, q⟩ => ⟨i + 1, q⟩) id
    by_cases kd : L.keyed = false
    · refine keep ?_ ?_
      · cases L with
        | seq h => exact w
        | rnd h => exact w
        | ord => exact nomatch kd
        | hash => exact nomatch kd
      · simp only [replaceC, if_pos kd]
        rfl
    have kd' : L.keyed = true := by simpa using kd
    rcases keeps_spec (e := e 0) (n := n) ok.head w hxs hv hl with ⟨k1, k2, k3⟩ | ⟨b, k1, k2, k3, k4⟩
    · refine ⟨L :: Ls, rfl, fun _ h => h, Or.inr (Or.inr ⟨by simp only [replaceC, if_neg kd, k1], f0, Or.inl ⟨0, ?_⟩⟩)⟩
      rintro ⟨-, -, -, q⟩
      simp [k2] at q
    cases b with
    | true =>
      refine keep (k2 rfl) ?_
      simp only [replaceC, if_neg kd, k1]
      rfl
    | false =>
      obtain ⟨L1, sv, u1, u2, u3, u4, rdy, L3, b1, b2, b3, b4⟩ := Layer.takeOut_spec (n := n) (val' := upd val x v) kd' w hxs x0 hv hl
      have pe := p.erase x
      rcases Layer.point_spec (e := e 0) (n := n) (hint := none) (u2 ▸ ok.head) u3 x0 (hx_erase w hxs) (u4 x (av.head x (by simp))) (fun _ h => nomatch h)
          (by have := List.length_erase_le (a := x) (l := xs); omega) with ⟨j1, j2⟩ | ⟨y, hy, j1, j2, j3⟩ | ⟨pt, u, t, j1, j2, j3, j4, j5⟩
      · refine ⟨L3 :: Ls, by simp [b2], fun q hq => .cons (fun z hz => b4 z (hq.head z hz)) hq.tail, Or.inr (Or.inr ⟨?_, .cons b3 p f2, Or.inl ⟨0, ?_⟩⟩)⟩
        · simp only [replaceC, if_neg kd, k1, u1, j1, b1]
        · rintro ⟨-, -, q, -⟩
          simp [j2] at q
      · refine ⟨L3 :: Ls, by simp [b2], fun q hq => .cons (fun z hz => b4 z (hq.head z hz)) hq.tail, Or.inr (Or.inl ⟨?_, .cons b3 p f2, ?_⟩)⟩
        · simp only [replaceC, if_neg kd, k1, u1, j1, b1]
        · rw [hvx] at j3
          exact Banned.head pe ⟨u2 ▸ j2, y, hy, u2 ▸ j3⟩
      · obtain ⟨L2, l1, l2, l3, l4⟩ := j5 rdy
        have pp : (u ++ x :: t).Perm els := by
          refine List.perm_middle.trans ?_
          rw [← j2]
          exact (List.perm_cons_erase hxs).symm.trans p
        rcases t3 with ⟨xss', i3, i4, i5, i6⟩ | ⟨i3, i4, i5⟩ | ⟨i3, i4, i5⟩
        · refine ⟨L2 :: Lt, by simp [l2, u2, t1], fun q hq => .cons (fun z hz => l4 z (u4 z (hq.head z hz))) (t2 q hq.tail),
            Or.inl ⟨(u ++ x :: t) :: xss', by simp only [replaceC, if_neg kd, k1, u1, j1, i3, l1], .cons l3 pp i4, ⟨?_, i5⟩, ?_⟩⟩
          · exact moved_point kd' j2 (u2 ▸ j4) (fun b lt h => holds_ord w b lt h (k3 b lt h rfl))
              (fun c eq hf h q => nomatch k4 c eq hf h q) (hd := hd)
          · rw [hvx] at j3
            exact not_banned_cons pe (u2 ▸ j3) i6
        · exact ⟨L3 :: Lt, by simp [b2, t1], fun q hq => .cons (fun z hz => b4 z (hq.head z hz)) (t2 q hq.tail),
            Or.inr (Or.inl ⟨by simp only [replaceC, if_neg kd, k1, u1, j1, i3, b1], .cons b3 p i4, i5.tail⟩)⟩
        · exact ⟨L3 :: Lt, by simp [b2, t1], fun q hq => .cons (fun z hz => b4 z (hq.head z hz)) (t2 q hq.tail),
            Or.inr (Or.inr ⟨by simp only [replaceC, if_neg kd, k1, u1, j1, i3, b1], .cons b3 p i4, i5.imp (fun ⟨i, q⟩ => ⟨i + 1, q⟩) id⟩)⟩

theorem clearC_spec (h0 : hd ≠ 0) : ∀ {Ls : List (Layer V)} {xss : List (List Id)}, Fit val hd els Ls xss →
    specs (clearC hd Ls) = specs Ls ∧ Fit val' hd [] (clearC hd Ls) (xss.map fun _ => []) ∧ ∀ p, Clear p Ls → Clear p (clearC hd Ls)
  | [], xss, f => by
    obtain rfl := f.nil'
    exact ⟨rfl, .nil, fun _ h => h⟩
  | L :: Ls, xss, f => by
    obtain ⟨xs, yss, rfl, w, p, f2⟩ := f.cases
    obtain ⟨k1, k2, k3⟩ := Layer.clear_spec (val' := val') h0 w
    obtain ⟨i1, i2, i3⟩ := clearC_spec h0 f2
    exact ⟨by simp [clearC, k1, i1], .cons k2 (.refl _) i2, fun q hq => .cons (fun z hz => k3 z (hq.head z hz)) (i3 q hq.tail)⟩

end
end MI.Cont
