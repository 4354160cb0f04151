import Verif.Cont.Shadow
import Verif.Cont.CascadeLemmas
/-! The chain of indices, whatever user functions do. -/
namespace MI.Cont
open MI
variable {V : Type}

/-- The links of all indices are in order, and each has the elements `els`. -/
def All (hd : Id) (els : List Id) (Ls : List (Layer V)) : Prop := ∀ L ∈ Ls, ∃ xs, L.Held hd xs ∧ xs.Perm els

section
variable {hd x : Id} {els : List Id} {n : Nat}

theorem All.nil : All hd els ([] : List (Layer V)) := fun _ h => nomatch h

theorem All.cons {L : Layer V} {Ls : List (Layer V)} {xs : List Id} (w : L.Held hd xs) (p : xs.Perm els) (a : All hd els Ls) : All hd els (L :: Ls) := by
  intro M hM
  rcases List.mem_cons.1 hM with rfl | hM
  · exact ⟨xs, w, p⟩
  · exact a M hM

theorem All.cases {L : Layer V} {Ls : List (Layer V)} (a : All hd els (L :: Ls)) : (∃ xs, L.Held hd xs ∧ xs.Perm els) ∧ All hd els Ls :=
  ⟨a L (by simp), fun M hM => a M (by simp [hM])⟩

theorem All.perm {els' : List Id} {Ls : List (Layer V)} (a : All hd els Ls) (p : els.Perm els') : All hd els' Ls := by
  intro L hL
  obtain ⟨xs, w, q⟩ := a L hL
  exact ⟨xs, w, q.trans p⟩

theorem extractC_any (hx : x ∈ els) (hn : els.length + 3 ≤ n) : ∀ {Ls : List (Layer V)}, All hd els Ls →
    ∃ Ls', extractC n hd x Ls = some Ls' ∧ specs Ls' = specs Ls ∧ All hd (els.erase x) Ls' ∧ (∀ p, Clear p Ls → Clear p Ls')
  | [], _ => ⟨[], rfl, rfl, .nil, fun _ h => h⟩
  | L :: Ls, a => by
    obtain ⟨⟨xs, w, p⟩, a2⟩ := a.cases
    obtain ⟨L', k1, k2, k3, k4, -⟩ := Layer.unlink_any (n := n) w (p.mem_iff.2 hx) (by rw [p.length_eq]; exact hn)
    obtain ⟨Ls', j1, j2, j3, j4⟩ := extractC_any hx hn a2
    refine ⟨L' :: Ls', by simp only [extractC, k1, j1], by rw [specs_cons, specs_cons, k2, j2], .cons k3 (p.erase x) j3, fun q c => ?_⟩
    exact .cons (fun z hz => k4 z (c.head z hz)) (j4 q c.tail)

/-- What `insert_` can do. -/
def Inserted {M : Type} (hd x : Id) (els pool : List Id) (m0 : M) (base : Out M) (xr : Id) (Ls : List (Layer V)) (o : Out (Ins V M)) : Prop :=
  ∃ Ls', specs Ls' = specs Ls ∧ Clear pool Ls' ∧
    ((∃ m, base = .ok m ∧ o = .ok ⟨Ls', m, x, x⟩ ∧ All hd (x :: els) Ls') ∨
     (∃ y ∈ els, o = .ok ⟨Ls', m0, y, xr⟩ ∧ All hd els Ls') ∨
     (∃ r, o = .threw r ∧ r.ls = Ls' ∧ (r.m = m0 ∨ base = .threw r.m) ∧ All hd els Ls'))

theorem insertCR_any {M : Type} {val : Id → V} {hint : Option Id} {size : Nat} {m0 : M} {base : Out M} {pool : List Id} (x0 : x ≠ 0) (hx : x ∉ hd :: els)
    (hh : ∀ p, hint = some p → p ∈ hd :: els) (hs : size = els.length) (hn : els.length + 3 ≤ n)
    (sub : ∀ z ∈ els, z ∈ pool) (xp : x ∈ pool) (hb : ∃ m, base = .ok m ∨ base = .threw m) {xr : Id} (hr : xr ∉ els) :
    ∀ {Ls : List (Layer V)} {k : Nat} {e : Nat → Env}, All hd els Ls → EnvAll hd size pool e Ls → Clear pool Ls →
      (insertCR n hd val hint size m0 base x k e xr Ls).Always (Inserted hd x els pool m0 base xr Ls)
  | [], k, e, a, _, cl => by
    obtain ⟨m, rfl | rfl⟩ := hb
    · exact ⟨[], rfl, cl, Or.inl ⟨m, rfl, rfl, .nil⟩⟩
    · exact ⟨[], rfl, cl, Or.inr (Or.inr ⟨_, rfl, rfl, Or.inr rfl, .nil⟩)⟩
  | L :: Ls, k, e, a, env, cl => by
    obtain ⟨⟨xs, w, p⟩, a2⟩ := a.cases
    have memc : ∀ {ys : List Id}, ys.Perm els → ∀ z, z ∈ hd :: ys ↔ z ∈ hd :: els := fun q z => by simp [q.mem_iff]
    simp only [insertCR]
    refine (Layer.reserveR_any w (hs.trans p.length_eq.symm) env.1 (fun z hz => sub z (p.mem_iff.1 hz)) cl.head).then ?_
    rintro o ⟨L1, xs1, ho, s1, av1, w1, p1⟩
    have p1e := p1.trans p
    have keep : All hd els (L1 :: Ls) := .cons w1 p1e a2
    have scons : ∀ {Ls' : List (Layer V)}, specs Ls' = specs Ls → specs (L1 :: Ls') = specs (L :: Ls) := fun h => by rw [specs_cons, specs_cons, s1, h]
    rcases ho with ⟨rfl, rdy⟩ | rfl
    swap
    · exact ⟨L1 :: Ls, scons rfl, .cons av1 cl.tail, Or.inr (Or.inr ⟨_, rfl, rfl, Or.inl rfl, keep⟩)⟩
    refine (Layer.pointR_any w1 x0 (fun q => hx ((memc p1e x).1 q)) (av1 x xp) (fun q hq => (memc p1e q).2 (hh q hq)) (by rw [p1e.length_eq]; exact hn)).then ?_
    rintro r (rfl | ⟨y, hy, rfl⟩ | ⟨pt, rfl, hp⟩)
    · exact ⟨L1 :: Ls, scons rfl, .cons av1 cl.tail, Or.inr (Or.inr ⟨_, rfl, rfl, Or.inl rfl, keep⟩)⟩
    · exact ⟨L1 :: Ls, scons rfl, .cons av1 cl.tail, Or.inr (Or.inl ⟨y, p1e.mem_iff.1 hy, rfl, keep⟩)⟩
    · refine (insertCR_any x0 hx hh hs hn sub xp hb hr (k := k + 1) (e := tl e) a2 env.2 cl.tail).then ?_
      rintro o ⟨Ls', s2, cl2, ⟨m, hm, rfl, a3⟩ | ⟨y, hy, rfl, a3⟩ | ⟨r, rfl, rfl, hm, a3⟩⟩
      · obtain ⟨L2, xs2, l1, l2, l3, l4, l5⟩ := hp rdy
        simp only [if_true, l1]
        exact ⟨L2 :: Ls', by rw [specs_cons, specs_cons, l2, s1, s2], .cons (fun z hz => l5 z (av1 z hz)) cl2,
          Or.inl ⟨m, hm, rfl, .cons l3 (l4.trans (p1e.cons x)) a3⟩⟩
      · have ne : y ≠ xr := by rintro rfl; exact hr hy
        simp only [if_neg ne]
        exact ⟨L1 :: Ls', scons s2, .cons av1 cl2, Or.inr (Or.inl ⟨y, hy, rfl, .cons w1 p1e a3⟩)⟩
      · exact ⟨L1 :: r.ls, scons s2, .cons av1 cl2, Or.inr (Or.inr ⟨_, rfl, rfl, hm, .cons w1 p1e a3⟩)⟩

/-- What `modify_` can do: the element stays in all indices or is removed from all of them. -/
def Modified (hd x : Id) (els : List Id) (Ls : List (Layer V)) (o : Out (List (Layer V) × Bool)) : Prop :=
  ∃ Ls', specs Ls' = specs Ls ∧ (∀ p, Clear p Ls → Clear p Ls') ∧
    ((o = .ok (Ls', true) ∧ All hd els Ls') ∨ ((o = .ok (Ls', false) ∨ o = .threw (Ls', false)) ∧ All hd (els.erase x) Ls'))

/-- The second half of `modify_`. -/
theorem modifyEnd_any {L L0 : Layer V} {Ls : List (Layer V)} {xs : List Id} (hx : x ∈ els) (hn : els.length + 3 ≤ n) (w : L.Held hd xs) (p : xs.Perm els) (s : L.spec = L0.spec)
    (av : ∀ z, L0.Avoids z → L.Avoids z) {o : Out (List (Layer V) × Bool)} (h : Modified hd x els Ls o) :
    Modified hd x els (L0 :: Ls) (modifyEnd n hd x L o) := by
  obtain ⟨L', k1, k2, k3, k4, -⟩ := Layer.unlink_any (n := n) w (p.mem_iff.2 hx) (by rw [p.length_eq]; exact hn)
  obtain ⟨Ls', s2, c2, ⟨rfl, a⟩ | ⟨rfl | rfl, a⟩⟩ := h
  · exact ⟨L :: Ls', by rw [specs_cons, specs_cons, s, s2], fun q c => .cons (fun z hz => av z (c.head z hz)) (c2 q c.tail), Or.inl ⟨rfl, .cons w p a⟩⟩
  · exact ⟨L' :: Ls', by rw [specs_cons, specs_cons, k2, s, s2], fun q c => .cons (fun z hz => k4 z (av z (c.head z hz))) (c2 q c.tail),
      Or.inr ⟨Or.inl (by simp only [modifyEnd, k1]), .cons k3 (p.erase x) a⟩⟩
  · exact ⟨L' :: Ls', by rw [specs_cons, specs_cons, k2, s, s2], fun q c => .cons (fun z hz => k4 z (av z (c.head z hz))) (c2 q c.tail),
      Or.inr ⟨Or.inr (by simp only [modifyEnd, k1]), .cons k3 (p.erase x) a⟩⟩

theorem back_perm {xs ys : List Id} (hx : x ∈ xs) (p : ys.Perm (x :: xs.erase x)) : ys.Perm xs := p.trans (List.perm_cons_erase hx).symm

theorem not_mem_erase {L : Layer V} {xs : List Id} (w : L.Held hd xs) (hx : x ∈ xs) : x ∉ hd :: xs.erase x := by
  have nd := w.nodup
  rw [List.nodup_cons] at nd
  simp only [List.mem_cons, not_or]
  exact ⟨fun k => nd.1 (k ▸ hx), nd.2.not_mem_erase⟩

theorem modifyCR_any {val : Id → V} (x0 : x ≠ 0) (hx : x ∈ els) (hn : els.length + 3 ≤ n) :
    ∀ {Ls : List (Layer V)} {k : Nat}, All hd els Ls → Clear [x] Ls → (modifyCR n hd val x k Ls).Always (Modified hd x els Ls)
  | [], k, _, _ => ⟨[], rfl, fun _ h => h, Or.inl ⟨rfl, .nil⟩⟩
  | L :: Ls, k, a, cl => by
    obtain ⟨⟨xs, w, p⟩, a2⟩ := a.cases
    have hxs := p.mem_iff.2 hx
    have hn' : xs.length + 3 ≤ n := by rw [p.length_eq]; exact hn
    have ih : (modifyCR n hd val x (k + 1) Ls).Always (Modified hd x els Ls) := modifyCR_any x0 hx hn a2 cl.tail
    obtain ⟨Ls', e1, e2, e3, e4⟩ := extractC_any (n := n) hx hn a2
    obtain ⟨Ls2, f1, f2, f3, f4⟩ := extractC_any (n := n) hx hn a
    simp only [modifyCR]
    refine (Layer.inPlaceR_any w hxs hn').then ?_
    rintro o (⟨rfl, -⟩ | ⟨b, rfl, hb⟩)
    · exact ⟨Ls2, f2, f4, Or.inr ⟨Or.inr (by simp only [modifyFail, f1]), f3⟩⟩
    cases b with
    | true =>
      refine ih.then fun o h => ?_
      exact modifyEnd_any hx hn w p rfl (fun _ h => h) h
    | false =>
      have kd : L.keyed = true := by
        cases h : L.keyed with
        | true => rfl
        | false => exact absurd (hb h) (by simp)
      obtain ⟨L1, k1, k2, k3, k4, k5⟩ := Layer.unlink_any (n := n) w hxs hn'
      have hl : (xs.erase x).length + 3 ≤ n := by rw [List.length_erase_of_mem hxs]; omega
      simp only [k1]
      refine (Layer.pointR_any (hint := none) k3 x0 (not_mem_erase w hxs) (k4 x (cl.head x (by simp))) (fun _ h => nomatch h) hl).then ?_
      have gone : ∀ q, Clear q (L :: Ls) → Clear q (L1 :: Ls') := fun q c => .cons (fun z hz => k4 z (c.head z hz)) (e4 q c.tail)
      have se : specs (L1 :: Ls') = specs (L :: Ls) := by rw [specs_cons, specs_cons, k2, e2]
      rintro r (rfl | ⟨y, hy, rfl⟩ | ⟨pt, rfl, hp⟩)
      · exact ⟨L1 :: Ls', se, gone, Or.inr ⟨Or.inr (by simp only [modifyStop, e1]), .cons k3 (p.erase x) e3⟩⟩
      · exact ⟨L1 :: Ls', se, gone, Or.inr ⟨Or.inl (by simp only [modifyStop, e1]), .cons k3 (p.erase x) e3⟩⟩
      · obtain ⟨L2, xs2, l1, l2, l3, l4, l5⟩ := hp (k5 (keyed_ready kd))
        simp only [l1]
        refine ih.then fun o h => ?_
        exact modifyEnd_any hx hn l3 ((back_perm hxs l4).trans p) (l2.trans k2) (fun z hz => l5 z (k4 z hz)) h

/-- What `replace_` can do: the elements stay. -/
def Replaced (hd x : Id) (val : Id → V) (v : V) (els : List Id) (Ls : List (Layer V)) (o : Out (List (Layer V) × (Id → V) × Bool)) : Prop :=
  ∃ Ls', specs Ls' = specs Ls ∧ (∀ p, Clear p Ls → Clear p Ls') ∧ All hd els Ls' ∧
    (o = .ok (Ls', upd val x v, true) ∨ o = .ok (Ls', val, false) ∨ o = .threw (Ls', val, false))

theorem replaceCR_any {val : Id → V} {v : V} {t : Bool} (x0 : x ≠ 0) (hx : x ∈ els) (hn : els.length + 3 ≤ n) :
    ∀ {Ls : List (Layer V)} {k : Nat}, All hd els Ls → Clear [x] Ls → (replaceCR n hd val x v t k Ls).Always (Replaced hd x val v els Ls)
  | [], k, _, _ => by
    cases t with
    | true => exact ⟨[], rfl, fun _ h => h, .nil, Or.inr (Or.inr rfl)⟩
    | false => exact ⟨[], rfl, fun _ h => h, .nil, Or.inl rfl⟩
  | L :: Ls, k, a, cl => by
    obtain ⟨⟨xs, w, p⟩, a2⟩ := a.cases
    have hxs := p.mem_iff.2 hx
    have hn' : xs.length + 3 ≤ n := by rw [p.length_eq]; exact hn
    have ih : (replaceCR n hd val x v t (k + 1) Ls).Always (Replaced hd x val v els Ls) := replaceCR_any x0 hx hn a2 cl.tail
    have keep : ∀ o, Replaced hd x val v els Ls o → Replaced hd x val v els (L :: Ls) (replKeep L o) := by
      rintro o ⟨Ls', s2, c2, a3, rfl | rfl | rfl⟩
      · exact ⟨L :: Ls', by rw [specs_cons, specs_cons, s2], fun q c => .cons c.head (c2 q c.tail), .cons w p a3, Or.inl rfl⟩
      · exact ⟨L :: Ls', by rw [specs_cons, specs_cons, s2], fun q c => .cons c.head (c2 q c.tail), .cons w p a3, Or.inr (Or.inl rfl)⟩
      · exact ⟨L :: Ls', by rw [specs_cons, specs_cons, s2], fun q c => .cons c.head (c2 q c.tail), .cons w p a3, Or.inr (Or.inr rfl)⟩
    simp only [replaceCR]
    split
    · exact ih.then keep
    · rename_i kd
      have kd : L.keyed = true := by simpa using kd
      refine (Layer.keepsR_any w hxs hn').then ?_
      rintro o (rfl | ⟨b, rfl⟩)
      · exact ⟨L :: Ls, rfl, fun _ h => h, a, Or.inr (Or.inr rfl)⟩
      cases b with
      | true => exact ih.then keep
      | false =>
        obtain ⟨L1, sv, k1, k2, k3, k4, k5, L3, j1, j2, j3, j4⟩ := Layer.takeOut_any (n := n) kd w hxs x0 hn'
        have hl : (xs.erase x).length + 3 ≤ n := by rw [List.length_erase_of_mem hxs]; omega
        simp only [k1]
        refine (Layer.pointR_any (hint := none) k3 x0 (not_mem_erase w hxs) (k4 x (cl.head x (by simp))) (fun _ h => nomatch h) hl).then ?_
        have sp : ∀ {Ls' : List (Layer V)}, specs Ls' = specs Ls → specs (L3 :: Ls') = specs (L :: Ls) := fun h => by rw [specs_cons, specs_cons, j2, h]
        have cp : ∀ {Ls' : List (Layer V)}, (∀ q, Clear q Ls → Clear q Ls') → ∀ q, Clear q (L :: Ls) → Clear q (L3 :: Ls') :=
          fun h q c => .cons (fun z hz => j4 z (c.head z hz)) (h q c.tail)
        rintro r (rfl | ⟨y, hy, rfl⟩ | ⟨pt, rfl, hp⟩)
        · exact ⟨L3 :: Ls, sp rfl, cp (fun _ h => h), .cons j3 p a2, Or.inr (Or.inr (by simp only [replStop, j1]))⟩
        · exact ⟨L3 :: Ls, sp rfl, cp (fun _ h => h), .cons j3 p a2, Or.inr (Or.inl (by simp only [replStop, j1]))⟩
        · obtain ⟨L2, xs2, l1, l2, l3, l4, l5⟩ := hp k5
          refine ih.then ?_
          rintro o ⟨Ls', s2, c2, a3, rfl | rfl | rfl⟩
          · refine ⟨L2 :: Ls', by rw [specs_cons, specs_cons, l2, k2, s2], fun q c => .cons (fun z hz => l5 z (k4 z (c.head z hz))) (c2 q c.tail),
              .cons l3 ((back_perm hxs l4).trans p) a3, Or.inl (by simp only [replEnd, l1])⟩
          · exact ⟨L3 :: Ls', sp s2, cp c2, .cons j3 p a3, Or.inr (Or.inl (by simp only [replEnd, j1]))⟩
          · exact ⟨L3 :: Ls', sp s2, cp c2, .cons j3 p a3, Or.inr (Or.inr (by simp only [replEnd, j1]))⟩

/-- What `modify_rollback_` can do: the elements stay. -/
def Rolled (hd : Id) (els : List Id) (Ls : List (Layer V)) (o : Out (List (Layer V) × Bool)) : Prop :=
  ∃ Ls', specs Ls' = specs Ls ∧ (∀ p, Clear p Ls → Clear p Ls') ∧ All hd els Ls' ∧ (o = .ok (Ls', true) ∨ o = .ok (Ls', false) ∨ o = .threw (Ls', false))

theorem rollbackCR_any {val : Id → V} (x0 : x ≠ 0) (hx : x ∈ els) (hn : els.length + 3 ≤ n) :
    ∀ {Ls : List (Layer V)} {k : Nat}, All hd els Ls → Clear [x] Ls → (rollbackCR n hd val x k Ls).Always (Rolled hd els Ls)
  | [], k, _, _ => ⟨[], rfl, fun _ h => h, .nil, Or.inl rfl⟩
  | L :: Ls, k, a, cl => by
    obtain ⟨⟨xs, w, p⟩, a2⟩ := a.cases
    have hxs := p.mem_iff.2 hx
    have hn' : xs.length + 3 ≤ n := by rw [p.length_eq]; exact hn
    have ih : (rollbackCR n hd val x (k + 1) Ls).Always (Rolled hd els Ls) := rollbackCR_any x0 hx hn a2 cl.tail
    simp only [rollbackCR]
    refine (Layer.inPlaceR_any w hxs hn').then ?_
    rintro o (⟨rfl, -⟩ | ⟨b, rfl, hb⟩)
    · exact ⟨L :: Ls, rfl, fun _ h => h, a, Or.inr (Or.inr rfl)⟩
    cases b with
    | true =>
      refine ih.then ?_
      rintro o ⟨Ls', s2, c2, a3, rfl | rfl | rfl⟩
      · exact ⟨L :: Ls', by rw [specs_cons, specs_cons, s2], fun q c => .cons c.head (c2 q c.tail), .cons w p a3, Or.inl rfl⟩
      · exact ⟨L :: Ls', by rw [specs_cons, specs_cons, s2], fun q c => .cons c.head (c2 q c.tail), .cons w p a3, Or.inr (Or.inl rfl)⟩
      · exact ⟨L :: Ls', by rw [specs_cons, specs_cons, s2], fun q c => .cons c.head (c2 q c.tail), .cons w p a3, Or.inr (Or.inr rfl)⟩
    | false =>
      have kd : L.keyed = true := by
        cases h : L.keyed with
        | true => rfl
        | false => exact absurd (hb h) (by simp)
      obtain ⟨L1, sv, k1, k2, k3, k4, k5, L3, j1, j2, j3, j4⟩ := Layer.takeOut_any (n := n) kd w hxs x0 hn'
      have hl : (xs.erase x).length + 3 ≤ n := by rw [List.length_erase_of_mem hxs]; omega
      simp only [k1]
      refine (Layer.pointR_any (hint := none) k3 x0 (not_mem_erase w hxs) (k4 x (cl.head x (by simp))) (fun _ h => nomatch h) hl).then ?_
      have sp : ∀ {Ls' : List (Layer V)}, specs Ls' = specs Ls → specs (L3 :: Ls') = specs (L :: Ls) := fun h => by rw [specs_cons, specs_cons, j2, h]
      have cp : ∀ {Ls' : List (Layer V)}, (∀ q, Clear q Ls → Clear q Ls') → ∀ q, Clear q (L :: Ls) → Clear q (L3 :: Ls') :=
        fun h q c => .cons (fun z hz => j4 z (c.head z hz)) (h q c.tail)
      rintro r (rfl | ⟨y, hy, rfl⟩ | ⟨pt, rfl, hp⟩)
      · exact ⟨L3 :: Ls, sp rfl, cp (fun _ h => h), .cons j3 p a2, Or.inr (Or.inr (by simp only [rollStop, j1]))⟩
      · exact ⟨L3 :: Ls, sp rfl, cp (fun _ h => h), .cons j3 p a2, Or.inr (Or.inl (by simp only [rollStop, j1]))⟩
      · obtain ⟨L2, xs2, l1, l2, l3, l4, l5⟩ := hp k5
        refine ih.then ?_
        rintro o ⟨Ls', s2, c2, a3, rfl | rfl | rfl⟩
        · refine ⟨L2 :: Ls', by rw [specs_cons, specs_cons, l2, k2, s2], fun q c => .cons (fun z hz => l5 z (k4 z (c.head z hz))) (c2 q c.tail),
            .cons l3 ((back_perm hxs l4).trans p) a3, Or.inl (by simp only [rollEnd, l1])⟩
        · exact ⟨L3 :: Ls', sp s2, cp c2, .cons j3 p a3, Or.inr (Or.inl (by simp only [rollEnd, j1]))⟩
        · exact ⟨L3 :: Ls', sp s2, cp c2, .cons j3 p a3, Or.inr (Or.inr (by simp only [rollEnd, j1]))⟩

/-- `modify_rollback_` throws only if a user function does. -/
theorem rollbackCR_calm {val : Id → V} (x0 : x ≠ 0) (hx : x ∈ els) (hn : els.length + 3 ≤ n) :
    ∀ {Ls : List (Layer V)} {k : Nat}, All hd els Ls → (rollbackCR n hd val x k Ls).Calm (fun o => ∀ r, o ≠ .threw r)
  | [], k, _ => fun _ q => nomatch q
  | L :: Ls, k, a => by
    obtain ⟨⟨xs, w, p⟩, a2⟩ := a.cases
    have hxs := p.mem_iff.2 hx
    have hn' : xs.length + 3 ≤ n := by rw [p.length_eq]; exact hn
    have ih : (rollbackCR n hd val x (k + 1) Ls).Calm (fun o => ∀ r, o ≠ .threw r) := rollbackCR_calm x0 hx hn a2
    simp only [rollbackCR]
    refine (Layer.inPlaceR_calm w hxs hn').then ?_
    rintro o ⟨b, rfl, hb⟩
    cases b with
    | true =>
      refine ih.then fun o h => ?_
      cases o with
      | threw r => exact absurd rfl (h r)
      | _ => exact fun _ q => nomatch q
    | false =>
      cases ht : L.takeOut n hd x with
      | none => exact fun _ q => nomatch q
      | some q =>
        obtain ⟨L1, sv⟩ := q
        refine Layer.pointR_calm.then fun r hr => ?_
        cases r with
        | threw => exact absurd rfl hr
        | hang => exact fun _ q => nomatch q
        | reject y =>
          show ∀ r, rollStop n hd x L1 sv Ls (.reject y) ≠ .threw r
          unfold rollStop
          cases L1.putBack n hd x sv <;> exact fun _ q => nomatch q
        | accept pt =>
          refine ih.then fun o h => ?_
          show ∀ r, rollEnd n hd x L1 sv pt o ≠ .threw r
          rcases o with ⟨ls, _ | _⟩ | r | _ | _
          · unfold rollEnd
            cases L1.putBack n hd x sv <;> exact fun _ q => nomatch q
          · unfold rollEnd
            cases L1.link n hd x pt <;> exact fun _ q => nomatch q
          · exact absurd rfl (h r)
          · exact fun _ q => nomatch q
          · exact fun _ q => nomatch q

theorem checkCR_any {val : Id → V} (hx : x ∈ els) (hn : els.length + 3 ≤ n) :
    ∀ {Ls : List (Layer V)} {k : Nat}, All hd els Ls → (checkCR n hd val x k Ls).Always (fun o => o = .threw false ∨ ∃ b, o = .ok b)
  | [], k, _ => Or.inr ⟨true, rfl⟩
  | L :: Ls, k, a => by
    obtain ⟨⟨xs, w, p⟩, a2⟩ := a.cases
    simp only [checkCR]
    refine (Layer.inPlaceR_any w (p.mem_iff.2 hx) (by rw [p.length_eq]; exact hn)).then ?_
    rintro o (⟨rfl, -⟩ | ⟨b, rfl, hb⟩)
    · exact Or.inl rfl
    cases b with
    | true => exact checkCR_any hx hn a2
    | false => exact Or.inr ⟨false, rfl⟩

end
end MI.Cont
