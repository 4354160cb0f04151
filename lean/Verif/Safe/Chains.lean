import Verif.Safe.RegistryLemmas
import Verif.Safe.Model
/-!
What the safe mode parts of the operations on all indices do to the iterators.
-/
set_option linter.unusedVariables false
namespace MI.Safe
open MI MI.Cont
variable {V : Type}

/-- Attachment after the iterators to `x` of the indices `ss` have been detached. -/
def gone (r : Reg) (ss : List Nat) (x : Id) (y : Nat) : Nat := if r.cont y ∈ ss ∧ r.node y = x then 0 else r.cont y

theorem gone_step {r r1 r2 : Reg} {live ss : List Nat} {s : Nat} {x : Id} (hs : s ≠ 0) (d1 : Does r r1 live (gone r ss x))
    (d2 : Does r1 r2 live (fun y => if r1.cont y = s ∧ r1.node y = x then 0 else r1.cont y)) : Does r r2 live (gone r (s :: ss) x) := by
  refine ⟨d2.rep, fun y hy => ?_, fun y hy => by rw [d2.node y hy, d1.node y hy], fun y hy => by rw [d2.unchecked y hy, d1.unchecked y hy]⟩
  rw [d2.cont y hy, d1.cont y hy, d1.node y hy]
  unfold gone
  by_cases k : r.cont y ∈ ss ∧ r.node y = x
  · rw [if_pos k, if_neg (fun q => hs q.1.symm), if_pos ⟨List.mem_cons_of_mem _ k.1, k.2⟩]
  · rw [if_neg k]
    by_cases q : r.cont y = s ∧ r.node y = x
    · rw [if_pos q, if_pos ⟨by rw [q.1]; simp, q.2⟩]
    · rw [if_neg q, if_neg]
      rintro ⟨k1, k2⟩
      rcases List.mem_cons.1 k1 with k1 | k1
      · exact q ⟨k1, k2⟩
      · exact k ⟨k1, k2⟩

theorem does_of_eq {r r' : Reg} {live : List Nat} {f g : Nat → Nat} (d : Does r r' live f) (h : ∀ y ∈ live, f y = g y) : Does r r' live g :=
  ⟨d.rep, fun y hy => by rw [d.cont y hy, h y hy], d.node, d.unchecked⟩

theorem extractR_spec {live : List Nat} {n t : Nat} {x : Id} (hz : t ≠ 0) (hi : t ∉ live) (hn : live.length + 1 < n) {r : Reg} (h : Rep r live) :
    ∀ {ss : List Nat}, 0 ∉ ss → ∃ r', extractR n t x ss r = some r' ∧ Does r r' live (gone r ss x)
  | [], _ => ⟨r, rfl, does_of_eq (does_refl h) fun y _ => by simp [gone]⟩
  | s :: ss, h0 => by
    simp only [List.mem_cons, not_or] at h0
    obtain ⟨r1, k1, k2⟩ := extractR_spec hz hi hn h h0.2
    obtain ⟨r2, k3, k4⟩ := detachIterators_spec (s := s) (x := x) k2.rep hz hi (Ne.symm h0.1) hn
    exact ⟨r2, by simp only [extractR, k1]; exact k3, gone_step (Ne.symm h0.1) k2 k4⟩

theorem clearR_spec {live : List Nat} {n t : Nat} {hd : Id} (hz : t ≠ 0) (hi : t ∉ live) (hn : live.length + 1 < n) {r : Reg} (h : Rep r live) :
    ∀ {ss : List Nat}, 0 ∉ ss → ∃ r', clearR n t hd ss r = some r' ∧ Does r r' live (fun y => if r.cont y ∈ ss ∧ r.node y ≠ hd then 0 else r.cont y)
  | [], _ => ⟨r, rfl, does_of_eq (does_refl h) fun y _ => by simp⟩
  | s :: ss, h0 => by
    simp only [List.mem_cons, not_or] at h0
    obtain ⟨r1, k1, k2⟩ := clearR_spec (hd := hd) hz hi hn h h0.2
    obtain ⟨r2, k3, k4⟩ := detachDereferenceable_spec (s := s) (hd := hd) k2.rep hz hi (Ne.symm h0.1) hn
    refine ⟨r2, by simp only [clearR, k1]; exact k3, k4.rep, fun y hy => ?_, fun y hy => by rw [k4.node y hy, k2.node y hy], fun y hy => by rw [k4.unchecked y hy, k2.unchecked y hy]⟩
    rw [k4.cont y hy, k2.cont y hy, k2.node y hy]
    by_cases k : r.cont y ∈ ss ∧ r.node y ≠ hd
    · rw [if_pos k, if_neg (fun q => h0.1 q.1), if_pos ⟨List.mem_cons_of_mem _ k.1, k.2⟩]
    · rw [if_neg k]
      by_cases q : r.cont y = s ∧ r.node y ≠ hd
      · rw [if_pos q, if_pos ⟨by rw [q.1]; simp, q.2⟩]
      · rw [if_neg q, if_neg]
        rintro ⟨k1, k2⟩
        rcases List.mem_cons.1 k1 with k1 | k1
        · exact q ⟨k1, k2⟩
        · exact k ⟨k1, k2⟩

theorem destroyR_spec {live : List Nat} {n : Nat} (hn : live.length < n) : ∀ {ss : List Nat} {r : Reg}, Rep r live → 0 ∉ ss →
    ∃ r', destroyR n ss r = some r' ∧ Does r r' live (fun y => if r.cont y ∈ ss then 0 else r.cont y)
  | [], r, h, _ => ⟨r, rfl, does_of_eq (does_refl h) fun y _ => by simp⟩
  | s :: ss, r, h, h0 => by
    simp only [List.mem_cons, not_or] at h0
    obtain ⟨r1, k1, k2⟩ := destroyContainer_spec (s := s) h (Ne.symm h0.1) hn
    obtain ⟨r2, k3, k4⟩ := destroyR_spec hn k2.rep h0.2
    refine ⟨r2, by simp only [destroyR, k1]; exact k3, k4.rep, fun y hy => ?_, fun y hy => by rw [k4.node y hy, k2.node], fun y hy => by rw [k4.unchecked y hy, k2.unchecked]⟩
    rw [k4.cont y hy, k2.cont]
    by_cases k : r.cont y = s <;> simp [k, hy]

theorem newR_spec {live : List Nat} : ∀ {ids : List Nat} {r : Reg}, Rep r live → (∀ y ∈ live, r.cont y ∉ ids) →
    Rep (newR ids r) live ∧ (newR ids r).cont = r.cont ∧ (newR ids r).node = r.node ∧ (newR ids r).unchecked = r.unchecked
  | [], r, h, _ => ⟨h, rfl, rfl, rfl⟩
  | s :: ids, r, h, hc => by
    have h1 : Rep (r.newContainer s) live := by
      refine ⟨h.nz, fun t ht => ?_⟩
      obtain ⟨l, l1, l2, l3⟩ := h.chain t ht
      refine ⟨l, ?_, l2, l3⟩
      show Chain r.next (upd r.head s 0 t) l
      by_cases e : t = s
      · subst e
        cases l with
        | nil => exact upd_same _ _ _
        | cons a l =>
          have := (l3 a).1 (by simp)
          exact absurd (by rw [this.2]; simp) (hc a this.1)
      · rw [upd_other _ _ e]; exact l1
    obtain ⟨k1, k2, k3, k4⟩ := newR_spec (ids := ids) h1 (fun y hy k => hc y hy (List.mem_cons_of_mem _ k))
    exact ⟨k1, k2, k3, k4⟩

theorem swapR_spec {live : List Nat} {n : Nat} (hn : live.length < n) : ∀ {ss ts : List Nat} {r : Reg}, Rep r live → 0 ∉ ss → 0 ∉ ts → ss.length = ts.length →
    ss.Nodup → ts.Nodup → (∀ a ∈ ss, a ∉ ts) →
    ∃ r', swapR n ss ts r = some r' ∧ Does r r' live r'.cont ∧ ∀ y ∈ live, (∀ k : Nat, ss[k]? = some (r.cont y) → ts[k]? = some (r'.cont y)) ∧
      (∀ k : Nat, ts[k]? = some (r.cont y) → ss[k]? = some (r'.cont y)) ∧ (r.cont y ∉ ss → r.cont y ∉ ts → r'.cont y = r.cont y)
  | [], [], r, h, _, _, _, _, _, _ => ⟨r, rfl, does_refl h, fun y _ => ⟨(fun k q => nomatch q), (fun k q => nomatch q), fun _ _ => rfl⟩⟩
  | [], _ :: _, r, h, _, _, e, _, _, _ => nomatch e
  | _ :: _, [], r, h, _, _, e, _, _, _ => nomatch e
  | s :: ss, t :: ts, r, h, h0, h0', e, nd, nd', dj => by
    simp only [List.mem_cons, not_or] at h0 h0'
    simp only [List.nodup_cons] at nd nd'
    obtain ⟨r1, k1, k2⟩ := swap_spec (s := s) (t := t) h (Ne.symm h0.1) (Ne.symm h0'.1) hn
    obtain ⟨r2, k3, k4, k5⟩ := swapR_spec hn k2.rep h0.2 h0'.2 (by simpa using e) nd.2 nd'.2 (fun a ha k => dj a (List.mem_cons_of_mem _ ha) (List.mem_cons_of_mem _ k))
    have st : s ≠ t := fun k => dj s (by simp) (by simp [k])
    have sts : s ∉ ts := fun k => dj s (by simp) (by simp [k])
    have tss : t ∉ ss := fun k => dj t (by simp [k]) (by simp)
    refine ⟨r2, by simp only [swapR, k1]; exact k3, ⟨k4.rep, fun _ _ => rfl, fun y hy => by rw [k4.node y hy, k2.node], fun y hy => by rw [k4.unchecked y hy, k2.unchecked]⟩, fun y hy => ?_⟩
    obtain ⟨q1, q2, q3⟩ := k5 y hy
    rw [k2.cont] at q1 q2 q3
    unfold swapped at q1 q2 q3
    by_cases e1 : r.cont y = s
    · rw [if_pos ⟨hy, e1⟩] at q1 q2 q3
      have e2 := q3 tss nd'.1
      refine ⟨fun k hk => ?_, fun k hk => ?_, fun h1 _ => absurd (by rw [e1]; simp) h1⟩
      · cases k with
        | zero => simp [e2]
        | succ k => exact absurd (List.mem_of_getElem? (by simpa [e1] using hk)) nd.1
      · cases k with
        | zero => exact absurd (by simpa [e1] using hk) (Ne.symm st)
        | succ k => exact absurd (List.mem_of_getElem? (by simpa [e1] using hk)) sts
    · rw [if_neg (fun q => e1 q.2)] at q1 q2 q3
      by_cases e2 : r.cont y = t
      · rw [if_pos ⟨hy, e2⟩] at q1 q2 q3
        have e3 := q3 nd.1 sts
        refine ⟨fun k hk => ?_, fun k hk => ?_, fun _ h1 => absurd (by rw [e2]; simp) h1⟩
        · cases k with
          | zero => exact absurd (by simpa [e2] using hk) st
          | succ k => exact absurd (List.mem_of_getElem? (by simpa [e2] using hk)) tss
        · cases k with
          | zero => simp [e3]
          | succ k => exact absurd (List.mem_of_getElem? (by simpa [e2] using hk)) nd'.1
      · rw [if_neg (fun q => e2 q.2)] at q1 q2 q3
        refine ⟨fun k hk => ?_, fun k hk => ?_, fun h1 h2 => q3 (fun q => h1 (List.mem_cons_of_mem _ q)) (fun q => h2 (List.mem_cons_of_mem _ q))⟩
        · cases k with
          | zero => exact absurd (by simpa using hk) (Ne.symm e1)
          | succ k => simpa using q1 k (by simpa using hk)
        · cases k with
          | zero => exact absurd (by simpa using hk) (Ne.symm e2)
          | succ k => simpa using q2 k (by simpa using hk)

/-- Exchanging a container with itself. -/
theorem swapR_self {live : List Nat} {n : Nat} (hn : live.length < n) : ∀ {ss : List Nat} {r : Reg}, Rep r live → 0 ∉ ss →
    ∃ r', swapR n ss ss r = some r' ∧ Does r r' live r.cont
  | [], r, h, _ => ⟨r, rfl, does_refl h⟩
  | s :: ss, r, h, h0 => by
    simp only [List.mem_cons, not_or] at h0
    obtain ⟨r1, k1, k2⟩ := swap_spec (s := s) (t := s) h (Ne.symm h0.1) (Ne.symm h0.1) hn
    obtain ⟨r2, k3, k4⟩ := swapR_self hn k2.rep h0.2
    refine ⟨r2, by simp only [swapR, k1]; exact k3, k4.rep, fun y hy => ?_, fun y hy => by rw [k4.node y hy, k2.node], fun y hy => by rw [k4.unchecked y hy, k2.unchecked]⟩
    rw [k4.cont y hy, k2.cont]
    unfold swapped
    by_cases e : r.cont y = s <;> simp [e]

theorem transferR_spec {live : List Nat} {n : Nat} {t : Tmp} {hd x : Id} (nz : 0 ∉ [t.a, t.b, t.c]) (nd : [t.a, t.b, t.c].Nodup) (hi : ∀ y ∈ [t.a, t.b, t.c], y ∉ live)
    (hn : live.length + 3 < n) {r : Reg} (h : Rep r live) : ∀ {l : List (Nat × Nat × Bool)}, (∀ p ∈ l, p.1 ≠ 0 ∧ p.2.1 ≠ 0) → (l.map (·.1)).Nodup →
    (∀ p ∈ l, ∀ q ∈ l, q.2.1 ≠ p.1) →
    ∃ r', transferR n t hd x l r = some r' ∧ Does r r' live r'.cont ∧ ∀ y ∈ live,
      (∀ p ∈ l, r.cont y = p.1 → r.node y = x → r'.cont y = if p.2.2 then p.2.1 else 0) ∧ ((∀ p ∈ l, r.cont y ≠ p.1) ∨ r.node y ≠ x → r'.cont y = r.cont y)
  | [], _, _, _ => ⟨r, rfl, does_refl h, fun y hy => ⟨(fun p hp => nomatch hp), fun _ => rfl⟩⟩
  | (s, d, same) :: l, hz, ndl, dj => by
    simp only [List.map_cons, List.nodup_cons] at ndl
    obtain ⟨r1, k1, k2, k3⟩ := transferR_spec nz nd hi hn h (l := l) (fun p hp => hz p (List.mem_cons_of_mem _ hp)) ndl.2
      (fun p hp q hq => dj p (List.mem_cons_of_mem _ hp) q (List.mem_cons_of_mem _ hq))
    have z := hz (s, d, same) (by simp)
    obtain ⟨r2, k4, k5⟩ := transferIterators_spec (s := s) (d := d) (hd := hd) (x := x) (same := same) (n := n) k2.rep nz nd hi z.1 z.2 (dj (s, d, same) (by simp) (s, d, same) (by simp)) hn
    refine ⟨r2, by simp only [transferR]; rw [k1]; exact k4, ⟨k5.rep, fun _ _ => rfl, fun y hy => by rw [k5.node y hy, k2.node y hy], fun y hy => by rw [k5.unchecked y hy, k2.unchecked y hy]⟩, fun y hy => ?_⟩
    obtain ⟨q1, q2⟩ := k3 y hy
    have c2 := k5.cont y hy
    rw [k2.node y hy] at c2
    constructor
    · intro p hp hs hx
      rcases List.mem_cons.1 hp with rfl | hp
      · have ne : ∀ p ∈ l, r.cont y ≠ p.1 := fun p hp k => ndl.1 (List.mem_map.2 ⟨p, hp, k.symm.trans hs⟩)
        rw [c2, q2 (Or.inl ne), if_pos ⟨hs, hx⟩]
      · have e := q1 p hp hs hx
        rw [c2, e, if_neg]
        rintro ⟨k, -⟩
        cases hb : p.2.2 with
        | true => rw [hb] at k; exact dj (s, d, same) (by simp) p (List.mem_cons_of_mem _ hp) k
        | false => rw [hb] at k; exact z.1 k.symm
    · intro k
      have e := q2 (k.imp (fun k p hp => k p (List.mem_cons_of_mem _ hp)) id)
      rw [c2, e, if_neg]
      rintro ⟨k1, k2⟩
      rcases k with k | k
      · exact k (s, d, same) (by simp) k1
      · exact k k2

/-- `modify_` with its safe mode part does to the indices what it does without, and detaches the iterators to `x` if and only if it removes it. -/
theorem modifyS_spec {live : List Nat} {n nr t : Nat} {hd : Id} {val : Id → V} {x : Id} (hz : t ≠ 0) (hi : t ∉ live) (hn : live.length + 1 < nr) :
    ∀ {ls : List (Layer V)} {ss : List Nat} {r : Reg} {e : Nat → Env}, ss.length = ls.length → 0 ∉ ss → Rep r live →
    (∀ ls', modifyC n hd val x e ls = .ok (ls', true) → modifyS n nr t hd val x e ls ss r = .ok (ls', true, r)) ∧
    (∀ ls', modifyC n hd val x e ls = .ok (ls', false) → ∃ r', modifyS n nr t hd val x e ls ss r = .ok (ls', false, r') ∧ Does r r' live (gone r ss x)) ∧
    (∀ ls' b, modifyC n hd val x e ls = .threw (ls', b) → ∃ r', modifyS n nr t hd val x e ls ss r = .threw (ls', false, r') ∧ Does r r' live (gone r ss x))
  | [], ss, r, e, _, _, _ => by
    refine ⟨fun ls' k => ?_, fun ls' k => ?_, (fun ls' b k => nomatch k)⟩
    · have := Out.ok.inj k
      simp only [Prod.mk.injEq, and_true] at this
      rw [← this]; rfl
    · have := Out.ok.inj k
      simp at this
  | L :: Ls, [], r, e, hl, _, _ => by simp at hl
  | L :: Ls, s :: ss, r, e, hl, h0, h => by
    have h0' := h0
    simp only [List.mem_cons, not_or] at h0
    obtain ⟨ra, a1, a2⟩ := extractR_spec (x := x) hz hi hn h h0.2
    obtain ⟨rb, b1, b2⟩ := extractR_spec (x := x) hz hi hn h h0'
    obtain ⟨rc, c1, c2⟩ := detachIterators_spec (s := s) (x := x) a2.rep hz hi (Ne.symm h0.1) hn
    have c3 := gone_step (Ne.symm h0.1) a2 c2
    have ih := fun e => modifyS_spec (n := n) (hd := hd) (val := val) (x := x) (ls := Ls) (ss := ss) (r := r) (e := e) hz hi hn (by simpa using hl) h0.2 h
    simp only [modifyC, modifyS]
    cases hp : L.inPlace n hd val (e 0) x with
    | ub => exact ⟨(fun _ k => nomatch k), (fun _ k => nomatch k), (fun _ _ k => nomatch k)⟩
    | hang => exact ⟨(fun _ k => nomatch k), (fun _ k => nomatch k), (fun _ _ k => nomatch k)⟩
    | threw b =>
      dsimp only
      rw [b1]
      cases he : extractC n hd x (L :: Ls) with
      | none => exact ⟨(fun _ k => nomatch k), (fun _ k => nomatch k), (fun _ _ k => nomatch k)⟩
      | some Ms =>
        refine ⟨(fun _ k => nomatch k), (fun _ k => nomatch k), fun ls' b k => ⟨rb, ?_, b2⟩⟩
        obtain ⟨rfl, -⟩ := Prod.mk.inj (Out.threw.inj k)
        rfl
    | ok b =>
      dsimp only
      cases hu : (if b then some (L, PtRes.accept .tail) else (L.unlink n hd x).map (fun L => (L, L.point n hd val (e 0) none x))) with
      | none => exact ⟨(fun _ k => nomatch k), (fun _ k => nomatch k), (fun _ _ k => nomatch k)⟩
      | some q =>
        obtain ⟨L', pt⟩ := q
        cases pt with
        | hang => exact ⟨(fun _ k => nomatch k), (fun _ k => nomatch k), (fun _ _ k => nomatch k)⟩
        | threw =>
          dsimp only
          rw [a1]
          cases he : extractC n hd x Ls with
          | none => exact ⟨(fun _ k => nomatch k), (fun _ k => nomatch k), (fun _ _ k => nomatch k)⟩
          | some Ms =>
            dsimp only
            rw [c1]
            refine ⟨(fun _ k => nomatch k), (fun _ k => nomatch k), fun ls' b k => ⟨rc, ?_, c3⟩⟩
            obtain ⟨rfl, -⟩ := Prod.mk.inj (Out.threw.inj k)
            rfl
        | reject y =>
          dsimp only
          rw [a1]
          cases he : extractC n hd x Ls with
          | none => exact ⟨(fun _ k => nomatch k), (fun _ k => nomatch k), (fun _ _ k => nomatch k)⟩
          | some Ms =>
            dsimp only
            rw [c1]
            refine ⟨fun _ k => ?_, fun ls' k => ⟨rc, ?_, c3⟩, (fun _ _ k => nomatch k)⟩
            · have := Out.ok.inj k; simp at this
            · obtain ⟨rfl, -⟩ := Prod.mk.inj (Out.ok.inj k)
              rfl
        | accept p =>
          dsimp only
          cases hk : (if b then some L' else L'.link n hd x p) with
          | none => exact ⟨(fun _ k => nomatch k), (fun _ k => nomatch k), (fun _ _ k => nomatch k)⟩
          | some L2 =>
            dsimp only
            obtain ⟨i1, i2, i3⟩ := ih (tl e)
            cases hm : modifyC n hd val x (tl e) Ls with
            | ub => exact ⟨(fun _ k => nomatch k), (fun _ k => nomatch k), (fun _ _ k => nomatch k)⟩
            | hang => exact ⟨(fun _ k => nomatch k), (fun _ k => nomatch k), (fun _ _ k => nomatch k)⟩
            | ok q =>
              obtain ⟨Ms, b'⟩ := q
              cases b' with
              | true =>
                rw [i1 Ms hm]
                refine ⟨fun ls' k => ?_, fun _ k => ?_, (fun _ _ k => nomatch k)⟩
                · obtain ⟨rfl, -⟩ := Prod.mk.inj (Out.ok.inj k); rfl
                · have := Out.ok.inj k; simp at this
              | false =>
                obtain ⟨r1, m1, m2⟩ := i2 Ms hm
                obtain ⟨r2, m3, m4⟩ := detachIterators_spec (s := s) (x := x) m2.rep hz hi (Ne.symm h0.1) hn
                rw [m1]
                dsimp only
                rw [m3]
                cases hv : L2.unlink n hd x with
                | none => exact ⟨(fun _ k => nomatch k), (fun _ k => nomatch k), (fun _ _ k => nomatch k)⟩
                | some L3 =>
                  refine ⟨fun _ k => ?_, fun ls' k => ⟨r2, ?_, gone_step (Ne.symm h0.1) m2 m4⟩, (fun _ _ k => nomatch k)⟩
                  · have := Out.ok.inj k; simp at this
                  · obtain ⟨rfl, -⟩ := Prod.mk.inj (Out.ok.inj k); rfl
            | threw q =>
              obtain ⟨Ms, b'⟩ := q
              obtain ⟨r1, m1, m2⟩ := i3 Ms b' hm
              obtain ⟨r2, m3, m4⟩ := detachIterators_spec (s := s) (x := x) m2.rep hz hi (Ne.symm h0.1) hn
              rw [m1]
              dsimp only
              rw [m3]
              cases hv : L2.unlink n hd x with
              | none => exact ⟨(fun _ k => nomatch k), (fun _ k => nomatch k), (fun _ _ k => nomatch k)⟩
              | some L3 =>
                refine ⟨(fun _ k => nomatch k), (fun _ k => nomatch k), fun ls' b k => ⟨r2, ?_, gone_step (Ne.symm h0.1) m2 m4⟩⟩
                obtain ⟨rfl, -⟩ := Prod.mk.inj (Out.threw.inj k); rfl

end MI.Safe
