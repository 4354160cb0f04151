import Verif.Ser.TempSpec
import Verif.Ser.LoadLemmas2
/-! Proofs about the temporaries of `load`. -/
namespace MI.Ser
open MI MI.Cont
variable {V : Type} {i : Nat} {w : World V} {c : Container V}

/-- The temporary `t` lives, no other. -/
def Temps.Only (s : Temps) (t : Nat) : Prop := ∀ n, s.live n = decide (n = t)

theorem unwind_only {s : Temps} {t : Nat} {α : Type _} {out : Temps → Out α} (h : s.Only t) : ∃ s' : Temps, unwind s t out = out s' ∧ s'.NoneLeft ∧ s'.addr = s.addr := by
  refine ⟨{ s with live := upd s.live t false }, ?_, ?_, rfl⟩
  · simp [unwind, Temps.destroy, h t]
  · intro n
    by_cases e : n = t
    · subst e; exact upd_same _ _ _
    · exact (upd_other _ _ e).trans (by simp [h n, e])

theorem construct_ends (F : Trouble) (short : Bool) {s : Temps} (t : Nat) (h : s.NoneLeft) :
    (F.construct t = true ∧ archiveConstructed F short t s = .threw s) ∨
    (F.construct t = false ∧ (short || F.read t) = true ∧ ∃ s' : Temps, archiveConstructed F short t s = .threw s' ∧ s'.NoneLeft ∧ s'.addr = upd s.addr t (some (.temp t))) ∨
    (F.construct t = false ∧ (short || F.read t) = false ∧ ∃ s' : Temps, archiveConstructed F short t s = .ok s' ∧ s'.Only t ∧ s'.addr = upd s.addr t (some (.temp t))) := by
  cases hc : F.construct t with
  | true => exact Or.inl ⟨rfl, by simp [archiveConstructed, hc]⟩
  | false =>
    have o : Temps.Only { live := upd s.live t true, addr := upd s.addr t (some (.temp t)) } t := by
      intro n
      by_cases e : n = t
      · subst e; simp
      · exact (upd_other _ _ e).trans (by simp [h n, e])
    cases hr : (short || F.read t) with
    | true =>
      obtain ⟨s', e, n, a⟩ := unwind_only (out := Out.threw) o
      refine Or.inr (Or.inl ⟨rfl, rfl, s', ?_, n, a⟩)
      rw [← e]
      simp only [archiveConstructed, hc, Temps.construct, Temps.read, h t, hr, upd_same]
      simp
    | false =>
      refine Or.inr (Or.inr ⟨rfl, rfl, _, ?_, o, rfl⟩)
      simp only [archiveConstructed, hc, Temps.construct, Temps.read, h t, hr, upd_same]
      simp

theorem Temps.Follows.upTo {s : Temps} {es : List Id} (h : s.Follows es) : s.FollowsUpTo es := fun n => Or.inl (h n)

theorem Temps.Follows.begun {s s' : Temps} {es : List Id} (h : s.Follows es) (a : s'.addr = upd s.addr es.length (some (.temp es.length))) : s'.FollowsUpTo es := by
  intro n
  by_cases e : n = es.length
  · subst e
    exact Or.inr ⟨rfl, by rw [a, upd_same]⟩
  · exact Or.inl (by rw [a, upd_other _ _ e]; exact h n)

theorem Temps.Follows.added {s s' : Temps} {es : List Id} {x : Id} {b : Option Addr} (h : s.Follows es) (a : s'.addr = upd (upd s.addr es.length b) es.length (some (.elem x))) :
    s'.Follows (es ++ [x]) := by
  intro n
  rw [a]
  by_cases e : n = es.length
  · subst e
    simp
  · rw [upd_other _ _ e, upd_other _ _ e, h n]
    rcases Nat.lt_or_gt_of_ne e with l | l
    · rw [List.getElem?_append_left l]
    · rw [List.getElem?_eq_none (by omega), List.getElem?_eq_none (by simp; omega)]

/-- How loading the elements ends. -/
theorem loadItemsX_spec {H : Host V} (ok : H.Ok) (F : Trouble) : ∀ (n : Nat) (vs : List V) {w : World V} {c : Container V} (es : List Id) (s : Temps), Reach w →
    w.cs[i]? = some c → c.elems.Perm es → s.NoneLeft → s.Follows es →
    ∃ w' c' es' s', OnlyAt w w' i c c' ∧ Reach w' ∧ c'.elems.Perm es' ∧ s'.NoneLeft ∧
      ((loadItemsX H F i c.hd n w vs es es.length s = .ok (w', es', s') ∧ s'.Follows es' ∧ loadItems H i c.hd n w vs es es.length = .ok (w', es')) ∨
       (loadItemsX H F i c.hd n w vs es es.length s = .threw (w', es', s') ∧ s'.FollowsUpTo es' ∧
         (F = {} → ∃ es'', loadItems H i c.hd n w vs es es.length = .threw (w', es''))))
  | 0, vs, w, c, es, s, r, hi, hp, hn, hf => ⟨w, c, es, s, ⟨hi, (set_same hi).symm, rfl, rfl⟩, r, hp, hn, Or.inl ⟨rfl, hf, rfl⟩⟩
  | n + 1, [], w, c, es, s, r, hi, hp, hn, hf => by
    rcases construct_ends F true es.length hn with ⟨-, e⟩ | ⟨-, -, s', e, n', a⟩ | ⟨-, h, -⟩
    · exact ⟨w, c, es, s, ⟨hi, (set_same hi).symm, rfl, rfl⟩, r, hp, hn, Or.inr ⟨by simp only [loadItemsX, e], hf.upTo, fun _ => ⟨es, rfl⟩⟩⟩
    · exact ⟨w, c, es, s', ⟨hi, (set_same hi).symm, rfl, rfl⟩, r, hp, n', Or.inr ⟨by simp only [loadItemsX, e], hf.begun a, fun _ => ⟨es, rfl⟩⟩⟩
    · simp at h
  | n + 1, v :: vs, w, c, es, s, r, hi, hp, hn, hf => by
    rcases construct_ends F false es.length hn with ⟨h, e⟩ | ⟨-, h, s', e, n', a⟩ | ⟨-, -, s', e, o', a⟩
    · refine ⟨w, c, es, s, ⟨hi, (set_same hi).symm, rfl, rfl⟩, r, hp, hn, Or.inr ⟨by simp only [loadItemsX, e], hf.upTo, fun hF => ?_⟩⟩
      subst hF
      cases h
    · refine ⟨w, c, es, s', ⟨hi, (set_same hi).symm, rfl, rfl⟩, r, hp, n', Or.inr ⟨by simp only [loadItemsX, e], hf.begun a, fun hF => ?_⟩⟩
      subst hF
      cases h
    · have hl : s'.live es.length = true := by simp [o' es.length]
      have I := r.inv
      cases feed_step (em := false) (t := es.length) (v := v) (hint := some c.hd) ok r hi (fun p e => by cases e; simp) with
      | took w1 x c1 k1 r1 o hcnt ha hx hal hco hhs hval hcl =>
        have k1 : w.step (.insert i v (H.node w es.length) (H.fault w es.length) (some c.hd) (H.env w es.length)) = .ok (w1, ⟨x, true⟩) := k1
        obtain ⟨S0, -, e0⟩ := each_head ha (asked_ne' I hi)
        have he1 : c1.elems.Perm (x :: c.elems) := e0.perm
        have hp1 : c1.elems.Perm (es ++ [x]) := he1.trans ((hp.cons x).trans (List.perm_append_singleton x es).symm)
        have o1 : Temps.Only { s' with addr := upd s'.addr es.length (some (.elem x)) } es.length := o'
        cases hadd : F.add es.length with
        | true =>
          obtain ⟨s2, e2, n2, a2⟩ := unwind_only (out := fun s => Out.threw (w1, es ++ [x], s)) o1
          refine ⟨w1, c1, es ++ [x], s2, o, r1, hp1, n2, Or.inr ⟨?_, ?_, fun hF => ?_⟩⟩
          · rw [← e2]
            simp only [loadItemsX, e, hl, k1, Temps.reset, hadd, if_true]
            simp
          · exact (hf.added (b := some (.temp es.length)) (by rw [a2, ← a])).upTo
          · subst hF
            cases hadd
        | false =>
          obtain ⟨s2, e2, n2, a2⟩ := unwind_only (out := fun s => loadItemsX H F i c.hd n w1 vs (es ++ [x]) (es.length + 1) s) o1
          obtain ⟨w', c', es', s3, o3, r3, b1, b2, b3⟩ := loadItemsX_spec ok F n vs (es ++ [x]) s2 r1 o.post hp1 n2 (hf.added (b := some (.temp es.length)) (by rw [a2, ← a]))
          have hstep : loadItemsX H F i c.hd (n + 1) w (v :: vs) es es.length s = loadItemsX H F i c1.hd n w1 vs (es ++ [x]) (es ++ [x]).length s2 := by
            rw [o.hd, List.length_append, List.length_singleton, ← e2]
            simp only [loadItemsX, e, hl, k1, Temps.reset, hadd, if_true]
            simp
          have hstep' : loadItems H i c.hd (n + 1) w (v :: vs) es es.length = loadItems H i c1.hd n w1 vs (es ++ [x]) (es ++ [x]).length := by
            rw [o.hd, List.length_append, List.length_singleton]
            simp only [loadItems, k1, if_true]
          rw [hstep, hstep']
          exact ⟨w', c', es', s3, o.trans o3, r3, b1, b2, b3⟩
      | left w1 y c1 k1 r1 o hcnt ha sm hy hcl =>
        have k1 : w.step (.insert i v (H.node w es.length) (H.fault w es.length) (some c.hd) (H.env w es.length)) = .ok (w1, ⟨y, false⟩) := k1
        obtain ⟨s2, e2, n2, a2⟩ := unwind_only (out := fun s => Out.threw (w1, es, s)) o'
        refine ⟨w1, c1, es, s2, o, r1, ?_, n2, Or.inr ⟨?_, hf.begun (a2.trans a), fun _ => ⟨es, by simp [loadItems, k1]⟩⟩⟩
        · obtain ⟨S0, -, e0⟩ := each_head ha (asked_ne' I hi)
          exact (Same.perm e0).trans hp
        · rw [← e2]
          simp only [loadItemsX, e, hl, k1]
          simp
      | threw w1 c1 ret k1 r1 o hcnt ha sm hcalm =>
        have k1 : w.step (.insert i v (H.node w es.length) (H.fault w es.length) (some c.hd) (H.env w es.length)) = .threw (w1, ret) := k1
        obtain ⟨s2, e2, n2, a2⟩ := unwind_only (out := fun s => Out.threw (w1, es, s)) o'
        refine ⟨w1, c1, es, s2, o, r1, ?_, n2, Or.inr ⟨?_, hf.begun (a2.trans a), fun _ => ⟨es, by simp only [loadItems, k1]⟩⟩⟩
        · obtain ⟨S0, -, e0⟩ := each_head ha (asked_ne' I hi)
          exact (Same.perm e0).trans hp
        · rw [← e2]
          simp only [loadItemsX, e, hl, k1]
          simp

/-- How loading ends. -/
theorem loadX_spec {H : Host V} (ok : H.Ok) (F : Trouble) (f : Mishap) (r : Reach w) (hi : w.cs[i]? = some c) (A : Archive V) :
    ∃ w' c' es s, OnlyAt w w' i c c' ∧ Reach w' ∧ c'.elems.Perm es ∧ s.NoneLeft ∧
      ((loadX H F f w i A = .ok (w', es, s) ∧ s.Follows es ∧ load H f w i A = .ok w') ∨
       (loadX H F f w i A = .threw (w', es, s) ∧ s.FollowsUpTo es ∧ (F = {} → load H f w i A = .threw w'))) := by
  have l : w.Legal (.clear i) := (List.getElem?_eq_some_iff.1 hi).1
  obtain ⟨w1, c0, c1, k1, o1, em, k2, k3⟩ := eff_clear r.inv l
  obtain rfl := Option.some.inj (o1.pre.symm.trans hi)
  have r1 : Reach w1 := r.ok l k1
  have he : c1.elems = [] := by
    have := (r1.inv.facts o1.post).2.1.count
    rw [k2] at this
    exact List.length_eq_zero_iff.1 this.symm
  obtain ⟨w2, c2, es, s, o2, r2, b1, b2, b3⟩ := loadItemsX_spec (i := i) ok F A.count A.items [] {} r1 o1.post (by rw [he]) (fun _ => rfl) (fun _ => rfl)
  unfold load loadX
  simp only [k1, o1.post]
  rcases b3 with ⟨q1, q2, q3⟩ | ⟨q1, q2, q3⟩
  · have hlen : c2.ls.length = c1.ls.length := by
      have := congrArg List.length o2.asked
      simpa [Container.asked] using this
    obtain ⟨w3, c3, o3, r3, p1, p2, p0, p3⟩ := loadIndices_safe (f := f) c1.ls.length 0 (A.ptrs.map (Option.map fun n => es.getD n c1.hd)) r2 o2.post b1 (by omega)
    refine ⟨w3, c3, es, s, (o1.trans o2).trans o3, r3, p0, b2, ?_⟩
    simp only [List.length_nil] at q1 q3
    rw [q1, q3]
    rcases p3 with p3 | p3
    · exact Or.inl ⟨by simp only [p3, tagged], q2, p3⟩
    · exact Or.inr ⟨by simp only [p3, tagged], q2.upTo, fun _ => p3⟩
  · refine ⟨w2, c2, es, s, o1.trans o2, r2, b1, b2, Or.inr ⟨?_, q2, fun hF => ?_⟩⟩
    · simp only [List.length_nil] at q1
      rw [q1]
    · obtain ⟨es'', e⟩ := q3 hF
      simp only [List.length_nil] at e
      rw [e]

end MI.Ser
