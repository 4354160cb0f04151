import Verif.Cont.OrdTime
import Verif.Cont.ApiLemmas4
import Verif.Ord.Fill
/-!
# Filling a container with one ordered index

`Ord.fill` (`Verif/Ord/Fill.lean`), which counts rounds, does what the loop of the range constructors of `Verif/Cont/Api.lean` does on a container with one ordered index.
-/
namespace MI.Cont
open MI

variable {V : Type} {lt : V → V → Bool} {u : Bool} {hd : Id} {xs : List Id} {H : Host V} {i : Nat}

/-- One insertion with a hint: where the element goes, and what is returned. -/
theorem insert_container {m : Mem V} {h : Ord.Heap} {count : Nat} {x : Id} {v : V} {hint : Id} {f : Fault} {e : Nat → Env} {p : Ord.Point} {n : Nat}
    (hnz : 0 ∉ xs) (hq : (e 0).Quiet) (f1 : f.alloc = false) (f2 : f.construct = false) (hx : x ∉ xs)
    (hp : Ord.pointS (upd m.val x v) lt u (count + 4) h hd v (some hint) = some (p, n)) (hz : ∀ z, p = .reject z → z ∈ xs)
    {s' : Ord.Idx V} {r : Ord.Rounds} (ha : Ord.act lt u (count + 4) hd ⟨m.val, h, count⟩ (.insert x v (some hint)) = some (s', r)) :
    ∃ R, (Container.ofIdx lt u hd ⟨m.val, h, count⟩).insert m v x f (some hint) e = .ok R ∧ R.c = Container.ofIdx lt u hd s' ∧ R.m.val = s'.key ∧
      R.pos = p.landed x := by
  obtain ⟨q1, q2, q3, q4⟩ := hq
  have e2 := congrArg (Option.map (·.1)) hp
  rw [Ord.pointS_fst] at e2
  simp only [Ord.act, hp] at ha
  simp only [Container.insert, Container.ofIdx, insertC, Layer.reserve, Layer.point, q3, Bool.false_eq_true, if_false, upd_same, Container.budget]
  rw [e2]
  cases p with
  | accept side pos =>
    simp only at ha
    rcases e3 : Ord.linkS (count + 4) h x side pos hd with _ | ⟨h', k⟩
    · rw [e3] at ha; cases ha
    · rw [e3] at ha; cases ha
      have e4 := congrArg (Option.map (·.1)) e3
      rw [Ord.linkS_fst] at e4
      simp only [Option.map_some, baseInsert, f1, f2, Bool.false_eq_true, if_false, if_true, Layer.link, e4]
      exact ⟨_, rfl, rfl, rfl, rfl⟩
  | reject q =>
    cases ha
    have hq : q ∈ xs := hz q rfl
    have hq0 : q ≠ 0 := by rintro rfl; exact hnz hq
    simp only [Option.map_some, hq0, if_false]
    exact ⟨_, rfl, rfl, rfl, rfl⟩

theorem hinted_fill (sw : StrictWeak lt) (ok : H.Ok) (calm : H.Calm) : ∀ (vs : List V) {w : World V} {h : Ord.Heap} {count : Nat} {xs : List Id} {P t : Nat} {hint : Id}, Reach w →
    w.cs[i]? = some (Container.ofIdx lt u hd ⟨w.m.val, h, count⟩) → Ord.RepP h hd xs P → Ord.OrderedBy lt u w.m.val xs → count = xs.length → hint ∈ xs ++ [hd] →
    ∃ w' l s' q r P' ys, World.hintedRange H false i w vs hint t = .ok w' ∧ l.map Prod.snd = vs ∧ Ord.fill lt u hd ⟨w.m.val, h, count⟩ hint l = some (s', q, r) ∧
      w'.cs[i]? = some (Container.ofIdx lt u hd s') ∧ w'.m.val = s'.key ∧ Reach w' ∧
      Ord.RepP s'.h hd ys P' ∧ ys.length ≤ xs.length + vs.length ∧
      r.fix + P' ≤ P + 5 * vs.length ∧ r.walk ≤ vs.length * (8 * Nat.log2 (xs.length + vs.length + 1)) := by
  intro vs
  induction vs with
  | nil =>
    intro w h count xs P t hint r hi hr _ _ _
    exact ⟨w, [], _, hint, ⟨0, 0⟩, P, xs, rfl, rfl, rfl, hi, rfl, r, hr, by simp, by simp, by simp⟩
  | cons v vs ih =>
    intro w h count xs P t hint r hi hr ho hc hh
    have I := r.inv
    have hmem := List.mem_of_getElem? hi
    obtain ⟨hf, env⟩ := ok w r t
    have env := env _ hmem
    obtain ⟨c1, c2, c3⟩ := calm w t
    generalize ex : H.node w t = x at hf env
    have hel : ∀ z, z ∈ (Container.ofIdx lt u hd ⟨w.m.val, h, count⟩).elems ↔ z ∈ xs := by
      obtain ⟨zs, -, h2, h3⟩ := fit_get (k := 0) (L := .ord u lt h) (r.sound hmem).fit rfl
      obtain rfl := Ord.rep_unique h2.1 hr.rep
      exact fun z => h3.mem_iff.symm
    have al : ∀ z ∈ hd :: xs, z ∈ w.m.alloc := by
      intro z hz
      refine I.mem_alloc hmem ?_
      rcases List.mem_cons.1 hz with rfl | hz
      · exact List.mem_cons_self
      · exact List.mem_cons_of_mem _ ((hel z).2 hz)
    have hx : x ∉ hd :: xs := fun hz => hf.2.1 (al x hz)
    have hnz : 0 ∉ xs := fun hz => I.nz (al 0 (List.mem_cons_of_mem _ hz))
    have nd : (hd :: (xs ++ [(x, v)].map Prod.fst)).Nodup := by
      have n1 : (hd :: xs).Nodup := Ord.rep_nodup hr.rep
      have : (hd :: xs ++ [x]).Nodup := by
        rw [List.nodup_append]
        exact ⟨n1, by simp, fun a ha b hb => by obtain rfl := List.mem_singleton.1 hb; rintro rfl; exact hx ha⟩
      simpa using this
    obtain ⟨s1, r1, P1, ys, q1, k1, k2, k3, k4, k5, k6, k7, k8, k9, -, k11, k12, k13⟩ := Ord.fill_any sw [(x, v)] (s := ⟨w.m.val, h, count⟩) (q := hint) hr ho hc nd (by simpa using hf.1) hh
    have k1' := k1
    simp only [Ord.fill] at k1
    rcases ep : Ord.pointS (upd w.m.val x v) lt u (count + 4) h hd v (some hint) with _ | ⟨p, n⟩
    · rw [ep] at k1; cases k1
    rcases ea : Ord.act lt u (count + 4) hd ⟨w.m.val, h, count⟩ (.insert x v (some hint)) with _ | ⟨s0, r0⟩
    · rw [ep, ea] at k1; cases k1
    rw [ep, ea] at k1
    simp only at k1
    have hz : ∀ z, p = .reject z → z ∈ xs := by
      obtain ⟨p', n', e', -, h'⟩ := Ord.point_lands sw (k := v) (n := count + 4) (key := upd w.m.val x v) hr.rep
        (ho.congr fun z hz => upd_other _ _ (fun e => hx (by rw [← e]; exact List.mem_cons_of_mem _ hz))) (by omega) hh
      rw [ep] at e'; cases e'
      rintro z rfl
      rcases h' with ⟨_, _, _, _, h', -⟩ | ⟨z', hz', h', -⟩
      · cases h'
      · cases h'; exact hz'
    obtain ⟨R, i1, i2, i3, i4⟩ := insert_container (f := H.fault w t) (e := H.env w t) (count := count) hnz (c3 0) c1 c2 (fun hz => hx (List.mem_cons_of_mem _ hz)) ep hz ea
    rcases en : Ord.incrementS s0.h (s0.count + 4) (p.landed x) with _ | ⟨nx, w2⟩
    · rw [en] at k1; cases k1
    rw [en] at k1
    simp only [Option.map_some, Option.some.injEq, Prod.mk.injEq] at k1
    obtain ⟨rfl, rfl, rfl⟩ := k1
    have L : w.Legal (.insert i v x (H.fault w t) (some hint) (H.env w t)) := ⟨_, hi, hf, fun p e => by
      cases e
      rcases List.mem_append.1 hh with hh | hh
      · exact List.mem_cons_of_mem _ ((hel _).2 hh)
      · obtain rfl := List.mem_singleton.1 hh; exact List.mem_cons_self, env⟩
    have st : w.step (.insert i v x (H.fault w t) (some hint) (H.env w t)) = .ok ({ w with m := R.m, cs := w.cs.set i R.c }, ⟨R.pos, R.b⟩) := by
      simp only [World.step, hi, i1, World.put]
    have rw' := r.ok L st
    have hlt : i < w.cs.length := (List.getElem?_eq_some_iff.1 hi).1
    have hi' : ({ w with m := R.m, cs := w.cs.set i R.c } : World V).cs[i]? = some (Container.ofIdx lt u hd ⟨R.m.val, s0.h, s0.count⟩) := by
      simp only [List.getElem?_set_self hlt, i2, i3]
    have nx1 : ({ w with m := R.m, cs := w.cs.set i R.c } : World V).nextOf i 0 R.pos = some nx := by
      have e5 := congrArg (Option.map (·.1)) en
      rw [Ord.incrementS_fst] at e5
      simp only [World.nextOf, hi']
      simp only [Container.ofIdx, List.getElem?_cons_zero, Layer.next, Container.budget, i4]
      exact e5
    obtain ⟨b, z, a, f1, f2, -⟩ := k11 (x, v) rfl
    have hnx : nx ∈ ys ++ [hd] := by
      rw [f1, f2]
      cases a with | nil => simp [hdOr] | cons c a => simp [hdOr]
    obtain ⟨w3, l, s3, q3, r3, P3, zs, g1, g2, g3, g4, g5, g6, g7, g8, g9, g10⟩ := ih (w := { w with m := R.m, cs := w.cs.set i R.c }) (t := t + 1) rw' hi' k2 (by
      show Ord.OrderedBy lt u R.m.val ys
      rw [i3]; exact k3) k4 hnx
    have hlen : ys.length ≤ xs.length + 1 := by
      have h1 : ys.Nodup := (List.nodup_cons.1 (Ord.rep_nodup k2.rep)).2
      have := (List.subperm_of_subset h1 k5).length_le
      simpa using this
    have mono : ∀ {a b : Nat}, a ≤ b → Nat.log2 (a + 1) ≤ Nat.log2 (b + 1) := by
      intro a b h
      rw [Nat.le_log2 (by omega)]
      exact Nat.le_trans (Nat.log2_self_le (by omega)) (by omega)
    refine ⟨w3, (x, v) :: l, s3, q3, (r0.add ⟨w2, 0⟩).add r3, P3, zs, ?_, by simp [g2], ?_, g4, g5, g6, g7, by simp; omega, ?_, ?_⟩
    · simp only [World.hintedRange, insertOp, Bool.false_eq_true, if_false, ex, st]
      rw [nx1]
      exact g1
    · simp only [Ord.fill]
      rw [ep, ea]
      simp only
      rw [en]
      have g3' : Ord.fill lt u hd s0 nx l = some (s3, q3, r3) := by
        have : (⟨R.m.val, s0.h, s0.count⟩ : Ord.Idx V) = s0 := by rw [i3]
        rw [this] at g3
        exact g3
      simp only [g3', Option.map_some]
    · simp only [Ord.Rounds.add, List.length_cons, List.length_nil] at *
      omega
    · have m1 := mono (a := xs.length + 1) (b := xs.length + (vs.length + 1)) (by omega)
      have m2 := mono (a := ys.length + vs.length) (b := xs.length + (vs.length + 1)) (by omega)
      have m3 := Nat.mul_le_mul_left vs.length (Nat.mul_le_mul_left 8 m2)
      have k14 : (r0.add ⟨w2, 0⟩).walk ≤ 8 * Nat.log2 (xs.length + 1 + 1) := by
        simp only [Ord.Rounds.add, List.length_cons, List.length_nil, Nat.zero_add, Nat.one_mul, Nat.add_zero] at k13 ⊢
        exact k13
      show (r0.add ⟨w2, 0⟩).walk + r3.walk ≤ (vs.length + 1) * (8 * Nat.log2 (xs.length + (vs.length + 1) + 1))
      rw [Nat.succ_mul]
      omega

end MI.Cont
