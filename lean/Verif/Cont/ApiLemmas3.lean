import Verif.Cont.ApiLemmas2
/-!
Transfer of ranges of elements between containers.
-/
set_option linter.unusedVariables false
set_option linter.unusedSimpArgs false
namespace MI.Cont
open MI
variable {V : Type} {w w' : World V} {i j k : Nat} {c c' : Container V} {H : Host V}

theorem each_trans {R T : Spec V → List Id → List Id → Prop} : ∀ {Ss : List (Spec V)} {a b d : List (List Id)},
    Each R Ss a b → Each T Ss b d → Each (fun S x z => ∃ y, R S x y ∧ T S y z) Ss a d
  | [], [], [], [], _, _ => trivial
  | S :: Ss, x :: a, y :: b, z :: d, h, g => ⟨⟨y, h.1, g.1⟩, each_trans h.2 g.2⟩
  | [], [], _ :: _, _, h, _ => h.elim
  | [], _ :: _, _, _, h, _ => h.elim
  | _ :: _, [], _, _, h, _ => h.elim
  | _ :: _, _ :: _, [], _, h, _ => h.elim
  | [], [], [], _ :: _, _, h => h.elim
  | _ :: _, _ :: _, _ :: _, [], _, h => h.elim

theorem Takes.congr {Ss : List (Spec V)} {val : Id → V} : ∀ {els els' r t : List Id}, (∀ x, x ∈ els ↔ x ∈ els') → Takes Ss val els r t → Takes Ss val els' r t := by
  intro els els' r t h k
  induction k generalizing els' with
  | nil => exact .nil
  | take a _ ih => exact .take (fun y hy => a y ((h y).2 hy)) (ih fun z => by simp [h z])
  | skip a _ ih =>
    obtain ⟨y, hy, hc⟩ := a
    exact .skip ⟨y, (h y).1 hy, hc⟩ (ih h)

theorem bans_clash {v : V} {val : Id → V} : (∃ y ∈ c.elems, Clash c.asked v (val y)) ↔ c.Bans val [] v :=
  ⟨fun ⟨y, hy, S, hS, hu, he⟩ => ⟨S, hS, hu, y, hy, by simp, he⟩, fun ⟨S, hS, hu, y, hy, _, he⟩ => ⟨y, hy, S, hS, hu, he⟩⟩

theorem Added.perm {val : Id → V} {hint : Option Id} {x : Id} {S : Spec V} {xs xs' : List Id} (h : Added val hint x S xs xs') : xs'.Perm (x :: xs) := by
  obtain ⟨u, v, rfl, h2, -⟩ := h
  exact List.perm_middle.trans ((Same.perm h2).cons x)

theorem asked_ne' (I : Inv w) (hi : w.cs[i]? = some c) : c.asked ≠ [] := asked_ne (I.facts hi).2.1

theorem envOk_mono {hd : Id} {size : Nat} {pool pool' : List Id} {e : Env} {L : Layer V} (h : ∀ z ∈ pool', z ∈ pool) (k : L.EnvOk hd size pool e) :
    L.EnvOk hd size pool' e := by
  have h' : ∀ z ∈ hd :: pool', z ∈ hd :: pool := fun z hz => by
    rcases List.mem_cons.1 hz with rfl | hz
    · exact List.mem_cons_self ..
    · exact List.mem_cons_of_mem _ (h z hz)
  cases L with
  | hash g eq hf pol ml hp a => exact ⟨k.b0, k.c0, fun hz => k.cn (h' _ hz), k.co, k.cna, fun z hz => k.xn z (h' z hz), k.ar⟩
  | _ => trivial

theorem envAll_mono {hd : Id} {size : Nat} {pool pool' : List Id} (h : ∀ z ∈ pool', z ∈ pool) : ∀ {Ls : List (Layer V)} {e : Nat → Env},
    EnvAll hd size pool e Ls → EnvAll hd size pool' e Ls
  | [], _, _ => trivial
  | _ :: _, _, k => ⟨envOk_mono h k.1, envAll_mono h k.2⟩

theorem hostLegal {t : Nat} {x : Id} {d : Container V} (ok : H.Ok) (r : Reach w) (ne : i ≠ j) (hi : w.cs[i]? = some c) (hj : w.cs[j]? = some d) (hx : x ∈ d.elems) :
    w.Legal (.transfer i j x (H.env w t)) := by
  refine ⟨ne, c, d, hi, hj, hx, ?_⟩
  exact envAll_mono (fun z hz => List.mem_cons_of_mem _ hz) ((ok w r t).2 c (List.mem_of_getElem? hi))

/-- `transfer_range_`. -/
theorem transferLoop_spec {last : Id} (ok : H.Ok) (ne : i ≠ j) : ∀ {m : List Id} {u v : List Id} {n : Nat} {w : World V} {c d : Container V} (t : Nat),
    Reach w → w.cs[i]? = some c → w.cs[j]? = some d → d.seqs[k]? = some (u ++ m ++ v) → m.length < n → last = v.headD d.hd →
    ∃ w' done took, Takes c.asked w.m.val c.elems done took ∧ Shifted w w' i j took ∧ Reach w' ∧
      ((World.transferLoop H i j k last n w ((m ++ v).headD d.hd) t = .ok w' ∧ done = m) ∨
       (World.transferLoop H i j k last n w ((m ++ v).headD d.hd) t = .threw w' ∧ ¬ H.Calm ∧ ∃ x rest, m = done ++ x :: rest ∧ x ∉ took))
  | [], u, v, n + 1, w, c, d, t, r, hi, hj, h, hn, hl => by
    have I := r.inv
    refine ⟨w, [], [], .nil, ?_, r, Or.inl ⟨by simp only [World.transferLoop, List.nil_append, hl, if_true], rfl⟩⟩
    refine ⟨rfl, rfl, c, c, d, d, hi, hj, ?_, rfl, rfl, rfl, rfl, by simp, by simp, rfl, rfl, ?_, by simp⟩
    · rw [set_same hi, set_same hj]
    · exact each_mono (fun S xs ys e => .same e) (each_refl (I.facts hi).2.1.fit)
  | x :: m, u, v, n + 1, w, c, d, t, r, hi, hj, h, hn, hl => by
    have I := r.inv
    have nd := I.seq_nodup hj h
    have h' : d.seqs[k]? = some (u ++ x :: (m ++ v)) := by rw [h]; simp
    have hnx := nextOf_spec I hj h'
    obtain ⟨-, -, -, hp, -⟩ := I.seq hj h
    have hxd : x ∈ d.elems := hp.mem_iff.1 (by simp)
    have l := hostLegal (t := t) ok r ne hi hj hxd
    have hne : ¬ ((x :: m ++ v).headD d.hd = last) := by rw [hl]; exact headD_ne nd
    rcases eff_transfer I l with ⟨w1, k1, k2, k3⟩ | ⟨w1, y, k1, k2, k3, k4⟩ | ⟨w1, k1, k2, k3, k4⟩
    · obtain ⟨hm, hh, c0, c1, d0, d1, q1, q2, q3, q4, q5, q6, q7, q8, q9, q10, q11, q12⟩ := k2
      obtain rfl := Option.some.inj (q1.symm.trans hi)
      obtain rfl := Option.some.inj (q2.symm.trans hj)
      have hi1 : w1.cs[i]? = some c1 := by
        rw [q3, List.getElem?_set_ne ne.symm, List.getElem?_set_self (List.getElem?_eq_some_iff.1 hi).1]
      have hj1 : w1.cs[j]? = some d1 := by
        rw [q3, List.getElem?_set_self]
        rw [List.length_set]; exact (List.getElem?_eq_some_iff.1 hj).1
      have r1 := r.ok l k1
      have hs1 : d1.seqs[k]? = some (u ++ m ++ v) := by
        rw [q12, List.getElem?_map, h]
        simp only [Option.map_some, Option.some.injEq]
        rw [erase_filter (List.nodup_cons.1 nd).2]
        have := filter_split (u := u) (m := [x]) (v := m ++ v) (by simpa using (List.nodup_cons.1 nd).2)
        simpa using this
      obtain ⟨w2, done, took, s1, s2, s3, s4⟩ := transferLoop_spec (last := last) ok ne (t + 1) r1 hi1 hj1 hs1 (by simpa using hn) (by rw [q7]; exact hl)
      obtain ⟨S0, -, e0⟩ := each_head q11 (asked_ne' I hi)
      have he1 : c1.elems.Perm (x :: c0.elems) := e0.perm
      refine ⟨w2, x :: done, x :: took, ?_, ?_, s3, ?_⟩
      · refine .take (fun y hy hcl => k3 c0 hi (bans_clash.1 ⟨y, hy, hcl⟩)) ?_
        rw [q4, hm] at s1
        exact s1.congr fun z => he1.mem_iff
      · obtain ⟨p1, p2, c2, c3, d2, d3, g1, g2, g3, g4, g5, g6, g7, g8, g9, g10, g11, g12, g13⟩ := s2
        obtain rfl := Option.some.inj (g1.symm.trans hi1)
        obtain rfl := Option.some.inj (g2.symm.trans hj1)
        have hxt : x ∉ took := by
          intro hx
          have := g9 x hx
          rw [lost_elems q12] at this
          have ndl : d0.elems.Nodup := by
            have := (List.nodup_cons.1 nd).2
            exact hp.nodup_iff.1 this
          exact (List.Nodup.mem_erase_iff ndl).1 this |>.1 rfl
        refine ⟨p1.trans hm, p2.trans hh, c0, c3, d0, d3, hi, hj, ?_, g4.trans q4, g5.trans q5, g6.trans q6, g7.trans q7, ?_, ?_, ?_, ?_, ?_, ?_⟩
        · rw [g3, q3, List.set_comm _ _ ne.symm, List.set_set, List.set_set]
        · exact List.nodup_cons.2 ⟨hxt, g8⟩
        · intro z hz
          rcases List.mem_cons.1 hz with rfl | hz
          · exact hxd
          · have := g9 z hz
            rw [lost_elems q12] at this
            exact List.mem_of_mem_erase this
        · rw [g10, q9, List.length_cons]; omega
        · rw [List.length_cons]; omega
        · rw [q4, hm] at g12
          exact each_mono (fun S xs ys ⟨zs, a, b⟩ => .add rfl a b) (each_trans q11 g12)
        · rw [g13, q12, List.map_map]
          refine List.map_congr_left fun xs hxs => ?_
          obtain ⟨k', hk'⟩ := List.mem_iff_getElem?.1 hxs
          show (xs.erase x).filter _ = _
          rw [erase_filter (List.nodup_cons.1 (I.seq_nodup hj hk')).2, filter_both]
          rfl
      · rw [q7] at s4
        have st : World.transferLoop H i j k last (n + 1) w ((x :: m ++ v).headD d0.hd) t = World.transferLoop H i j k last n w1 ((m ++ v).headD d0.hd) (t + 1) := by
          rw [World.transferLoop, if_neg hne]
          simp only [List.cons_append, List.headD_cons, hnx, k1]
        rw [st]
        rcases s4 with ⟨a, b⟩ | ⟨a, b, z, rest, e, f⟩
        · exact Or.inl ⟨a, by rw [b]⟩
        · refine Or.inr ⟨a, b, z, rest, by rw [e]; rfl, ?_⟩
          rw [List.mem_cons, not_or]
          refine ⟨?_, f⟩
          rintro rfl
          have := (List.nodup_cons.1 nd).2
          rw [e] at this
          simp [List.nodup_append] at this
    · obtain ⟨sm, c0, c1, o, q1, q2⟩ := k2
      obtain rfl := Option.some.inj (o.pre.symm.trans hi)
      have r1 := r.ok l k1
      have hj1 : w1.cs[j]? = some d := by rw [o.cs, List.getElem?_set_ne ne]; exact hj
      obtain ⟨w2, done, took, s1, s2, s3, s4⟩ := transferLoop_spec (u := u ++ [x]) (v := v) (m := m) (last := last) ok ne (t + 1) r1 o.post hj1 (by rw [h]; simp) (by simpa using hn) hl
      obtain ⟨S0, -, e0⟩ := each_head q2 (asked_ne' I hi)
      refine ⟨w2, x :: done, took, ?_, ?_, s3, ?_⟩
      · obtain ⟨hy, S, hS, hu, he⟩ := k4 c0 hi
        refine .skip ⟨y, hy, S, hS, hu, he⟩ ?_
        rw [o.asked, k3] at s1
        exact s1.congr fun z => (Same.perm e0).mem_iff
      · obtain ⟨p1, p2, c2, c3, d2, d3, g1, g2, g3, g4, g5, g6, g7, g8, g9, g10, g11, g12, g13⟩ := s2
        obtain rfl := Option.some.inj (g1.symm.trans o.post)
        obtain rfl := Option.some.inj (g2.symm.trans hj1)
        have hh : w1.hs = w.hs := sm.hs
        refine ⟨p1.trans k3, p2.trans hh, c0, c3, d2, d3, hi, hj, ?_, g4.trans o.asked, g5.trans o.hd, g6, g7, g8, g9, by rw [g10, q1], g11, ?_, g13⟩
        · rw [g3, o.cs, List.set_set]
        · rw [o.asked, k3] at g12
          exact each_mono (fun S xs ys ⟨zs, a, b⟩ => .rehash a b) (each_trans q2 g12)
      · have st : World.transferLoop H i j k last (n + 1) w ((x :: m ++ v).headD d.hd) t = World.transferLoop H i j k last n w1 ((m ++ v).headD d.hd) (t + 1) := by
          rw [World.transferLoop, if_neg hne]
          simp only [List.cons_append, List.headD_cons, hnx, k1]
        rw [st]
        rcases s4 with ⟨a, b⟩ | ⟨a, b, z, rest, e, f⟩
        · exact Or.inl ⟨a, by rw [b]⟩
        · exact Or.inr ⟨a, b, z, rest, by rw [e]; rfl, f⟩
    · obtain ⟨sm, c0, c1, o, q1, q2⟩ := k2
      obtain rfl := Option.some.inj (o.pre.symm.trans hi)
      have r1 := r.threw l k1
      have hh : w1.hs = w.hs := sm.hs
      refine ⟨w1, [], [], .nil, ?_, r1, Or.inr ⟨?_, ?_, x, m, rfl, by simp⟩⟩
      · refine ⟨k3, hh, c0, c1, d, d, hi, hj, ?_, o.asked, o.hd, rfl, rfl, by simp, by simp, q1, rfl, ?_, by simp⟩
        · rw [o.cs, List.set_comm _ _ ne, set_same hj]
        · exact each_mono (fun S xs ys e => .same e) q2
      · rw [World.transferLoop, if_neg hne]
        simp only [List.cons_append, List.headD_cons, hnx, k1]
      · intro hc
        obtain ⟨q, hq⟩ := k4
        exact hq ((hc w t).2.2 q)

end MI.Cont
