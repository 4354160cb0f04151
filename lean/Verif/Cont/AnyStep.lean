import Verif.Cont.PlaceCallsLemmas
import Verif.Cont.AnyWorld
/-! The operations of a program, one by one, whatever user functions do. -/
set_option linter.unusedVariables false
set_option linter.unusedSimpArgs false
set_option linter.unnecessarySeqFocus false
namespace MI.Cont
open MI
variable {V : Type}

/-- The operation returned or threw, it had the effect it should have, and the invariant holds. -/
def Fine (w : World V) (o : Op V) (out : Out (World V × Ret)) : Prop := ∃ threw w' r, Out.Of out threw w' r ∧ w.Effect threw r w' o ∧ AnyInv w' ∧ w.Untouched w' o

section
variable {w : World V} {i : Nat}

theorem Fine.ok {o : Op V} {w' : World V} {r : Ret} (e : w.Effect false r w' o) (I : AnyInv w') (u : w.Untouched w' o := by exact fun _ _ _ => rfl) :
    Fine w o (.ok (w', r)) := ⟨false, w', r, rfl, e, I, u⟩

theorem Fine.threw {o : Op V} {w' : World V} {r : Ret} (e : w.Effect true r w' o) (I : AnyInv w') (u : w.Untouched w' o := by exact fun _ _ _ => rfl) :
    Fine w o (.threw (w', r)) := ⟨true, w', r, rfl, e, I, u⟩

theorem AnyInv.cons_alloc (I : AnyInv w) {z : Id} (h : z ∈ w.m.cons) : z ∈ w.m.alloc := by
  have := I.cons.mem_iff.1 h
  rw [I.alloc.mem_iff]
  simp only [List.mem_append, List.mem_flatMap, List.mem_cons] at this ⊢
  rcases this with ⟨c, hc, h⟩ | h
  · exact Or.inl ⟨c, hc, Or.inr h⟩
  · exact Or.inr h

theorem edited {o : Op V} {x : Id} (h : o.edits = some x) (v : V) {m' : Mem V} {cs : List (Container V)} {hs : List (Option Id)} (hm : m'.val = upd w.m.val x v := by rfl) :
    w.Untouched ⟨m', cs, hs⟩ o := by
  intro z hz ne
  show m'.val z = _
  rw [hm]
  exact upd_other _ _ (by rintro rfl; exact ne h)

theorem added {x : Id} {b : Bool} {p : Id} {c c' : Container V} (hb : b = true) (hp : p = x) (h : c'.elems.Perm (x :: c.elems)) : AddedOrNot x false ⟨p, b⟩ c c' :=
  Or.inl ⟨rfl, hb, hp, h⟩

theorem notAdded {x y : Id} {c c' : Container V} (hy : y ∈ c.elems) (h : c'.elems.Perm c.elems) : AddedOrNot x false ⟨y, false⟩ c c' :=
  Or.inr ⟨fun _ => ⟨rfl, hy⟩, h⟩

theorem notAdded' {x : Id} {r : Ret} {c c' : Container V} (h : c'.elems.Perm c.elems) : AddedOrNot x true r c c' := Or.inr ⟨fun q => (nomatch q), h⟩

/-- The two ways to create an element. -/
theorem fine_insert {o : Op V} {v : V} {x : Id} {c : Container V} {out : Out (Res V)} (I : AnyInv w) (hi : w.cs[i]? = some c) (hf : w.Fresh x)
    (he : ∀ threw r w', w.Effect threw r w' o ↔ w'.hs = w.hs ∧ ∃ c c', w.cs[i]? = some c ∧ w'.cs = w.cs.set i c' ∧ SameKind c c' ∧ AddedOrNot x threw r c c' ∧
      (threw = false → r.b = true → w'.m.val x = v))
    (h : InsertOut w.m c v x (x :: w.m.alloc) out) : Fine w o (w.put i out) := by
  have same : ∀ {c' : Container V} {m' : Mem V}, (m' = w.m ∨ m' = { w.m with val := upd w.m.val x v }) → Turned c c' c.elems (x :: w.m.alloc) →
      AnyInv { w with m := m', cs := w.cs.set i c' } := by
    intro c' m' hm k
    refine any_same_post (m' := m') I hi (k.mono fun z hz => by simp [hz]) ?_ ?_ (.refl _)
    · rcases hm with rfl | rfl <;> rfl
    · rcases hm with rfl | rfl <;> rfl
  have other : ∀ z ∈ w.m.cons, upd w.m.val x v z = w.m.val z := fun z hz => upd_other _ _ (by rintro rfl; exact hf.2.1 (I.cons_alloc hz))
  have still : ∀ {m' : Mem V} {cs : List (Container V)}, (m' = w.m ∨ m' = { w.m with val := upd w.m.val x v }) → w.Untouched { w with m := m', cs := cs } o := by
    rintro m' cs (rfl | rfl) z hz -
    · rfl
    · exact other z hz
  rcases h with ⟨c', rfl, k⟩ | ⟨c', y, m', hm, rfl, hy, k⟩ | ⟨c', m', hm, rfl, k⟩
  · exact .ok ((he _ _ _).2 ⟨rfl, c, c', hi, rfl, ⟨k.hd, k.specs⟩, added rfl rfl k.perm, fun _ _ => upd_same _ _ _⟩) (any_insert_post I hi hf k) fun z hz _ => other z hz
  · exact .ok ((he _ _ _).2 ⟨rfl, c, c', hi, rfl, ⟨k.hd, k.specs⟩, notAdded hy k.perm, fun _ h => nomatch h⟩) (same hm k) (still hm)
  · exact .threw ((he _ _ _).2 ⟨rfl, c, c', hi, rfl, ⟨k.hd, k.specs⟩, notAdded' k.perm, fun h => nomatch h⟩) (same hm k) (still hm)

theorem fine_op_insert {v : V} {x : Id} {f : Fault} {hint : Option Id} {e : Nat → Env} (I : AnyInv w) (l : w.Legal (.insert i v x f hint e)) :
    (w.stepR (.insert i v x f hint e)).Always (Fine w (.insert i v x f hint e)) := by
  obtain ⟨c, hi, hf, hh, env⟩ := l
  obtain ⟨hc, s, cl, sa, sc, z0, h0⟩ := I.facts hi
  simp only [World.stepR, hi]
  refine (insertR_any s hf.1 z0 (Fresh.not_mem_any I hf hc) hh (fun z hz => by simp [sa z hz]) (by simp) env (Fresh.clear_any I hf hc)).then fun out h => ?_
  exact fine_insert I hi hf (fun _ _ _ => Iff.rfl) h

theorem fine_op_emplace {v : V} {x : Id} {f : Fault} {hint : Option Id} {e : Nat → Env} (I : AnyInv w) (l : w.Legal (.emplace i v x f hint e)) :
    (w.stepR (.emplace i v x f hint e)).Always (Fine w (.emplace i v x f hint e)) := by
  obtain ⟨c, hi, hf, hh, env⟩ := l
  obtain ⟨hc, s, cl, sa, sc, z0, h0⟩ := I.facts hi
  simp only [World.stepR, hi]
  refine (emplaceR_any s hf.1 (Fresh.not_mem_any I hf hc) hh (fun z hz => by simp [sa z hz]) (by simp) env (Fresh.clear_any I hf hc)).then fun out h => ?_
  exact fine_insert I hi hf (fun _ _ _ => Iff.rfl) h

theorem fine_op_insertNh {h : Nat} {hint : Option Id} {e : Nat → Env} (I : AnyInv w) (l : w.Legal (.insertNh i h hint e)) :
    (w.stepR (.insertNh i h hint e)).Always (Fine w (.insertNh i h hint e)) := by
  obtain ⟨c, hi, hj, hh, env⟩ := l
  obtain ⟨hc, s, cl, sa, sc, z0, h0⟩ := I.facts hi
  obtain ⟨nh, hn⟩ := get_of_lt hj
  simp only [World.stepR, hi, hn]
  cases nh with
  | none =>
    show Fine w _ (w.putNh i h _)
    simp only [World.putNh, set_same hi, set_same hn]
    exact .ok (Or.inl ⟨hn, rfl, rfl, rfl⟩) I
  | some x =>
    have hm := mem_handled hn
    have hs : (handled (w.hs.set h (some x))).Perm (handled w.hs) := by rw [set_same hn]
    refine (insertNhR_any s (I.nz' (I.handle_alloc hm)) (fun k => I.handle_disj hc k hm) hh sa (I.handle_alloc hm) env cl).then ?_
    rintro out (⟨c', rfl, k2⟩ | ⟨c', y, rfl, hy, k2⟩ | ⟨c', rfl, k2⟩)
    · refine .ok (Or.inr ⟨x, c, c', hn, hi, rfl, ⟨k2.hd, k2.specs⟩, added rfl rfl k2.perm, rfl⟩) ?_
      refine any_put I hi k2 (fun _ h => Or.inl h) ?_ ?_ I.nodup
      all_goals
        intro z
        have h2 := handled_at z hn none
        simp only [Option.toList, List.count_cons, List.count_nil] at h2 ⊢
        omega
    · exact .ok (Or.inr ⟨x, c, c', hn, hi, rfl, ⟨k2.hd, k2.specs⟩, notAdded hy k2.perm, set_same hn⟩) (any_same_post (m' := w.m) I hi k2 rfl rfl hs)
    · exact .threw (Or.inr ⟨x, c, c', hn, hi, rfl, ⟨k2.hd, k2.specs⟩, notAdded' k2.perm, set_same hn⟩) (any_same_post (m' := w.m) I hi k2 rfl rfl hs)

theorem fine_op_transfer {j : Nat} {x : Id} {e : Nat → Env} (I : AnyInv w) (l : w.Legal (.transfer i j x e)) :
    (w.stepR (.transfer i j x e)).Always (Fine w (.transfer i j x e)) := by
  obtain ⟨ne, c, d, hi, hj, hx, env⟩ := l
  obtain ⟨hc, s, cl, sa, sc, z0, h0⟩ := I.facts hi
  obtain ⟨hd, s2, cl2, sa2, sc2, z2, h2⟩ := I.facts hj
  have hn : x ∉ c.hd :: c.elems := fun k => I.disj hi (mem_rest ne hj) k (by simp [hx])
  simp only [World.stepR, hi, hj]
  have back : ∀ c' : Container V, (w.cs.set i c').set j d = w.cs.set i c' := fun c' => set_same (by rw [List.getElem?_set_ne ne]; exact hj)
  refine (transferR_any s s2 (I.nz' (sa2 x hx)) hn hx (sa2 x hx) sa (sa2 x hx) env cl cl2).then ?_
  rintro out (⟨c', d', rfl, k2, k3⟩ | ⟨c', y, rfl, hy, k2⟩ | ⟨c', rfl, k2⟩)
  · refine .ok ⟨rfl, c, d, c', d', hi, hj, rfl, added rfl rfl k2.perm, k3.perm⟩ ?_
    have I1 : AnyInv ⟨w.m, w.cs.set j d', w.hs ++ [some x]⟩ := by
      refine any_put I hj k3 (fun _ h => Or.inl h) ?_ ?_ I.nodup
      all_goals
        intro z
        have h2 := count_erase_add hx z
        rw [handled_append]
        simp only [Option.toList]
        omega
    have hi1 : (w.cs.set j d')[i]? = some c := by rw [List.getElem?_set_ne (Ne.symm ne)]; exact hi
    have I2 : AnyInv ⟨w.m, (w.cs.set j d').set i c', w.hs⟩ := by
      refine any_put I1 hi1 k2 (fun _ h => Or.inl h) ?_ ?_ I.nodup
      all_goals
        intro z
        rw [handled_append]
        simp only [Option.toList, List.count_cons, List.count_nil]
        omega
    rw [List.set_comm _ _ (Ne.symm ne)] at I2
    exact I2
  · refine .ok ⟨rfl, c, d, c', d, hi, hj, rfl, notAdded hy k2.perm, rfl⟩ ?_
    simp only [back]
    exact any_same_post (m' := w.m) I hi k2 rfl rfl (.refl _)
  · refine .threw ⟨rfl, c, d, c', d, hi, hj, rfl, notAdded' k2.perm, rfl⟩ ?_
    simp only [back]
    exact any_same_post (m' := w.m) I hi k2 rfl rfl (.refl _)

theorem fine_op_replace {x : Id} {v : V} {a : Bool} {e : Nat → Env} (I : AnyInv w) (l : w.Legal (.replace i x v a e)) :
    (w.stepR (.replace i x v a e)).Always (Fine w (.replace i x v a e)) := by
  obtain ⟨c, hi, hx⟩ := l
  obtain ⟨hc, s, cl, sa, sc, z0, h0⟩ := I.facts hi
  simp only [World.stepR, hi]
  refine (replaceR_any s hx (I.nz' (sa x hx)) (sa x hx) cl).then ?_
  rintro out ⟨c', k, rfl | rfl | rfl⟩
  · exact .ok ⟨rfl, ⟨c, c', hi, rfl, ⟨k.hd, k.specs⟩, k.perm⟩, Or.inl ⟨rfl, rfl, rfl⟩⟩ (any_same_post (m' := w.m.assign x v) I hi k rfl rfl (.refl _)) (edited rfl _)
  · exact .ok ⟨rfl, ⟨c, c', hi, rfl, ⟨k.hd, k.specs⟩, k.perm⟩, Or.inr ⟨rfl, rfl⟩⟩ (any_same_post (m' := w.m) I hi k rfl rfl (.refl _))
  · exact .threw ⟨rfl, ⟨c, c', hi, rfl, ⟨k.hd, k.specs⟩, k.perm⟩, Or.inr ⟨rfl, rfl⟩⟩ (any_same_post (m' := w.m) I hi k rfl rfl (.refl _))

theorem fine_op_modify {x : Id} {mod : V → V × Bool} {e : Nat → Env} (I : AnyInv w) (l : w.Legal (.modify i x mod e)) :
    (w.stepR (.modify i x mod e)).Always (Fine w (.modify i x mod e)) := by
  obtain ⟨c, hi, hx⟩ := l
  obtain ⟨hc, s, cl, sa, sc, z0, h0⟩ := I.facts hi
  simp only [World.stepR, hi]
  refine (modifyR_any s hx (I.nz' (sa x hx)) (sa x hx) (sa x hx) (sc x hx) cl).then ?_
  rintro out (⟨c', rfl, k⟩ | ⟨c', p, rfl | rfl, k⟩)
  · exact .ok ⟨rfl, c, c', hi, rfl, ⟨k.hd, k.specs⟩, Or.inl ⟨rfl, rfl, upd_same _ _ _, k.perm⟩⟩ (any_same_post (m' := w.m.assign x _) I hi k rfl rfl (.refl _)) (edited rfl _)
  · exact .ok ⟨rfl, c, c', hi, rfl, ⟨k.hd, k.specs⟩, Or.inr ⟨rfl, k.perm⟩⟩ (any_gone_post I hi hx k) (edited rfl _)
  · exact .threw ⟨rfl, c, c', hi, rfl, ⟨k.hd, k.specs⟩, Or.inr ⟨rfl, k.perm⟩⟩ (any_gone_post I hi hx k) (edited rfl _)

theorem fine_op_modifyRb {x : Id} {mod back : V → V × Bool} {e e' : Nat → Env} (I : AnyInv w) (l : w.WildLegal (.modifyRb i x mod back e e')) :
    (w.stepR (.modifyRb i x mod back e e')).Always (fun out => Fine w (.modifyRb i x mod back e e') out ∨ out = .ub) ∧
    (w.stepR (.modifyRb i x mod back e e')).Calm (Fine w (.modifyRb i x mod back e e')) := by
  obtain ⟨c, hi, hx⟩ := l
  obtain ⟨hc, s, cl, sa, sc, z0, h0⟩ := I.facts hi
  obtain ⟨k1, k2⟩ := modifyRbR_any (mod := mod) (back := back) s hx (I.nz' (sa x hx)) (sa x hx) (sa x hx) (sc x hx) I.nodup cl
  have fine : ∀ {out}, RbOut w.m c x mod back w.m.alloc out → Fine w (.modifyRb i x mod back e e') (w.put i out) := by
    rintro out (⟨c', rfl, k⟩ | ⟨c', rfl, k⟩ | ⟨c', v, p, rfl | rfl, k⟩)
    · exact .ok ⟨rfl, c, c', hi, rfl, ⟨k.hd, k.specs⟩, Or.inl ⟨rfl, rfl, rfl, k.perm⟩⟩ (any_same_post (m' := w.m.assign x _) I hi k rfl rfl (.refl _)) (edited rfl _)
    · exact .ok ⟨rfl, c, c', hi, rfl, ⟨k.hd, k.specs⟩, Or.inr (Or.inl ⟨rfl, rfl, rfl, k.perm⟩)⟩ (any_same_post (m' := w.m.assign x _) I hi k rfl rfl (.refl _)) (edited rfl _)
    · exact .ok ⟨rfl, c, c', hi, rfl, ⟨k.hd, k.specs⟩, Or.inr (Or.inr ⟨rfl, k.perm⟩)⟩ (any_gone_post I hi hx k) (edited rfl _)
    · exact .threw ⟨rfl, c, c', hi, rfl, ⟨k.hd, k.specs⟩, Or.inr (Or.inr ⟨rfl, k.perm⟩)⟩ (any_gone_post I hi hx k) (edited rfl _)
  simp only [World.stepR, hi]
  refine ⟨k1.then ?_, k2.then fun out h => fine h⟩
  rintro out (h | rfl)
  · exact Or.inl (fine h)
  · exact Or.inr rfl

/-- Only index `k` has changed. -/
theorem seqs_other {c : Container V} {L' : Layer V} {k j : Nat} (ne : j ≠ k) : ({ c with ls := c.ls.set k L' } : Container V).seqs[j]? = c.seqs[j]? := by
  simp only [Container.seqs, List.getElem?_map, List.getElem?_set_ne (Ne.symm ne)]
  rfl

theorem fine_op_rehash {k n : Nat} {e : Env} (I : AnyInv w) (l : w.Legal (.rehash i k n e)) :
    (w.stepR (.rehash i k n e)).Always (Fine w (.rehash i k n e)) := by
  obtain ⟨c, L, hi, hL, le⟩ := l
  obtain ⟨hc, s, cl, sa, sc, z0, h0⟩ := I.facts hi
  obtain ⟨xs, g1, g2, g3⟩ := held_get s hL
  simp only [World.stepR, hi, hL]
  refine (Layer.rehashR_any g2 (by rw [g3.length_eq, s.count]) le (fun z hz => sa z (g3.mem_iff.1 hz)) (clear_get cl hL)).then ?_
  rintro out ⟨L', xs', h1, h2, h3, h4, h5⟩
  have b := turned_set (pool := w.m.alloc) s cl hL h2 h4 (h5.trans g3) h3
  rcases h1 with rfl | rfl
  · exact .ok ⟨rfl, c, _, hi, rfl, ⟨b.hd, b.specs⟩, b.perm, fun j ne => seqs_other ne⟩ (any_same_post (m' := w.m) I hi b rfl rfl (.refl _))
  · exact .threw ⟨rfl, c, _, hi, rfl, ⟨b.hd, b.specs⟩, b.perm, fun j ne => seqs_other ne⟩ (any_same_post (m' := w.m) I hi b rfl rfl (.refl _))

/-! ## Operations that call no function of an index -/

theorem fine_op_new {hd z : Id} {is : List (Init V)} (I : AnyInv w) (l : w.WildLegal (.new hd z is)) : Fine w (.new hd z is) (w.step (.new hd z is)) := by
  obtain ⟨hf, ne, ok⟩ := l
  have a : All hd [] (is.map (·.layer hd z)) ∧ Clear (hd :: w.m.alloc) (is.map (·.layer hd z)) := by
    have each : ∀ a ∈ is, (a.layer hd z).Held hd [] ∧ ∀ y ∈ hd :: w.m.alloc, (a.layer hd z).Avoids y := by
      intro a ha
      have k := ok a ha
      refine layer_new_any hf.1 ?_ ?_
      · cases a with
        | hash => exact k.1
        | ord => trivial
        | seq => trivial
        | rnd => trivial
      · rintro c eq hf' pol n base rfl
        exact k.2
    constructor
    · intro L hL
      obtain ⟨a, ha, rfl⟩ := List.mem_map.1 hL
      exact ⟨[], (each a ha).1, .refl _⟩
    · intro y hy L hL
      obtain ⟨a, ha, rfl⟩ := List.mem_map.1 hL
      exact (each a ha).2 y hy
  obtain ⟨s, e⟩ := intact_intro (c := Container.new hd z is) (els := []) (by simpa [Container.new] using ne) rfl a.1
  have e := List.perm_nil.1 e
  refine .ok ⟨rfl, rfl, _, rfl, rfl, e⟩ ?_
  have := any_add (m' := w.m.allocate hd) (c' := Container.new hd z is) I s s.nodup (by rw [e]; intro n hn; rw [List.mem_singleton.1 hn]; exact hf) (by rw [e]; rfl) (by rw [e]; rfl)
    (by rw [e]; exact a.2)
  exact this

theorem fine_op_extract {x : Id} (I : AnyInv w) (l : w.Legal (.extract i x)) : Fine w (.extract i x) (w.step (.extract i x)) := by
  obtain ⟨c, hi, hx⟩ := l
  obtain ⟨hc, s, cl, sa, sc, z0, h0⟩ := I.facts hi
  obtain ⟨c', k1, k2⟩ := extract_any (m := w.m) s hx (sa x hx) cl
  simp only [World.step, hi, k1]
  refine .ok ⟨rfl, rfl, c, c', hi, rfl, ⟨k2.hd, k2.specs⟩, k2.perm⟩ ?_
  refine any_put I hi k2 (fun _ h => Or.inl h) ?_ ?_ I.nodup
  all_goals
    intro z
    have h2 := count_erase_add hx z
    rw [handled_append]
    simp only [Option.toList]
    omega

theorem fine_op_drop {h : Nat} (I : AnyInv w) (l : w.Legal (.dropHandle h)) : Fine w (.dropHandle h) (w.step (.dropHandle h)) := by
  obtain ⟨nh, hn⟩ := get_of_lt l
  obtain ⟨m', k1, k3, k4, k5, k6, k7⟩ := delete_handle_any (nh' := none) I hn
  simp only [World.step, hn, k1]
  refine .ok ⟨rfl, rfl, rfl⟩ (any_free (m' := m') I k3 ?_ ?_ k6) fun z _ _ => congrFun k7 z
  · intro z
    have h2 := handled_at z hn none
    have := k4 z
    simp only [Option.toList_none, List.count_nil] at h2
    omega
  · intro z
    have h2 := handled_at z hn none
    have := k5 z
    simp only [Option.toList_none, List.count_nil] at h2
    omega

theorem fine_op_move {h g : Nat} (I : AnyInv w) (l : w.Legal (.moveHandle h g)) : Fine w (.moveHandle h g) (w.step (.moveHandle h g)) := by
  obtain ⟨nh, hn⟩ := get_of_lt l.1
  obtain ⟨ng, hg⟩ := get_of_lt l.2
  by_cases e : h = g
  · simp only [World.step, hn, hg, if_pos e]
    exact .ok ⟨rfl, rfl, ng, hg, by rw [if_pos e]⟩ I
  · obtain ⟨m', k1, k3, k4, k5, k6, k7⟩ := delete_handle_any (nh' := none) I hn
    have hg' : (w.hs.set h ng)[g]? = some ng := by rw [List.getElem?_set_ne e]; exact hg
    simp only [World.step, hn, hg, if_neg e, k1]
    refine .ok ⟨rfl, rfl, ng, hg, by rw [if_neg e]⟩ (any_free (m' := m') I k3 ?_ ?_ k6) fun z _ _ => congrFun k7 z
    · intro z
      have h2 := handled_at z hn ng
      have h3 := handled_at z hg' none
      have := k4 z
      simp only [Option.toList_none, List.count_nil] at h3
      omega
    · intro z
      have h2 := handled_at z hn ng
      have h3 := handled_at z hg' none
      have := k5 z
      simp only [Option.toList_none, List.count_nil] at h3
      omega

theorem fine_op_swapHandles {h g : Nat} (I : AnyInv w) (l : w.Legal (.swapHandles h g)) : Fine w (.swapHandles h g) (w.step (.swapHandles h g)) := by
  obtain ⟨nh, hn⟩ := get_of_lt l.1
  obtain ⟨ng, hg⟩ := get_of_lt l.2
  simp only [World.step, hn, hg]
  refine .ok ⟨rfl, rfl, nh, ng, hn, hg, rfl⟩ (any_handles I (List.perm_iff_count.2 fun z => ?_))
  by_cases e : h = g
  · subst e
    obtain rfl : nh = ng := by rw [hn] at hg; exact Option.some.inj hg
    rw [set_same hn, set_same hn]
  · have hg' : (w.hs.set h ng)[g]? = some ng := by rw [List.getElem?_set_ne e]; exact hg
    have h2 := handled_at z hn ng
    have h3 := handled_at z hg' nh
    omega

theorem fine_op_erase {x : Id} (I : AnyInv w) (l : w.Legal (.erase i x)) : Fine w (.erase i x) (w.step (.erase i x)) := by
  obtain ⟨c, hi, hx⟩ := l
  obtain ⟨hc, s, cl, sa, sc, z0, h0⟩ := I.facts hi
  obtain ⟨c', k1, k2⟩ := erase_any (m := w.m) s hx (sa x hx) (sc x hx) cl
  simp only [World.step, hi, k1, World.put]
  refine .ok ⟨rfl, rfl, c, c', hi, rfl, ⟨k2.hd, k2.specs⟩, k2.perm⟩ ?_
  rw [← gone_self]
  exact any_gone_post I hi hx k2

theorem fine_op_clear (I : AnyInv w) (l : w.Legal (.clear i)) : Fine w (.clear i) (w.step (.clear i)) := by
  obtain ⟨c, hi⟩ := get_of_lt l
  obtain ⟨hc, s, cl, sa, sc, z0, h0⟩ := I.facts hi
  obtain ⟨e1, e2⟩ := elems_le_any I hi
  obtain ⟨m', c', k1, k2, k3, k4, k5⟩ := clear_any s h0 e1 e2 cl
  have sub : ∀ z ∈ m'.alloc, z ∈ w.m.alloc := by
    intro z hz
    rw [k3] at hz
    exact (List.diff_sublist _ _).subset hz
  simp only [World.step, hi, k1, World.put]
  refine .ok ⟨rfl, rfl, c, c', hi, rfl, ⟨k5.hd, k5.specs⟩, List.perm_nil.1 k5.perm⟩ ?_ fun z _ _ => congrFun k2 z
  refine any_put (m' := m') I hi (k5.mono sub) (fun z hz => Or.inl (sub z hz)) ?_ ?_ ?_
  · intro z
    have := count_diff_add (e1 z)
    rw [k3, List.count_nil]
    omega
  · intro z
    have := count_diff_add (e2 z)
    rw [k4, List.count_nil]
    omega
  · rw [k3]; exact I.nodup.sublist (List.diff_sublist _ _)

theorem fine_op_destroy (I : AnyInv w) (l : w.Legal (.destroy i)) : Fine w (.destroy i) (w.step (.destroy i)) := by
  obtain ⟨c, hi⟩ := get_of_lt l
  obtain ⟨hc, s, cl, sa, sc, z0, h0⟩ := I.facts hi
  obtain ⟨e1, e2⟩ := elems_le_any I hi
  obtain ⟨m', k1, k2, k3, k4⟩ := deleteAll_any s e1 e2
  have hcount : ∀ z, w.m.alloc.count z = [c.hd].count z + c.elems.count z + ((w.cs.eraseIdx i).flatMap (fun c => c.hd :: c.elems)).count z + (handled w.hs).count z := by
    intro z
    have := I.count_alloc z
    rw [flatMap_at (fun c : Container V => c.hd :: c.elems) z hi, List.count_cons] at this
    rw [List.count_singleton]
    omega
  have hd : c.hd ∈ m'.alloc := by
    apply List.count_pos_iff.1
    have := count_diff_add (e1 c.hd)
    have h2 := hcount c.hd
    rw [k3]
    simp only [List.count_singleton, beq_self_eq_true, if_true] at h2
    omega
  simp only [World.step, hi, k1, Mem.deallocate, hd, if_true]
  refine .ok ⟨rfl, rfl, rfl⟩ ?_ fun z _ _ => congrFun k2 z
  have rest : ∀ d ∈ w.cs.eraseIdx i, d ∈ w.cs := fun d hd => (List.eraseIdx_sublist _ _).subset hd
  have sub : ∀ z ∈ m'.alloc.erase c.hd, z ∈ w.m.alloc := by
    intro z hz
    have := List.mem_of_mem_erase hz
    rw [k3] at this
    exact (List.diff_sublist _ _).subset this
  refine ⟨fun d hd => I.intact d (rest d hd), fun d hd z hz => I.clear d (rest d hd) z (sub z hz), ?_, ?_, ?_, fun h => I.nz (sub 0 h)⟩
  · refine List.perm_iff_count.2 fun z => ?_
    have h1 := hcount z
    have h2 := count_erase_add hd z
    have h3 := count_diff_add (e1 z)
    rw [k3] at h2
    simp only [List.count_append, k3]
    omega
  · refine List.perm_iff_count.2 fun z => ?_
    have h1 := I.count_cons z
    rw [flatMap_at (fun c : Container V => c.elems) z hi] at h1
    have h3 := count_diff_add (e2 z)
    simp only [List.count_append, k4] at h1 ⊢
    omega
  · show (m'.alloc.erase c.hd).Nodup
    rw [k3]; exact (I.nodup.sublist (List.diff_sublist _ _)).erase _

theorem fine_op_swap {j : Nat} (I : AnyInv w) (l : w.Legal (.swap i j)) : Fine w (.swap i j) (w.step (.swap i j)) := by
  obtain ⟨c, d, hi, hj, k⟩ := l
  simp only [World.step, hi, hj, swap_spec k]
  exact .ok ⟨rfl, rfl, c, d, hi, hj, rfl⟩ (any_exchange I hi hj)

theorem fine_op_swapElements {j : Nat} (I : AnyInv w) (l : w.Legal (.swapElements i j)) : Fine w (.swapElements i j) (w.step (.swapElements i j)) := by
  obtain ⟨c, d, hi, hj, k⟩ := l
  simp only [World.step, hi, hj, swapElements_spec k]
  exact .ok ⟨rfl, rfl, c, d, hi, hj, rfl⟩ (any_exchange I hi hj)

theorem fine_op_copy {hd z : Id} {ns : List Id} {e : Nat → Env} {F : CopyFault} (I : AnyInv w) (l : w.Legal (.copy i hd z ns e F)) :
    Fine w (.copy i hd z ns e F) (w.step (.copy i hd z ns e F)) := by
  obtain ⟨c, hi, hn, nd, fr, env⟩ := l
  obtain ⟨hc, s, cl, sa, sc, z0, h0⟩ := I.facts hi
  have old : ∀ {m' : Mem V} {cs : List (Container V)}, (∀ y, y ∉ ns → m'.val y = w.m.val y) → w.Untouched ⟨m', cs, w.hs⟩ (.copy i hd z ns e F) :=
    fun h y hy _ => h y fun k => (fr y (by simp [k])).2.1 (I.cons_alloc hy)
  rcases copy_any (m := w.m) (z := z) (F := F) s (by simp only [List.mem_cons, not_or]; exact ⟨h0.symm, z0⟩) hn nd
      (fun k => (fr 0 k).1 rfl) (fun n h k => (fr n h).2.1 (sa n k)) env with
    ⟨m', c', k1, k2, k3, k5, k6, k7, k9, k8, k10⟩ | ⟨m', k1, k2, k3, k10⟩
  · simp only [World.step, hi, k1, World.add, Option.toList_some]
    refine .ok ⟨rfl, ?_⟩ (any_add I k5 (by rw [k6, k7]; exact nd) (by rw [k6, k7]; exact fr) (by rw [k2, k6, k7]) (by rw [k3, k7]) (by rw [k6, k7]; exact k8)) (old k10)
    simp only [Bool.false_eq_true, if_false]
    exact ⟨c, c', hi, rfl, k6, k7, k9⟩
  · simp only [World.step, hi, k1, World.add, Option.toList_none, List.append_nil]
    exact .threw ⟨rfl, rfl⟩ (any_none I k2 k3) (old k10)

theorem blanks_any {pol : Pol} {hd z : Id} (h0 : hd ≠ 0) : ∀ {e : Nat → Env} {Ls : List (Layer V)}, (∀ L ∈ Ls, L.Sturdy) → BlankAll (hd :: w.m.alloc) e Ls →
    All hd [] ((blanks pol e Ls).map (·.layer hd z)) ∧ Clear (hd :: w.m.alloc) ((blanks pol e Ls).map (·.layer hd z))
  | _, [], _, _ => ⟨.nil, .nil⟩
  | e, L :: Ls, st, b => by
    obtain ⟨k1, k2⟩ := blanks_any (pol := pol) (z := z) h0 (e := fun i => e (i + 1)) (Ls := Ls) (fun M hM => st M (by simp [hM])) b.2
    have : ((L.blank pol (e 0)).layer hd z).Held hd [] ∧ ∀ y ∈ hd :: w.m.alloc, ((L.blank pol (e 0)).layer hd z).Avoids y := by
      refine layer_new_any h0 ((Layer.sturdy_spec (blank_spec L)).2 (st L (by simp))) ?_
      intro c eq hf p n base hh
      cases L with
      | hash => simp only [Layer.blank, Init.hash.injEq] at hh; obtain ⟨-, -, -, -, rfl, rfl⟩ := hh; exact b.1
      | ord => exact nomatch hh
      | seq => exact nomatch hh
      | rnd => exact nomatch hh
    exact ⟨.cons this.1 (.refl _) k1, .cons this.2 k2⟩

theorem fine_op_newLike {hd z : Id} {pol : Pol} {e : Nat → Env} {F : CopyFault} (I : AnyInv w) (l : w.Legal (.newLike i hd z pol e F)) :
    Fine w (.newLike i hd z pol e F) (w.step (.newLike i hd z pol e F)) := by
  obtain ⟨c, hi, fr, env⟩ := l
  obtain ⟨hc, s, cl, sa, sc, z0, h0⟩ := I.facts hi
  obtain ⟨a1, a2⟩ := blanks_any (pol := pol) (z := z) fr.1 (fun L hL => (s.all L hL).choose_spec.1.1) env
  obtain ⟨k1, k2⟩ := intact_intro (c := c.blank hd z pol e) (els := []) (specs_ne blanks_specs s.ne) rfl a1
  have k2 := List.perm_nil.1 k2
  by_cases f1 : F.header = true
  · have k : c.newLike w.m hd z pol e F = .threw (w.m, none) := by
      unfold Container.newLike
      rw [if_pos f1]
    simp only [World.step, hi, k, World.add, Option.toList_none, List.append_nil]
    exact .threw ⟨rfl, rfl⟩ I
  · by_cases f2 : F.index = true
    · have k : c.newLike w.m hd z pol e F = .threw (w.m, none) := by
        unfold Container.newLike
        rw [if_neg f1]
        simp [f2, dropHeader, Mem.deallocate, Mem.allocate]
      simp only [World.step, hi, k, World.add, Option.toList_none, List.append_nil]
      exact .threw ⟨rfl, rfl⟩ I
    · have k : c.newLike w.m hd z pol e F = .ok (w.m.allocate hd, some (c.blank hd z pol e)) := by
        unfold Container.newLike
        rw [if_neg f1]
        simp only [f2, if_false]
        rfl
      simp only [World.step, hi, k, World.add, Option.toList_some]
      refine .ok ⟨rfl, ?_⟩ ?_
      · simp only [Bool.false_eq_true, if_false]
        exact ⟨_, rfl, rfl, k2⟩
      · refine any_add (m' := w.m.allocate hd) I k1 k1.nodup ?_ ?_ ?_ ?_
        · rw [k2]; intro n hn; rw [List.mem_singleton.1 hn]; exact fr
        · rw [k2]; rfl
        · rw [k2]; rfl
        · rw [k2]; exact a2

theorem fine_op_relocate {k : Nat} {pos x : Id} (I : AnyInv w) (l : w.Legal (.relocate i k pos x)) : Fine w (.relocate i k pos x) (w.step (.relocate i k pos x)) := by
  obtain ⟨c, L, hi, hL, kd, hx, hp⟩ := l
  obtain ⟨hc, s, cl, sa, sc, z0, h0⟩ := I.facts hi
  obtain ⟨xs, g1, g2, g3⟩ := held_get s hL
  obtain ⟨L', xs', k1, k2, k3, k4, k5⟩ := relocate_spec (pos := pos) (val := w.m.val) kd ((Layer.held_holds kd).1 g2) (g3.mem_iff.2 hx)
    (by simp only [List.mem_cons] at hp ⊢; exact hp.imp id g3.mem_iff.2)
  have av : ∀ z ∈ w.m.alloc, L'.Avoids z := by
    intro z _
    cases L with
    | seq h => obtain rfl := Option.some.inj k1; trivial
    | rnd h => obtain rfl := Option.some.inj k1; trivial
    | ord => exact nomatch kd
    | hash => exact nomatch kd
  have b := turned_set (pool := w.m.alloc) s cl hL k2 ((Layer.held_holds ((Layer.keyed_spec k2).trans kd)).2 k3) (k4.trans g3) av
  simp only [World.step, hi, hL, k1]
  exact .ok ⟨rfl, c, _, hi, rfl, ⟨b.hd, b.specs⟩, b.perm, fun j ne => seqs_other ne⟩ (any_same_post (m' := w.m) I hi b rfl rfl (.refl _))

theorem fine_op_rearrange {k : Nat} {a : Rearr V} (I : AnyInv w) (l : w.Legal (.rearrange i k a)) : Fine w (.rearrange i k a) (w.step (.rearrange i k a)) := by
  obtain ⟨c, L, xs, hi, hL, kd, hxs, ok⟩ := l
  obtain ⟨hc, s, cl, sa, sc, z0, h0⟩ := I.facts hi
  obtain ⟨ys, g1, g2, g3⟩ := held_get s hL
  obtain rfl := Option.some.inj (hxs.symm.trans g1)
  obtain ⟨L', xs', k1, k2, k3, k4, k5⟩ := rearrange_spec (n := c.budget) (val := w.m.val) kd ((Layer.held_holds kd).1 g2) ok
    (by rw [g3.length_eq, Container.budget, s.count]; omega) (fun h => z0 (g3.mem_iff.1 h))
  have b := turned_set (pool := w.m.alloc) s cl hL k1 ((Layer.held_holds ((Layer.keyed_spec k1).trans kd)).2 k2) (k3.trans g3) (fun z _ => k4 z)
  rcases k5 with ⟨k5, -⟩ | ⟨k5, -⟩
  · simp only [World.step, hi, hL, k5]
    exact .ok ⟨rfl, c, _, hi, rfl, ⟨b.hd, b.specs⟩, b.perm, fun j ne => seqs_other ne⟩ (any_same_post (m' := w.m) I hi b rfl rfl (.refl _))
  · simp only [World.step, hi, hL, k5]
    exact .threw ⟨rfl, c, _, hi, rfl, ⟨b.hd, b.specs⟩, b.perm, fun j ne => seqs_other ne⟩ (any_same_post (m' := w.m) I hi b rfl rfl (.refl _))

theorem place_any {L : Layer V} {val : Id → V} {hd : Id} {xs : List Id} {n k : Nat} {fail : Bool} {ins : List (Option Id × Id)} (w : L.Held hd xs)
    (hi : ∀ i ∈ ins, i.2 ∈ xs ∧ ∀ q ∈ i.1, q ∈ xs ∧ q ≠ i.2) (hn : xs.length + 3 ≤ n) (hl : 2 * Nat.log2 (xs.length + 1) + 2 ≤ n) :
    (L.placeR k n hd val fail ins).Always fun r => ∃ L' xs', L'.spec = L.spec ∧ L'.Held hd xs' ∧ xs'.Perm xs ∧ (∀ z, L.Avoids z → L'.Avoids z) ∧ (r = .ok L' ∨ r = .threw L') := by
  have other : L.keyed = false → L.spec.Ok → ∃ L' xs', L'.spec = L.spec ∧ L'.Held hd xs' ∧ xs'.Perm xs ∧ (∀ z, L.Avoids z → L'.Avoids z) ∧
      (L.place n hd val fail ins = .ok L' ∨ L.place n hd val fail ins = .threw L') := by
    intro kd ok
    obtain ⟨L', xs', k1, k2, k3, k4, k5⟩ := place_spec (val := val) (fail := fail) ok ((Layer.held_holds kd).1 w) hi hn hl
    exact ⟨L', xs', k1, (Layer.held_holds ((Layer.keyed_spec k1).trans kd)).2 k2, k3, k4, k5.imp (·.1) (·.1)⟩
  cases L with
  | ord u lt h =>
    cases u with
    | true => exact ⟨_, xs, rfl, w, .refl _, fun _ h => h, Or.inl rfl⟩
    | false =>
      refine Runs.Always.then (ordPlaceR_any (k := k) (val := val) ins (Layer.held_ord.1 w) (fun i h => ⟨(hi i h).1, fun q hq => ((hi i h).2 q hq).1⟩) hn) ?_
      rintro _ ⟨h', xs', k1, k2, rfl | rfl⟩
      · exact ⟨.ord false lt h', xs', rfl, Layer.held_ord.2 k1, k2, fun _ h => h, Or.inl rfl⟩
      · exact ⟨.ord false lt h', xs', rfl, Layer.held_ord.2 k1, k2, fun _ h => h, Or.inr rfl⟩
  | hash => exact ⟨_, xs, rfl, w, .refl _, fun _ h => h, Or.inl rfl⟩
  | seq h => exact other rfl trivial
  | rnd s => exact other rfl trivial

theorem fine_place {k : Nat} {fail : Bool} {ins : List (Option Id × Id)} (I : AnyInv w) (l : w.Legal (.place i k fail ins)) :
    (w.placeR i k fail ins).Always (Fine w (.place i k fail ins)) := by
  obtain ⟨c, L, hi, hL, ok⟩ := l
  obtain ⟨hc, s, cl, sa, sc, z0, h0⟩ := I.facts hi
  obtain ⟨xs, g1, g2, g3⟩ := held_get s hL
  simp only [World.placeR, hi, hL]
  have hb : c.budget = xs.length + 4 := by rw [g3.length_eq, Container.budget, s.count]
  refine Runs.Always.then (place_any (val := w.m.val) g2 (fun a ha => ⟨g3.mem_iff.2 (ok a ha).1, fun q hq => ⟨g3.mem_iff.2 ((ok a ha).2 q hq).1, ((ok a ha).2 q hq).2⟩⟩)
    (by omega) (by rw [hb]; exact log_budget4 _)) ?_
  rintro _ ⟨L', xs', k1, k2, k3, k4, k5⟩
  have b := turned_set (pool := w.m.alloc) s cl hL k1 k2 (k3.trans g3) (fun z hz => k4 z (cl z hz L (List.mem_of_getElem? hL)))
  rcases k5 with rfl | rfl
  · exact Fine.ok ⟨rfl, c, _, hi, rfl, ⟨b.hd, b.specs⟩, b.perm, fun j ne => seqs_other ne⟩ (any_same_post (m' := w.m) I hi b rfl rfl (.refl _))
  · exact Fine.threw ⟨rfl, c, _, hi, rfl, ⟨b.hd, b.specs⟩, b.perm, fun j ne => seqs_other ne⟩ (any_same_post (m' := w.m) I hi b rfl rfl (.refl _))

/-- Every operation but `modify` with a rollback function. -/
theorem step_any (I : AnyInv w) : ∀ {o : Op V}, w.WildLegal o → o.rollsBack = false → (w.stepR o).Always (Fine w o)
  | .new .., l, _ => fine_op_new I l
  | .insert .., l, _ => fine_op_insert I l
  | .emplace .., l, _ => fine_op_emplace I l
  | .extract .., l, _ => fine_op_extract I l
  | .insertNh .., l, _ => fine_op_insertNh I l
  | .newHandle, _, _ => Fine.ok ⟨rfl, rfl, rfl⟩ (any_handles I (by simp [handled]))
  | .dropHandle .., l, _ => fine_op_drop I l
  | .moveHandle .., l, _ => fine_op_move I l
  | .swapHandles .., l, _ => fine_op_swapHandles I l
  | .erase .., l, _ => fine_op_erase I l
  | .clear .., l, _ => fine_op_clear I l
  | .destroy .., l, _ => fine_op_destroy I l
  | .replace .., l, _ => fine_op_replace I l
  | .modify .., l, _ => fine_op_modify I l
  | .modifyRb .., _, h => nomatch h
  | .place .., l, _ => l.elim
  | .transfer .., l, _ => fine_op_transfer I l
  | .swap .., l, _ => fine_op_swap I l
  | .copy .., l, _ => fine_op_copy I l
  | .newLike .., l, _ => fine_op_newLike I l
  | .swapElements .., l, _ => fine_op_swapElements I l
  | .relocate .., l, _ => fine_op_relocate I l
  | .rearrange .., l, _ => fine_op_rearrange I l
  | .rehash .., l, _ => fine_op_rehash I l

/-- Every operation: it is fine if no call of a user function throws or if it is not `modify` with a rollback function; otherwise it is fine or undefined behaviour. -/
theorem step_any' (I : AnyInv w) {o : Op V} (l : w.WildLegal o) :
    (w.stepR o).Always (fun out => Fine w o out ∨ (o.rollsBack = true ∧ out = .ub)) ∧ (w.stepR o).Calm (Fine w o) := by
  by_cases h : o.rollsBack = true
  · cases o with
    | modifyRb i x mod back e e' =>
      obtain ⟨k1, k2⟩ := fine_op_modifyRb I l
      exact ⟨k1.mono fun out q => q.imp id fun q => ⟨rfl, q⟩, k2⟩
    | _ => exact nomatch h
  · have k := step_any I l (Bool.eq_false_iff.2 h)
    exact ⟨k.mono fun _ q => Or.inl q, k.calm⟩

end

theorem WildReach.inv {w : World V} (r : WildReach w) : AnyInv w := by
  induction r with
  | init val => exact any_init _ rfl rfl
  | poke val _ ih => exact any_poke ih val
  | step fate _ l h ih =>
    rcases (step_any' ih l).1.result fate with ⟨threw, w1, r1, h1, -, h2⟩ | ⟨-, h1⟩
    swap
    · rcases h with h | h <;> rw [h] at h1 <;> exact nomatch h1
    unfold Out.Of at h1
    cases threw <;> rcases h with h | h <;> rw [h] at h1 <;> simp only [Bool.false_eq_true, if_false, if_true, reduceCtorEq, Out.ok.injEq, Out.threw.injEq, Prod.mk.injEq] at h1
    · obtain ⟨rfl, -⟩ := h1; exact h2.1
    · obtain ⟨rfl, -⟩ := h1; exact h2.1
  | place fate _ l h ih =>
    obtain ⟨threw, w1, r1, h1, -, h2⟩ := (fine_place ih l).result fate
    unfold Out.Of at h1
    cases threw <;> rcases h with h | h <;> rw [h] at h1 <;> simp only [Bool.false_eq_true, if_false, if_true, reduceCtorEq, Out.ok.injEq, Out.threw.injEq, Prod.mk.injEq] at h1
    · obtain ⟨rfl, -⟩ := h1; exact h2.1
    · obtain ⟨rfl, -⟩ := h1; exact h2.1

end MI.Cont
