import Verif.Cont.Effect
import Verif.Cont.Reach
/-!
The effect of each operation on a reachable program.
-/
set_option linter.unusedVariables false
set_option linter.unusedSimpArgs false
namespace MI.Cont
open MI
variable {V : Type} {w w' : World V} {i : Nat} {c c' : Container V}

theorem Became.onlyAt {m' : Mem V} {hs' : List (Option Id)} {val : Id → V} {els pool : List Id} (hi : w.cs[i]? = some c) (b : Became c c' val els pool) :
    OnlyAt w ⟨m', w.cs.set i c', hs'⟩ i c c' := ⟨hi, rfl, b.specs, b.hd⟩

theorem Became.count' {val : Id → V} {els pool : List Id} (b : Became c c' val els pool) : c'.count = els.length := by
  rw [b.sound.count, b.perm.length_eq]

theorem bans_nil {val : Id → V} {v : V} : c.Bans val [] v ↔ Banned (specs c.ls) val c.elems v := by
  simp [Container.Bans, Banned, Container.asked, specs]

theorem bans_sing {val : Id → V} {x : Id} {v : V} (nd : c.elems.Nodup) : c.Bans val [x] v ↔ Banned (specs c.ls) val (c.elems.erase x) v := by
  unfold Container.Bans Banned Container.asked specs
  constructor
  · rintro ⟨S, h1, h2, y, h3, h4, h5⟩
    exact ⟨S, h1, h2, y, (List.mem_erase_of_ne (by simpa using h4)).2 h3, h5⟩
  · rintro ⟨S, h1, h2, y, h3, h5⟩
    refine ⟨S, h1, h2, y, List.mem_of_mem_erase h3, ?_, h5⟩
    have := (nd.mem_erase_iff.1 h3).1
    simpa using this

theorem Inv.cons_sub (I : Inv w) {z : Id} (h : z ∈ w.m.cons) : z ∈ w.m.alloc := by
  have := I.cons_le z
  have := List.count_pos_iff.2 h
  exact List.count_pos_iff.1 (by omega)

theorem Inv.cons_nodup (I : Inv w) : w.m.cons.Nodup := by
  refine List.nodup_iff_count_le_one.2 fun z => ?_
  have := I.cons_le z
  have := I.le_one z
  omega

/-- `insert`. -/
theorem eff_insert {v : V} {x : Id} {f : Fault} {hint : Option Id} {e : Nat → Env} (I : Inv w) (l : w.Legal (.insert i v x f hint e)) :
    (∃ w', w.step (.insert i v x f hint e) = .ok (w', ⟨x, true⟩) ∧ Gained w w' i hint x ∧ w'.m.val x = v ∧ w'.m.alloc = x :: w.m.alloc ∧
      w'.m.cons = x :: w.m.cons ∧ w'.hs = w.hs ∧ (∀ c, w.cs[i]? = some c → ¬ c.Bans w.m.val [] v) ∧ f.alloc = false ∧ f.construct = false) ∨
    (∃ w' y, w.step (.insert i v x f hint e) = .ok (w', ⟨y, false⟩) ∧ Unchanged w w' i ∧
      ∀ c, w.cs[i]? = some c → y ∈ c.elems ∧ ∃ S ∈ c.asked, S.unique = true ∧ S.equiv v (w.m.val y) = true) ∨
    (∃ w', w.step (.insert i v x f hint e) = .threw (w', ⟨0, false⟩) ∧ Unchanged w w' i ∧ Trouble f e) := by
  obtain ⟨c, hi, hf, hh, env⟩ := l
  obtain ⟨hc, s, cl, sa, sc, z0, h0⟩ := I.facts hi
  have hx := Fresh.not_mem I hf hc
  rcases insert_spec (m := w.m) (v := v) (f := f) s hf.1 z0 hx hh (fun z hz => List.mem_cons_of_mem _ (sa z hz)) (List.mem_cons_self ..) env
    (Fresh.clear I hf hc) with ⟨c', k1, b, k2, k3, k4, k5⟩ | ⟨c', y, k1, k2, b, k3, k4⟩ | ⟨c', k1, b, k2, k3⟩
  · left
    refine ⟨⟨(w.m.allocate x).construct x v, w.cs.set i c', w.hs⟩, by simp only [World.step, hi, k1, World.put], ⟨?_, c, c', b.onlyAt hi, ?_, k2⟩, upd_same _ _ _, rfl, rfl, rfl, ?_, k4, k5⟩
    · intro z hz
      exact upd_other _ _ (by rintro rfl; exact hf.2.1 (I.cons_sub hz))
    · rw [b.count', s.count]; rfl
    · intro d hd
      obtain rfl := Option.some.inj (hi.symm.trans hd)
      rw [bans_nil]; exact k3
  · right; left
    refine ⟨⟨w.m, w.cs.set i c', w.hs⟩, y, by simp only [World.step, hi, k1, World.put], ⟨⟨rfl, rfl, fun _ _ => rfl, rfl⟩, c, c', b.onlyAt hi, ?_, k3⟩, ?_⟩
    · rw [b.count', s.count]
    · intro d hd
      obtain rfl := Option.some.inj (hi.symm.trans hd)
      exact ⟨k2, k4⟩
  · right; right
    refine ⟨⟨w.m, w.cs.set i c', w.hs⟩, by simp only [World.step, hi, k1, World.put], ⟨⟨rfl, rfl, fun _ _ => rfl, rfl⟩, c, c', b.onlyAt hi, ?_, k2⟩, ?_⟩
    · rw [b.count', s.count]
    · rcases k3 with k | k | k
      · exact Or.inr (Or.inr k)
      · exact Or.inl k
      · exact Or.inr (Or.inl k)

/-- `emplace`. -/
theorem eff_emplace {v : V} {x : Id} {f : Fault} {hint : Option Id} {e : Nat → Env} (I : Inv w) (l : w.Legal (.emplace i v x f hint e)) :
    (∃ w', w.step (.emplace i v x f hint e) = .ok (w', ⟨x, true⟩) ∧ Gained w w' i hint x ∧ w'.m.val x = v ∧ w'.m.alloc = x :: w.m.alloc ∧
      w'.m.cons = x :: w.m.cons ∧ w'.hs = w.hs ∧ (∀ c, w.cs[i]? = some c → ¬ c.Bans w.m.val [] v) ∧ f.alloc = false ∧ f.construct = false) ∨
    (∃ w' y, w.step (.emplace i v x f hint e) = .ok (w', ⟨y, false⟩) ∧ Unchanged w w' i ∧
      ∀ c, w.cs[i]? = some c → y ∈ c.elems ∧ ∃ S ∈ c.asked, S.unique = true ∧ S.equiv v (w.m.val y) = true) ∨
    (∃ w', w.step (.emplace i v x f hint e) = .threw (w', ⟨0, false⟩) ∧ Unchanged w w' i ∧ Trouble f e) := by
  obtain ⟨c, hi, hf, hh, env⟩ := l
  obtain ⟨hc, s, cl, sa, sc, z0, h0⟩ := I.facts hi
  have hx := Fresh.not_mem I hf hc
  have off : ∀ z ∈ w.m.cons, upd w.m.val x v z = w.m.val z := fun z hz => upd_other _ _ (by rintro rfl; exact hf.2.1 (I.cons_sub hz))
  rcases emplace_spec (m := w.m) (v := v) (f := f) s hf.1 hx hh (fun z hz => List.mem_cons_of_mem _ (sa z hz)) (List.mem_cons_self ..) env
    (Fresh.clear I hf hc) with ⟨c', k1, b, k2, k3, k4, k5⟩ | ⟨c', y, m', em, k1, k2, b, k3, k4⟩ | ⟨c', m', em, k1, b, k2, k3⟩
  · left
    refine ⟨⟨(w.m.allocate x).construct x v, w.cs.set i c', w.hs⟩, by simp only [World.step, hi, k1, World.put], ⟨off, c, c', b.onlyAt hi, ?_, k2⟩, upd_same _ _ _, rfl, rfl, rfl, ?_, k4, k5⟩
    · rw [b.count', s.count]; rfl
    · intro d hd
      obtain rfl := Option.some.inj (hi.symm.trans hd)
      rw [bans_nil]; exact k3
  · right; left
    subst em
    refine ⟨⟨{ w.m with val := upd w.m.val x v }, w.cs.set i c', w.hs⟩, y, by simp only [World.step, hi, k1, World.put], ⟨⟨rfl, rfl, off, rfl⟩, c, c', b.onlyAt hi, ?_, k3⟩, ?_⟩
    · rw [b.count', s.count]
    · intro d hd
      obtain rfl := Option.some.inj (hi.symm.trans hd)
      exact ⟨k2, k4⟩
  · right; right
    refine ⟨⟨m', w.cs.set i c', w.hs⟩, by simp only [World.step, hi, k1, World.put], ⟨?_, c, c', b.onlyAt hi, ?_, k2⟩, ?_⟩
    · rcases em with rfl | rfl
      · exact ⟨rfl, rfl, fun _ _ => rfl, rfl⟩
      · exact ⟨rfl, rfl, off, rfl⟩
    · rw [b.count', s.count]
    · rcases k3 with k | k | k
      · exact Or.inr (Or.inr k)
      · exact Or.inl k
      · exact Or.inr (Or.inl k)

/-- `insert(std::move(h))`, the handle not empty. -/
theorem eff_insertNh {x : Id} {h : Nat} {hint : Option Id} {e : Nat → Env} (I : Inv w) (l : w.Legal (.insertNh i h hint e)) (hh : w.hs[h]? = some (some x)) :
    (∃ w', w.step (.insertNh i h hint e) = .ok (w', ⟨x, true⟩) ∧ Gained w w' i hint x ∧ w'.m = w.m ∧ w'.hs = w.hs.set h none ∧
      (∀ c, w.cs[i]? = some c → ¬ c.Bans w.m.val [] (w.m.val x))) ∨
    (∃ w' y, w.step (.insertNh i h hint e) = .ok (w', ⟨y, false⟩) ∧ Unchanged w w' i ∧ w'.m = w.m ∧
      ∀ c, w.cs[i]? = some c → y ∈ c.elems ∧ ∃ S ∈ c.asked, S.unique = true ∧ S.equiv (w.m.val x) (w.m.val y) = true) ∨
    (∃ w', w.step (.insertNh i h hint e) = .threw (w', ⟨0, false⟩) ∧ Unchanged w w' i ∧ w'.m = w.m ∧ ∃ k, ¬ (e k).Quiet) := by
  obtain ⟨c, hi, hl, ho, env⟩ := l
  obtain ⟨hc, s, cl, sa, sc, z0, h0⟩ := I.facts hi
  have xh : x ∈ handled w.hs := List.mem_filterMap.2 ⟨some x, List.mem_of_getElem? hh, rfl⟩
  have hx : x ∉ c.hd :: c.elems := fun k => I.handle_disj hc k xh
  have xa := I.handle_alloc xh
  have same : w.hs.set h (some x) = w.hs := set_same hh
  rcases insertNh_spec (m := w.m) s (I.nz' xa) hx ho sa xa env cl with ⟨c', k1, b, k2, k3⟩ | ⟨c', y, k1, k2, b, k3, k4⟩ | ⟨c', k1, b, k2, k3⟩
  · left
    refine ⟨⟨w.m, w.cs.set i c', w.hs.set h none⟩, by simp only [World.step, hi, hh, k1], ⟨fun _ _ => rfl, c, c', b.onlyAt hi, ?_, k2⟩, rfl, rfl, ?_⟩
    · rw [b.count', s.count]; rfl
    · intro d hd
      obtain rfl := Option.some.inj (hi.symm.trans hd)
      rw [bans_nil]; exact k3
  · right; left
    refine ⟨⟨w.m, w.cs.set i c', w.hs⟩, y, by simp only [World.step, hi, hh, k1, same], ⟨⟨rfl, rfl, fun _ _ => rfl, rfl⟩, c, c', b.onlyAt hi, ?_, k3⟩, rfl, ?_⟩
    · rw [b.count', s.count]
    · intro d hd
      obtain rfl := Option.some.inj (hi.symm.trans hd)
      exact ⟨k2, k4⟩
  · right; right
    refine ⟨⟨w.m, w.cs.set i c', w.hs⟩, by simp only [World.step, hi, hh, k1, same], ⟨⟨rfl, rfl, fun _ _ => rfl, rfl⟩, c, c', b.onlyAt hi, ?_, k2⟩, rfl, k3⟩
    rw [b.count', s.count]

theorem Became.lost {m' : Mem V} {hs' : List (Option Id)} {x : Id} {val : Id → V} {pool : List Id} (I : Inv w) (hi : w.cs[i]? = some c) (hx : x ∈ c.elems)
    (b : Became c c' val (c.elems.erase x) pool) (hq : c'.seqs = c.seqs.map (·.erase x)) (hv : ∀ z, z ≠ x → m'.val z = w.m.val z) :
    Lost w ⟨m', w.cs.set i c', hs'⟩ i x := by
  refine ⟨fun z _ h => hv z h, c, c', b.onlyAt hi, hx, ?_, hq⟩
  have := List.length_pos_of_mem hx
  rw [b.count', List.length_erase_of_mem hx, (I.facts hi).2.1.count]
  omega

theorem deleted_gone {m' : Mem V} {cs' : List (Container V)} {x : Id} (I : Inv w) (h1 : m'.alloc = w.m.alloc.erase x) (h2 : m'.cons = w.m.cons.erase x) :
    Deleted w ⟨m', cs', w.hs⟩ x :=
  ⟨h1, h2, rfl, by show x ∉ m'.alloc; rw [h1]; exact fun h => (I.nodup.mem_erase_iff.1 h).1 rfl,
    by show x ∉ m'.cons; rw [h2]; exact fun h => (I.cons_nodup.mem_erase_iff.1 h).1 rfl⟩

/-- `erase(position)`. -/
theorem eff_erase {x : Id} (I : Inv w) (l : w.Legal (.erase i x)) :
    ∃ w', w.step (.erase i x) = .ok (w', ⟨0, true⟩) ∧ Lost w w' i x ∧ Deleted w w' x ∧ w'.m.val = w.m.val := by
  obtain ⟨c, hi, hx⟩ := l
  obtain ⟨hc, s, cl, sa, sc, z0, h0⟩ := I.facts hi
  obtain ⟨c', k1, b, k2⟩ := erase_spec (m := w.m) s hx (sa x hx) (sc x hx) (fun _ _ => rfl) cl
  exact ⟨⟨{ w.m with alloc := w.m.alloc.erase x, cons := w.m.cons.erase x }, w.cs.set i c', w.hs⟩, by simp only [World.step, hi, k1, World.put], b.lost I hi hx k2 (fun _ _ => rfl), deleted_gone I rfl rfl, rfl⟩

/-- `extract(position)`. -/
theorem eff_extract {x : Id} (I : Inv w) (l : w.Legal (.extract i x)) :
    ∃ w', w.step (.extract i x) = .ok (w', ⟨x, true⟩) ∧ Lost w w' i x ∧ w'.m = w.m ∧ w'.hs = w.hs ++ [some x] := by
  obtain ⟨c, hi, hx⟩ := l
  obtain ⟨hc, s, cl, sa, sc, z0, h0⟩ := I.facts hi
  obtain ⟨c', k1, b, k2⟩ := extract_spec (m := w.m) s hx (sa x hx) cl
  exact ⟨⟨w.m, w.cs.set i c', w.hs ++ [some x]⟩, by simp only [World.step, hi, k1], b.lost I hi hx k2 (fun _ _ => rfl), rfl, rfl⟩

theorem Became.identical {pool : List Id} (I : Inv w) (hi : w.cs[i]? = some c) (b : Became c c' w.m.val c.elems pool) (hq : c'.seqs = c.seqs) :
    Identical w ⟨w.m, w.cs.set i c', w.hs⟩ i := ⟨rfl, rfl, c, c', b.onlyAt hi, by rw [b.count', (I.facts hi).2.1.count], hq⟩

theorem Became.changed {pool : List Id} {x : Id} {v : V} (I : Inv w) (hi : w.cs[i]? = some c) (b : Became c c' (upd w.m.val x v) c.elems pool)
    (hm : Each (Moved (w.m.val x) (upd w.m.val x v) x) (MI.Cont.specs c.ls) c.seqs c'.seqs) : Changed w ⟨w.m.assign x v, w.cs.set i c', w.hs⟩ i x v :=
  ⟨rfl, rfl, rfl, upd_same _ _ _, fun z h => upd_other _ _ h, c, c', b.onlyAt hi, by rw [b.count', (I.facts hi).2.1.count], hm⟩

/-- `replace(position,v)`. -/
theorem eff_replace {x : Id} {v : V} {a : Bool} {e : Nat → Env} (I : Inv w) (l : w.Legal (.replace i x v a e)) :
    (∃ w', w.step (.replace i x v a e) = .ok (w', ⟨x, true⟩) ∧ Changed w w' i x v ∧ (∀ c, w.cs[i]? = some c → ¬ c.Bans w.m.val [x] v)) ∨
    (∃ w', w.step (.replace i x v a e) = .ok (w', ⟨x, false⟩) ∧ Identical w w' i ∧ (∀ c, w.cs[i]? = some c → c.Bans w.m.val [x] v)) ∨
    (∃ w', w.step (.replace i x v a e) = .threw (w', ⟨x, false⟩) ∧ Identical w w' i ∧ ((∃ k, ¬ (e k).Quiet) ∨ a = true)) := by
  obtain ⟨c, hi, hx⟩ := l
  obtain ⟨hc, s, cl, sa, sc, z0, h0⟩ := I.facts hi
  have nd := (List.nodup_cons.1 s.nodup).2
  rcases replace_spec (m := w.m) (v := v) (a := a) (e := e) s hx (I.nz' (sa x hx)) (sa x hx) cl with ⟨c', k1, b, k2, k3⟩ | ⟨c', k1, b, k2, k3⟩ | ⟨c', k1, b, k2, k3⟩
  · left
    refine ⟨_, by simp only [World.step, hi, k1, World.put]; try rfl, b.changed I hi k2, ?_⟩
    intro d hd
    obtain rfl := Option.some.inj (hi.symm.trans hd)
    rw [bans_sing nd]; exact k3
  · right; left
    refine ⟨_, by simp only [World.step, hi, k1, World.put]; try rfl, b.identical I hi k2, ?_⟩
    intro d hd
    obtain rfl := Option.some.inj (hi.symm.trans hd)
    rw [bans_sing nd]; exact k3
  · right; right
    exact ⟨_, by simp only [World.step, hi, k1, World.put]; try rfl, b.identical I hi k2, k3⟩

theorem gone_lost {x : Id} {v : V} (I : Inv w) (hi : w.cs[i]? = some c) (hx : x ∈ c.elems)
    (b : Became c c' (upd w.m.val x v) (c.elems.erase x) w.m.alloc) (hq : c'.seqs = c.seqs.map (·.erase x)) :
    Lost w ⟨w.m.gone x v, w.cs.set i c', w.hs⟩ i x ∧ Deleted w ⟨w.m.gone x v, w.cs.set i c', w.hs⟩ x :=
  ⟨b.lost I hi hx hq (fun z h => upd_other _ _ h), deleted_gone I rfl rfl⟩

/-- `modify(position,mod)`. -/
theorem eff_modify {x : Id} {mod : V → V × Bool} {e : Nat → Env} (I : Inv w) (l : w.Legal (.modify i x mod e)) :
    (∃ w', w.step (.modify i x mod e) = .ok (w', ⟨x, true⟩) ∧ Changed w w' i x (mod (w.m.val x)).1 ∧
      (∀ c, w.cs[i]? = some c → ¬ c.Bans w.m.val [x] (mod (w.m.val x)).1) ∧ (mod (w.m.val x)).2 = false) ∨
    (∃ w', w.step (.modify i x mod e) = .ok (w', ⟨x, false⟩) ∧ Lost w w' i x ∧ Deleted w w' x ∧
      (∀ c, w.cs[i]? = some c → c.Bans w.m.val [x] (mod (w.m.val x)).1) ∧ (mod (w.m.val x)).2 = false) ∨
    (∃ w' r, w.step (.modify i x mod e) = .threw (w', r) ∧ Lost w w' i x ∧ Deleted w w' x ∧ ((∃ k, ¬ (e k).Quiet) ∨ (mod (w.m.val x)).2 = true)) := by
  obtain ⟨c, hi, hx⟩ := l
  obtain ⟨hc, s, cl, sa, sc, z0, h0⟩ := I.facts hi
  have nd := (List.nodup_cons.1 s.nodup).2
  rcases modify_spec (m := w.m) (mod := mod) (e := e) s hx (I.nz' (sa x hx)) (sa x hx) (sa x hx) (sc x hx) cl with
    ⟨c', k1, b, k2, k3, k4⟩ | ⟨c', k1, b, k2, k3, k4⟩ | ⟨c', p, k1, b, k2, k3⟩
  · left
    refine ⟨_, by simp only [World.step, hi, k1, World.put]; try rfl, b.changed I hi k2, ?_, k4⟩
    intro d hd
    obtain rfl := Option.some.inj (hi.symm.trans hd)
    rw [bans_sing nd]; exact k3
  · right; left
    obtain ⟨j1, j2⟩ := gone_lost I hi hx b k2
    refine ⟨_, by simp only [World.step, hi, k1, World.put]; try rfl, j1, j2, ?_, k4⟩
    intro d hd
    obtain rfl := Option.some.inj (hi.symm.trans hd)
    rw [bans_sing nd]; exact k3
  · right; right
    obtain ⟨j1, j2⟩ := gone_lost I hi hx b k2
    exact ⟨_, _, by simp only [World.step, hi, k1, World.put]; try rfl, j1, j2, k3⟩

/-- `modify(position,mod,back)`. -/
theorem eff_modifyRb_all {x : Id} {mod back : V → V × Bool} {e e' : Nat → Env} (I : Inv w) (hi : w.cs[i]? = some c) (hx : x ∈ c.elems) :
    (∃ w', w.step (.modifyRb i x mod back e e') = .ok (w', ⟨x, true⟩) ∧ Changed w w' i x (mod (w.m.val x)).1 ∧
      (∀ c, w.cs[i]? = some c → ¬ c.Bans w.m.val [x] (mod (w.m.val x)).1) ∧ (mod (w.m.val x)).2 = false) ∨
    (∃ w', w.step (.modifyRb i x mod back e e') = .ok (w', ⟨x, false⟩) ∧ w'.m = w.m.assign x (back (mod (w.m.val x)).1).1 ∧ w'.hs = w.hs ∧
      (∃ c c', OnlyAt w w' i c c' ∧ c'.count = c.count ∧ c'.seqs = c.seqs) ∧
      (∀ c, w.cs[i]? = some c → c.Bans w.m.val [x] (mod (w.m.val x)).1) ∧ (mod (w.m.val x)).2 = false) ∨
    (∃ w', w.step (.modifyRb i x mod back e e') = .ok (w', ⟨0, false⟩) ∧ Lost w w' i x ∧ Deleted w w' x ∧
      (∀ c, w.cs[i]? = some c → c.Bans w.m.val [x] (mod (w.m.val x)).1 ∧ ¬ Restores c.asked mod back (w.m.val x)) ∧ (mod (w.m.val x)).2 = false) ∨
    (∃ w' r, w.step (.modifyRb i x mod back e e') = .threw (w', r) ∧ Lost w w' i x ∧ Deleted w w' x ∧
      ((∃ k, ¬ (e k).Quiet) ∨ (∃ k, ¬ (e' k).Quiet) ∨ (mod (w.m.val x)).2 = true ∨ (back (mod (w.m.val x)).1).2 = true)) ∨
    (w.step (.modifyRb i x mod back e e') = .ub ∧ (∃ k, ¬ (e k).Quiet) ∧ ¬ Restores c.asked mod back (w.m.val x) ∧ (mod (w.m.val x)).2 = false ∧
      (back (mod (w.m.val x)).1).2 = false) := by
  obtain ⟨hc, s, cl, sa, sc, z0, h0⟩ := I.facts hi
  have nd := (List.nodup_cons.1 s.nodup).2
  rcases modifyRb_all (m := w.m) (mod := mod) (back := back) (e := e) (e' := e') s hx (I.nz' (sa x hx)) (sa x hx) (sa x hx) (sc x hx) cl I.nodup with
    ⟨c', k1, b, k2, k3, k4⟩ | ⟨c', k1, b, k2, k3, k4⟩ | ⟨c', k1, b, k2, k3, k4, k5⟩ | ⟨c', v', k1, b, k2, k3⟩ | ⟨k1, k2⟩
  · left
    refine ⟨_, by simp only [World.step, hi, k1, World.put]; try rfl, b.changed I hi k2, ?_, k4⟩
    intro d hd
    obtain rfl := Option.some.inj (hi.symm.trans hd)
    rw [bans_sing nd]; exact k3
  · right; left
    refine ⟨⟨w.m.assign x (back (mod (w.m.val x)).1).1, w.cs.set i c', w.hs⟩, by simp only [World.step, hi, k1, World.put]; try rfl, rfl, rfl, ⟨c, c', b.onlyAt hi, by rw [b.count', s.count], k2⟩, ?_, k4⟩
    intro d hd
    obtain rfl := Option.some.inj (hi.symm.trans hd)
    rw [bans_sing nd]; exact k3
  · right; right; left
    obtain ⟨j1, j2⟩ := gone_lost I hi hx b k2
    refine ⟨_, by simp only [World.step, hi, k1, World.put]; try rfl, j1, j2, ?_, k4⟩
    intro d hd
    obtain rfl := Option.some.inj (hi.symm.trans hd)
    rw [bans_sing nd]; exact ⟨k3, k5⟩
  · right; right; right; left
    obtain ⟨j1, j2⟩ := gone_lost I hi hx b k2
    exact ⟨_, _, by simp only [World.step, hi, k1, World.put]; try rfl, j1, j2, k3⟩
  · right; right; right; right
    exact ⟨by simp only [World.step, hi, k1, World.put], k2⟩

theorem eff_modifyRb {x : Id} {mod back : V → V × Bool} {e e' : Nat → Env} (I : Inv w) (l : w.Legal (.modifyRb i x mod back e e')) :
    (∃ w', w.step (.modifyRb i x mod back e e') = .ok (w', ⟨x, true⟩) ∧ Changed w w' i x (mod (w.m.val x)).1 ∧
      (∀ c, w.cs[i]? = some c → ¬ c.Bans w.m.val [x] (mod (w.m.val x)).1) ∧ (mod (w.m.val x)).2 = false) ∨
    (∃ w', w.step (.modifyRb i x mod back e e') = .ok (w', ⟨x, false⟩) ∧ w'.m = w.m.assign x (back (mod (w.m.val x)).1).1 ∧ w'.hs = w.hs ∧
      (∃ c c', OnlyAt w w' i c c' ∧ c'.count = c.count ∧ c'.seqs = c.seqs) ∧
      (∀ c, w.cs[i]? = some c → c.Bans w.m.val [x] (mod (w.m.val x)).1) ∧ (mod (w.m.val x)).2 = false) ∨
    (∃ w', w.step (.modifyRb i x mod back e e') = .ok (w', ⟨0, false⟩) ∧ Lost w w' i x ∧ Deleted w w' x ∧
      (∀ c, w.cs[i]? = some c → c.Bans w.m.val [x] (mod (w.m.val x)).1 ∧ ¬ Restores c.asked mod back (w.m.val x)) ∧ (mod (w.m.val x)).2 = false) ∨
    (∃ w' r, w.step (.modifyRb i x mod back e e') = .threw (w', r) ∧ Lost w w' i x ∧ Deleted w w' x ∧
      ((∃ k, ¬ (e k).Quiet) ∨ (∃ k, ¬ (e' k).Quiet) ∨ (mod (w.m.val x)).2 = true ∨ (back (mod (w.m.val x)).1).2 = true)) := by
  obtain ⟨c, hi, hx, hyp⟩ := l
  rcases eff_modifyRb_all (mod := mod) (back := back) (e := e) (e' := e') I hi hx with h | h | h | h | ⟨-, ⟨k, hk⟩, hr, -⟩
  · exact Or.inl h
  · exact Or.inr (Or.inl h)
  · exact Or.inr (Or.inr (Or.inl h))
  · exact Or.inr (Or.inr (Or.inr h))
  · rcases hyp with h | h
    · exact absurd h hr
    · exact absurd (h k) hk

end MI.Cont
