import Verif.Cont.WorldInv
import Verif.Cont.CopyLemmas
import Verif.Cont.SwapLemmas
/-!
Every legal operation, whether it returns or throws, preserves the invariant of programs.
-/
set_option linter.unusedVariables false
set_option linter.unusedSimpArgs false
set_option linter.unnecessarySeqFocus false
namespace MI.Cont
open MI
variable {V : Type}

/-- The operation returns or throws, in a state in which the invariant holds. -/
def Safe (o : Out (World V × Ret)) : Prop := ∃ w r, (o = .ok (w, r) ∨ o = .threw (w, r)) ∧ Inv w

section
variable {w : World V} {i : Nat} {c : Container V}

/-- Facts about a container of a program that operations on it need. -/
theorem Inv.facts (I : Inv w) (hi : w.cs[i]? = some c) :
    c ∈ w.cs ∧ Sound w.m.val c ∧ Clear w.m.alloc c.ls ∧ (∀ z ∈ c.elems, z ∈ w.m.alloc) ∧ (∀ z ∈ c.elems, z ∈ w.m.cons) ∧ 0 ∉ c.elems ∧ c.hd ≠ 0 := by
  have h := List.mem_of_getElem? hi
  exact ⟨h, I.sound c h, I.clear c h, fun z => I.elem_alloc h, fun z => I.elem_cons h, fun k => I.nz (I.elem_alloc h k),
    I.nz' (I.mem_alloc h (by simp))⟩

theorem Fresh.clear (I : Inv w) {x : Id} (hf : w.Fresh x) (h : c ∈ w.cs) : Clear (x :: w.m.alloc) c.ls := by
  intro z hz L hL
  rcases List.mem_cons.1 hz with rfl | hz
  · exact hf.2.2 c h L hL
  · exact I.clear c h z hz L hL

theorem Fresh.not_mem (I : Inv w) {x : Id} (hf : w.Fresh x) (h : c ∈ w.cs) : x ∉ c.hd :: c.elems := fun k => hf.2.1 (I.mem_alloc h k)

theorem safe_insert_post {v : V} {x : Id} {c' : Container V} (I : Inv w) (hi : w.cs[i]? = some c) (hf : w.Fresh x)
    (b : Became c c' (upd w.m.val x v) (x :: c.elems) (x :: w.m.alloc)) :
    Inv { w with m := (w.m.allocate x).construct x v, cs := w.cs.set i c' } := by
  refine inv_put (m' := (w.m.allocate x).construct x v) I hi b ?_ ?_ ?_ ?_ ?_
  · intro z hz _
    exact upd_other _ _ (by rintro rfl; exact hf.2.1 hz)
  · intro z hz
    rcases List.mem_cons.1 hz with rfl | hz
    · exact Or.inr hf
    · exact Or.inl hz
  · intro z
    simp only [Mem.construct, Mem.allocate, List.count_cons]
    omega
  · intro z
    simp only [Mem.construct, Mem.allocate, List.count_cons]
    omega
  · exact List.nodup_cons.2 ⟨hf.2.1, I.nodup⟩

theorem Became.mono {c c' : Container V} {val : Id → V} {els p q : List Id} (b : Became c c' val els p) (h : ∀ z ∈ q, z ∈ p) : Became c c' val els q :=
  ⟨b.sound, b.perm, b.hd, b.specs, fun z hz => b.clear z (h z hz)⟩

/-- The container has the same elements, memory differs at most in the contents of addresses that hold nothing. -/
theorem safe_same_post {m' : Mem V} {c' : Container V} {hs' : List (Option Id)} (I : Inv w) (hi : w.cs[i]? = some c)
    (b : Became c c' m'.val c.elems w.m.alloc) (hv : ∀ z ∈ w.m.alloc, z ∉ c.elems → m'.val z = w.m.val z) (ha : m'.alloc = w.m.alloc) (hc : m'.cons = w.m.cons)
    (hh : (handled hs').Perm (handled w.hs)) : Inv ⟨m', w.cs.set i c', hs'⟩ := by
  refine inv_put (m' := m') I hi (by rw [ha]; exact b) hv ?_ ?_ ?_ ?_
  · intro z hz; rw [ha] at hz; exact Or.inl hz
  · intro z; rw [ha, hh.count_eq]
  · intro z; rw [hc, hh.count_eq]
  · rw [ha]; exact I.nodup

/-- An element has been deleted. -/
theorem safe_gone_post {x : Id} {v : V} {c' : Container V} (I : Inv w) (hi : w.cs[i]? = some c) (hx : x ∈ c.elems)
    (b : Became c c' (upd w.m.val x v) (c.elems.erase x) w.m.alloc) : Inv { w with m := w.m.gone x v, cs := w.cs.set i c' } := by
  obtain ⟨hc, s, cl, sa, sc, z0, h0⟩ := I.facts hi
  refine inv_put (m' := w.m.gone x v) I hi (b.mono fun z hz => List.mem_of_mem_erase hz) ?_ ?_ ?_ ?_ ?_
  · intro z hz hn
    exact upd_other _ _ (by rintro rfl; exact hn hx)
  · intro z hz; exact Or.inl (List.mem_of_mem_erase hz)
  · intro z
    have h1 := count_erase_add (sa x hx) z
    have h2 := count_erase_add hx z
    show (w.m.alloc.erase x).count z + _ + _ = _
    omega
  · intro z
    have h1 := count_erase_add (sc x hx) z
    have h2 := count_erase_add hx z
    show (w.m.cons.erase x).count z + _ + _ = _
    omega
  · exact I.nodup.erase x

theorem upd_self (f : Id → V) (x : Id) : upd f x (f x) = f := by
  funext y
  by_cases h : y = x
  · subst h; simp
  · simp [upd_other _ _ h]

theorem gone_self (m : Mem V) (x : Id) : m.gone x (m.val x) = { m with alloc := m.alloc.erase x, cons := m.cons.erase x } := by
  simp [Mem.gone, upd_self]

theorem safe_new {hd z : Id} {is : List (Init V)} (I : Inv w) (l : w.Legal (.new hd z is)) : Safe (w.step (.new hd z is)) := by
  obtain ⟨hf, ne, ok⟩ := l
  obtain ⟨s, e, cl⟩ := new_spec (z := z) (val := w.m.val) hf.1 ne ok
  refine ⟨_, _, Or.inl rfl, ?_, ?_, ?_, ?_, ?_, ?_⟩
  · intro c hc
    rcases List.mem_append.1 hc with hc | hc
    · exact I.sound c hc
    · rw [List.mem_singleton.1 hc]; exact s
  · intro c hc
    rcases List.mem_append.1 hc with hc | hc
    · exact Fresh.clear I hf hc
    · rw [List.mem_singleton.1 hc]; exact cl
  · refine List.perm_iff_count.2 fun y => ?_
    have := I.count_alloc y
    simp only [Mem.allocate, List.count_cons, List.flatMap_append, List.count_append, List.flatMap_cons, List.flatMap_nil, List.append_nil, e, List.count_nil]
    show _ + (if (hd == y) = true then 1 else 0) = _ + (0 + (if (hd == y) = true then 1 else 0)) + _
    omega
  · refine List.perm_iff_count.2 fun y => ?_
    have := I.count_cons y
    simp only [Mem.allocate, List.flatMap_append, List.count_append, List.flatMap_cons, List.flatMap_nil, List.append_nil, e, List.count_nil]
    omega
  · exact List.nodup_cons.2 ⟨hf.2.1, I.nodup⟩
  · simp only [Mem.allocate, List.mem_cons, not_or]
    exact ⟨hf.1.symm, I.nz⟩

theorem safe_insert {v : V} {x : Id} {f : Fault} {hint : Option Id} {e : Nat → Env} (I : Inv w) (l : w.Legal (.insert i v x f hint e)) :
    Safe (w.step (.insert i v x f hint e)) := by
  obtain ⟨c, hi, hf, hh, env⟩ := l
  obtain ⟨hc, s, cl, sa, sc, z0, h0⟩ := I.facts hi
  rcases insert_spec (m := w.m) (v := v) (f := f) s hf.1 z0 (Fresh.not_mem I hf hc) hh (fun z hz => by simp [sa z hz]) (by simp) env (Fresh.clear I hf hc) with
    ⟨c', k1, k2, -⟩ | ⟨c', y, k1, -, k2, -⟩ | ⟨c', k1, k2, -⟩
  · exact ⟨_, _, Or.inl (by simp only [World.step, hi, k1, World.put]; try rfl), safe_insert_post I hi hf k2⟩
  · exact ⟨_, _, Or.inl (by simp only [World.step, hi, k1, World.put]; try rfl),
      safe_same_post I hi (k2.mono fun z hz => by simp [hz]) (fun _ _ _ => rfl) rfl rfl (.refl _)⟩
  · exact ⟨_, _, Or.inr (by simp only [World.step, hi, k1, World.put]; try rfl),
      safe_same_post I hi (k2.mono fun z hz => by simp [hz]) (fun _ _ _ => rfl) rfl rfl (.refl _)⟩

theorem safe_emplace {v : V} {x : Id} {f : Fault} {hint : Option Id} {e : Nat → Env} (I : Inv w) (l : w.Legal (.emplace i v x f hint e)) :
    Safe (w.step (.emplace i v x f hint e)) := by
  obtain ⟨c, hi, hf, hh, env⟩ := l
  obtain ⟨hc, s, cl, sa, sc, z0, h0⟩ := I.facts hi
  have hn := Fresh.not_mem I hf hc
  have nx : ∀ z ∈ c.elems, upd w.m.val x v z = w.m.val z := fun z hz => upd_other _ _ (by rintro rfl; exact hn (by simp [hz]))
  have nx2 : ∀ z ∈ w.m.alloc, z ∉ c.elems → upd w.m.val x v z = w.m.val z := fun z hz _ => upd_other _ _ (by rintro rfl; exact hf.2.1 hz)
  rcases emplace_spec (m := w.m) (v := v) (f := f) s hf.1 hn hh (fun z hz => by simp [sa z hz]) (by simp) env (Fresh.clear I hf hc) with
    ⟨c', k1, k2, -⟩ | ⟨c', y, m', rfl, k1, -, k2, -⟩ | ⟨c', m', hm, k1, k2, -⟩
  · exact ⟨_, _, Or.inl (by simp only [World.step, hi, k1, World.put]; try rfl), safe_insert_post I hi hf k2⟩
  · exact ⟨_, _, Or.inl (by simp only [World.step, hi, k1, World.put]; try rfl),
      safe_same_post (m' := { w.m with val := upd w.m.val x v }) I hi ((k2.mono fun z hz => by simp [hz]).congr nx) nx2 rfl rfl (.refl _)⟩
  · refine ⟨_, _, Or.inr (by simp only [World.step, hi, k1, World.put]; try rfl), ?_⟩
    rcases hm with rfl | rfl
    · exact safe_same_post I hi (k2.mono fun z hz => by simp [hz]) (fun _ _ _ => rfl) rfl rfl (.refl _)
    · exact safe_same_post (m' := { w.m with val := upd w.m.val x v }) I hi ((k2.mono fun z hz => by simp [hz]).congr nx) nx2 rfl rfl (.refl _)

theorem safe_extract {x : Id} (I : Inv w) (l : w.Legal (.extract i x)) : Safe (w.step (.extract i x)) := by
  obtain ⟨c, hi, hx⟩ := l
  obtain ⟨hc, s, cl, sa, sc, z0, h0⟩ := I.facts hi
  obtain ⟨c', k1, k2, -⟩ := extract_spec (m := w.m) s hx (sa x hx) cl
  refine ⟨_, _, Or.inl (by simp only [World.step, hi, k1]; try rfl), ?_⟩
  refine inv_put I hi k2 (fun _ _ _ => rfl) (fun _ h => Or.inl h) ?_ ?_ I.nodup
  · intro z
    have h2 := count_erase_add hx z
    rw [handled_append]
    simp only [Option.toList]
    omega
  · intro z
    have h2 := count_erase_add hx z
    rw [handled_append]
    simp only [Option.toList]
    omega

theorem mem_handled {hs : List (Option Id)} {j : Nat} {x : Id} (h : hs[j]? = some (some x)) : x ∈ handled hs :=
  List.mem_filterMap.2 ⟨some x, List.mem_of_getElem? h, rfl⟩

theorem set_same {α : Type} {l : List α} {i : Nat} {a : α} (h : l[i]? = some a) : l.set i a = l := by
  apply List.ext_getElem?
  intro k
  rw [List.getElem?_set]
  split
  · rename_i e
    subst e
    rw [h]
    split
    · rfl
    · rename_i h2
      rw [List.getElem?_eq_none (by omega)] at h
      exact nomatch h
  · rfl

theorem get_of_lt {α : Type} {l : List α} {i : Nat} (h : i < l.length) : ∃ a, l[i]? = some a := ⟨l[i], List.getElem?_eq_getElem h⟩

theorem safe_insertNh {h : Nat} {hint : Option Id} {e : Nat → Env} (I : Inv w) (l : w.Legal (.insertNh i h hint e)) :
    Safe (w.step (.insertNh i h hint e)) := by
  obtain ⟨c, hi, hj, hh, env⟩ := l
  obtain ⟨hc, s, cl, sa, sc, z0, h0⟩ := I.facts hi
  obtain ⟨nh, hn⟩ := get_of_lt hj
  cases nh with
  | none =>
    refine ⟨w, ⟨c.hd, false⟩, Or.inl ?_, I⟩
    simp only [World.step, hi, hn, Container.insertNh, set_same hi, set_same hn]
  | some x =>
    have hm := mem_handled hn
    have hs : ∀ nh', nh' = some x → (handled (w.hs.set h nh')).Perm (handled w.hs) := by
      rintro _ rfl
      rw [set_same hn]
    rcases insertNh_spec (m := w.m) (x := x) s (I.nz' (I.handle_alloc hm)) (fun k => I.handle_disj hc k hm) hh sa (I.handle_alloc hm) env cl with
      ⟨c', k1, k2, -⟩ | ⟨c', y, k1, -, k2, -⟩ | ⟨c', k1, k2, -⟩
    · refine ⟨_, _, Or.inl (by simp only [World.step, hi, hn, k1]; try rfl), ?_⟩
      refine inv_put I hi k2 (fun _ _ _ => rfl) (fun _ h => Or.inl h) ?_ ?_ I.nodup
      · intro z
        have h2 := handled_at z hn none
        simp only [Option.toList, List.count_cons, List.count_nil] at h2 ⊢
        omega
      · intro z
        have h2 := handled_at z hn none
        simp only [Option.toList, List.count_cons, List.count_nil] at h2 ⊢
        omega
    · exact ⟨_, _, Or.inl (by simp only [World.step, hi, hn, k1]; try rfl), safe_same_post I hi k2 (fun _ _ _ => rfl) rfl rfl (hs _ rfl)⟩
    · exact ⟨_, _, Or.inr (by simp only [World.step, hi, hn, k1]; try rfl), safe_same_post I hi k2 (fun _ _ _ => rfl) rfl rfl (hs _ rfl)⟩

/-- The handle numbered `h` is destroyed, and then holds `nh'`. -/
theorem delete_handle {h : Nat} {nh nh' : Option Id} (I : Inv w) (hn : w.hs[h]? = some nh) :
    ∃ m', w.m.deleteOpt nh = some m' ∧ m'.val = w.m.val ∧ (∀ z ∈ m'.alloc, z ∈ w.m.alloc) ∧
      (∀ z, m'.alloc.count z + nh.toList.count z = w.m.alloc.count z) ∧ (∀ z, m'.cons.count z + nh.toList.count z = w.m.cons.count z) ∧ m'.alloc.Nodup := by
  cases nh with
  | none => exact ⟨w.m, rfl, rfl, fun _ h => h, fun z => by simp, fun z => by simp, I.nodup⟩
  | some x =>
    have ha := I.handle_alloc (mem_handled hn)
    have hc := I.handle_cons (mem_handled hn)
    exact ⟨_, Mem.deleteNode_mem ha hc, rfl, fun z hz => List.mem_of_mem_erase hz, count_erase_add ha, count_erase_add hc, I.nodup.erase x⟩

theorem safe_drop {h : Nat} (I : Inv w) (l : w.Legal (.dropHandle h)) : Safe (w.step (.dropHandle h)) := by
  obtain ⟨nh, hn⟩ := get_of_lt l
  obtain ⟨m', k1, k2, k3, k4, k5, k6⟩ := delete_handle (nh' := none) I hn
  refine ⟨_, _, Or.inl (by simp only [World.step, hn, k1]; try rfl), inv_free (m' := m') I k2 k3 ?_ ?_ k6⟩
  · intro z
    have h2 := handled_at z hn none
    have := k4 z
    simp only [Option.toList_none, List.count_nil] at h2
    omega
  · intro z
    have h2 := handled_at z hn none
    have := k5 z
    simp only [Option.toList_none, List.count_nil] at h2
    omega

theorem safe_move {h g : Nat} (I : Inv w) (l : w.Legal (.moveHandle h g)) : Safe (w.step (.moveHandle h g)) := by
  obtain ⟨nh, hn⟩ := get_of_lt l.1
  obtain ⟨ng, hg⟩ := get_of_lt l.2
  by_cases e : h = g
  · exact ⟨w, _, Or.inl (by simp only [World.step, hn, hg, if_pos e]; try rfl), I⟩
  · obtain ⟨m', k1, k2, k3, k4, k5, k6⟩ := delete_handle (nh' := none) I hn
    have hg' : (w.hs.set h ng)[g]? = some ng := by rw [List.getElem?_set_ne e]; exact hg
    refine ⟨_, _, Or.inl (by simp only [World.step, hn, hg, if_neg e, k1]; try rfl), inv_free (m' := m') I k2 k3 ?_ ?_ k6⟩
    · intro z
      have h2 := handled_at z hn ng
      have h3 := handled_at z hg' none
      have := k4 z
      simp only [Option.toList_none, List.count_nil] at h3
      omega
    · intro z
      have h2 := handled_at z hn ng
      have h3 := handled_at z hg' none
      have := k5 z
      simp only [Option.toList_none, List.count_nil] at h3
      omega

theorem safe_newHandle (I : Inv w) : Safe (w.step .newHandle) :=
  ⟨_, _, Or.inl rfl, inv_handles I (by simp [handled])⟩

theorem safe_swapHandles {h g : Nat} (I : Inv w) (l : w.Legal (.swapHandles h g)) : Safe (w.step (.swapHandles h g)) := by
  obtain ⟨nh, hn⟩ := get_of_lt l.1
  obtain ⟨ng, hg⟩ := get_of_lt l.2
  refine ⟨_, _, Or.inl (by simp only [World.step, hn, hg]; try rfl), inv_handles I (List.perm_iff_count.2 fun z => ?_)⟩
  by_cases e : h = g
  · subst e
    obtain rfl : nh = ng := by rw [hn] at hg; exact Option.some.inj hg
    rw [set_same hn, set_same hn]
  · have hg' : (w.hs.set h ng)[g]? = some ng := by rw [List.getElem?_set_ne e]; exact hg
    have h2 := handled_at z hn ng
    have h3 := handled_at z hg' nh
    omega

theorem safe_erase {x : Id} (I : Inv w) (l : w.Legal (.erase i x)) : Safe (w.step (.erase i x)) := by
  obtain ⟨c, hi, hx⟩ := l
  obtain ⟨hc, s, cl, sa, sc, z0, h0⟩ := I.facts hi
  obtain ⟨c', k1, k2, -⟩ := erase_spec (m := w.m) s hx (sa x hx) (sc x hx) (fun _ _ => rfl) cl
  refine ⟨_, _, Or.inl (by simp only [World.step, hi, k1, World.put]; try rfl), ?_⟩
  rw [← gone_self]
  exact safe_gone_post I hi hx (by rw [upd_self]; exact k2)

theorem elems_le (I : Inv w) (hi : w.cs[i]? = some c) : (∀ z, c.elems.count z ≤ w.m.alloc.count z) ∧ (∀ z, c.elems.count z ≤ w.m.cons.count z) := by
  have h : ∀ z, c.elems.count z ≤ w.m.cons.count z := by
    intro z
    have := I.count_cons z
    have k := count_flatMap_le (f := fun c : Container V => c.elems) (z := z) (List.mem_of_getElem? hi)
    omega
  exact ⟨fun z => Nat.le_trans (h z) (I.cons_le z), h⟩

theorem safe_clear (I : Inv w) (l : w.Legal (.clear i)) : Safe (w.step (.clear i)) := by
  obtain ⟨c, hi⟩ := get_of_lt l
  obtain ⟨hc, s, cl, sa, sc, z0, h0⟩ := I.facts hi
  obtain ⟨e1, e2⟩ := elems_le I hi
  obtain ⟨m', c', k1, k2, k3, k4, k5⟩ := clear_spec s h0 e1 e2 cl
  refine ⟨_, _, Or.inl (by simp only [World.step, hi, k1, World.put]; try rfl), ?_⟩
  have sub : ∀ z ∈ m'.alloc, z ∈ w.m.alloc := by
    intro z hz
    rw [k3] at hz
    exact (List.diff_sublist _ _).subset hz
  refine inv_put (m' := m') I hi (by rw [k2]; exact k5.mono sub) (fun _ _ _ => by rw [k2]) (fun z hz => Or.inl (sub z hz)) ?_ ?_ ?_
  · intro z
    have := count_diff_add (e1 z)
    rw [k3, List.count_nil]
    omega
  · intro z
    have := count_diff_add (e2 z)
    rw [k4, List.count_nil]
    omega
  · rw [k3]; exact I.nodup.sublist (List.diff_sublist _ _)

theorem safe_destroy (I : Inv w) (l : w.Legal (.destroy i)) : Safe (w.step (.destroy i)) := by
  obtain ⟨c, hi⟩ := get_of_lt l
  obtain ⟨hc, s, cl, sa, sc, z0, h0⟩ := I.facts hi
  obtain ⟨e1, e2⟩ := elems_le I hi
  obtain ⟨m', k1, k2, k3, k4⟩ := deleteAll_spec s e1 e2
  have hcount : ∀ z, w.m.alloc.count z = [c.hd].count z + c.elems.count z + ((w.cs.eraseIdx i).flatMap (fun c => c.hd :: c.elems)).count z + (handled w.hs).count z := by
    intro z
    have := I.count_alloc z
    rw [flatMap_at (fun c : Container V => c.hd :: c.elems) z hi, List.count_cons] at this
    rw [List.count_singleton]
    omega
  have hd : c.hd ∈ m'.alloc := by
    apply List.count_pos_iff.1
    have := count_diff_add (e1 c.hd)
    have h2 := hcount c.hd
    rw [k3]
    simp only [List.count_singleton, beq_self_eq_true, if_true] at h2
    omega
  refine ⟨_, _, Or.inl (by simp only [World.step, hi, k1, Mem.deallocate, hd, if_true]; try rfl), ?_⟩
  have rest : ∀ d ∈ w.cs.eraseIdx i, d ∈ w.cs := fun d hd => (List.eraseIdx_sublist _ _).subset hd
  have sub : ∀ z ∈ m'.alloc.erase c.hd, z ∈ w.m.alloc := by
    intro z hz
    have := List.mem_of_mem_erase hz
    rw [k3] at this
    exact (List.diff_sublist _ _).subset this
  refine ⟨fun d hd => ?_, fun d hd z hz => I.clear d (rest d hd) z (sub z hz), ?_, ?_, ?_, fun h => I.nz (sub 0 h)⟩
  · show Sound m'.val d
    rw [k2]; exact I.sound d (rest d hd)
  · refine List.perm_iff_count.2 fun z => ?_
    have h1 := hcount z
    have h2 := count_erase_add hd z
    have h3 := count_diff_add (e1 z)
    rw [k3] at h2
    simp only [List.count_append, k3]
    omega
  · refine List.perm_iff_count.2 fun z => ?_
    have h1 := I.count_cons z
    rw [flatMap_at (fun c : Container V => c.elems) z hi] at h1
    have h3 := count_diff_add (e2 z)
    simp only [List.count_append, k4] at h1 ⊢
    omega
  · show (m'.alloc.erase c.hd).Nodup
    rw [k3]; exact (I.nodup.sublist (List.diff_sublist _ _)).erase _

theorem safe_replace {x : Id} {v : V} {a : Bool} {e : Nat → Env} (I : Inv w) (l : w.Legal (.replace i x v a e)) : Safe (w.step (.replace i x v a e)) := by
  obtain ⟨c, hi, hx⟩ := l
  obtain ⟨hc, s, cl, sa, sc, z0, h0⟩ := I.facts hi
  rcases replace_spec (v := v) (a := a) (e := e) s hx (I.nz' (sa x hx)) (sa x hx) cl with ⟨c', k1, k2, -⟩ | ⟨c', k1, k2, -⟩ | ⟨c', k1, k2, -⟩
  · exact ⟨_, _, Or.inl (by simp only [World.step, hi, k1, World.put]; try rfl),
      safe_same_post (m' := w.m.assign x v) I hi k2 (fun z _ h => upd_other _ _ (by rintro rfl; exact h hx)) rfl rfl (.refl _)⟩
  · exact ⟨_, _, Or.inl (by simp only [World.step, hi, k1, World.put]; try rfl), safe_same_post I hi k2 (fun _ _ _ => rfl) rfl rfl (.refl _)⟩
  · exact ⟨_, _, Or.inr (by simp only [World.step, hi, k1, World.put]; try rfl), safe_same_post I hi k2 (fun _ _ _ => rfl) rfl rfl (.refl _)⟩

theorem safe_modify {x : Id} {mod : V → V × Bool} {e : Nat → Env} (I : Inv w) (l : w.Legal (.modify i x mod e)) : Safe (w.step (.modify i x mod e)) := by
  obtain ⟨c, hi, hx⟩ := l
  obtain ⟨hc, s, cl, sa, sc, z0, h0⟩ := I.facts hi
  rcases modify_spec (mod := mod) (e := e) s hx (I.nz' (sa x hx)) (sa x hx) (sa x hx) (sc x hx) cl with
    ⟨c', k1, k2, -⟩ | ⟨c', k1, k2, -⟩ | ⟨c', p, k1, k2, -⟩
  · exact ⟨_, _, Or.inl (by simp only [World.step, hi, k1, World.put]; try rfl),
      safe_same_post (m' := w.m.assign x _) I hi k2 (fun z _ h => upd_other _ _ (by rintro rfl; exact h hx)) rfl rfl (.refl _)⟩
  · exact ⟨_, _, Or.inl (by simp only [World.step, hi, k1, World.put]; try rfl), safe_gone_post I hi hx k2⟩
  · exact ⟨_, _, Or.inr (by simp only [World.step, hi, k1, World.put]; try rfl), safe_gone_post I hi hx k2⟩

theorem safe_modifyRb {x : Id} {mod back : V → V × Bool} {e e' : Nat → Env} (I : Inv w) (l : w.Legal (.modifyRb i x mod back e e')) :
    Safe (w.step (.modifyRb i x mod back e e')) := by
  obtain ⟨c, hi, hx, hyp⟩ := l
  obtain ⟨hc, s, cl, sa, sc, z0, h0⟩ := I.facts hi
  rcases modifyRb_spec (mod := mod) (back := back) (e := e) (e' := e') s hx (I.nz' (sa x hx)) (sa x hx) (sa x hx) (sc x hx) cl I.nodup hyp with
    ⟨c', k1, k2, -⟩ | ⟨c', k1, k2, -⟩ | ⟨c', k1, k2, -⟩ | ⟨c', v', k1, k2, -⟩
  · exact ⟨_, _, Or.inl (by simp only [World.step, hi, k1, World.put]; try rfl),
      safe_same_post (m' := w.m.assign x _) I hi k2 (fun z _ h => upd_other _ _ (by rintro rfl; exact h hx)) rfl rfl (.refl _)⟩
  · exact ⟨_, _, Or.inl (by simp only [World.step, hi, k1, World.put]; try rfl),
      safe_same_post (m' := w.m.assign x _) I hi k2 (fun z _ h => upd_other _ _ (by rintro rfl; exact h hx)) rfl rfl (.refl _)⟩
  · exact ⟨_, _, Or.inl (by simp only [World.step, hi, k1, World.put]; try rfl), safe_gone_post I hi hx k2⟩
  · exact ⟨_, _, Or.inr (by simp only [World.step, hi, k1, World.put]; try rfl), safe_gone_post I hi hx k2⟩

theorem mem_rest {α : Type} {l : List α} {i j : Nat} {d : α} (ne : i ≠ j) (h : l[j]? = some d) : d ∈ l.eraseIdx i := by
  apply List.mem_iff_getElem?.2
  by_cases k : j < i
  · exact ⟨j, by rw [List.getElem?_eraseIdx_of_lt k]; exact h⟩
  · exact ⟨j - 1, by rw [List.getElem?_eraseIdx_of_ge (by omega)]; rw [show j - 1 + 1 = j by omega]; exact h⟩

theorem safe_transfer {j : Nat} {x : Id} {e : Nat → Env} (I : Inv w) (l : w.Legal (.transfer i j x e)) : Safe (w.step (.transfer i j x e)) := by
  obtain ⟨ne, c, d, hi, hj, hx, env⟩ := l
  obtain ⟨hc, s, cl, sa, sc, z0, h0⟩ := I.facts hi
  obtain ⟨hd, s2, cl2, sa2, sc2, z2, h2⟩ := I.facts hj
  have hn : x ∉ c.hd :: c.elems := fun k => I.disj hi (mem_rest ne hj) k (by simp [hx])
  rcases transfer_spec s s2 (I.nz' (sa2 x hx)) hn hx (sa2 x hx) sa (sa2 x hx) env cl cl2 with
    ⟨c', d', k1, k2, -, k3, -⟩ | ⟨c', y, k1, -, k2, -⟩ | ⟨c', k1, k2, -⟩
  · refine ⟨_, _, Or.inl (by simp only [World.step, hi, hj, k1]; try rfl), ?_⟩
    have I1 : Inv ⟨w.m, w.cs.set j d', w.hs ++ [some x]⟩ := by
      refine inv_put I hj k3 (fun _ _ _ => rfl) (fun _ h => Or.inl h) ?_ ?_ I.nodup
      all_goals
        intro z
        have h2 := count_erase_add hx z
        rw [handled_append]
        simp only [Option.toList]
        omega
    have hi1 : (w.cs.set j d')[i]? = some c := by rw [List.getElem?_set_ne (Ne.symm ne)]; exact hi
    have I2 : Inv ⟨w.m, (w.cs.set j d').set i c', w.hs⟩ := by
      refine inv_put I1 hi1 k2 (fun _ _ _ => rfl) (fun _ h => Or.inl h) ?_ ?_ I.nodup
      all_goals
        intro z
        rw [handled_append]
        simp only [Option.toList, List.count_cons, List.count_nil]
        omega
    rw [List.set_comm _ _ (Ne.symm ne)] at I2
    exact I2
  · refine ⟨_, _, Or.inl (by simp only [World.step, hi, hj, k1]; try rfl), ?_⟩
    have : (w.cs.set i c').set j d = w.cs.set i c' := set_same (by rw [List.getElem?_set_ne ne]; exact hj)
    rw [this]
    exact safe_same_post I hi k2 (fun _ _ _ => rfl) rfl rfl (.refl _)
  · refine ⟨_, _, Or.inr (by simp only [World.step, hi, hj, k1]; try rfl), ?_⟩
    have : (w.cs.set i c').set j d = w.cs.set i c' := set_same (by rw [List.getElem?_set_ne ne]; exact hj)
    rw [this]
    exact safe_same_post I hi k2 (fun _ _ _ => rfl) rfl rfl (.refl _)

/-- Two containers have been exchanged. -/
theorem safe_exchange {j : Nat} {c d : Container V} (I : Inv w) (hi : w.cs[i]? = some c) (hj : w.cs[j]? = some d) :
    Inv { w with cs := (w.cs.set i d).set j c } := by
  have mem : ∀ a ∈ (w.cs.set i d).set j c, a ∈ w.cs := by
    intro a ha
    rcases List.mem_or_eq_of_mem_set ha with ha | rfl
    · rcases List.mem_or_eq_of_mem_set ha with ha | rfl
      · exact ha
      · exact List.mem_of_getElem? hj
    · exact List.mem_of_getElem? hi
  have cnt : ∀ (f : Container V → List Id) z, (((w.cs.set i d).set j c).flatMap f).count z = (w.cs.flatMap f).count z := by
    intro f z
    by_cases e : i = j
    · subst e
      obtain rfl : c = d := by rw [hi] at hj; exact Option.some.inj hj
      rw [set_same hi, set_same hi]
    · have hj' : (w.cs.set i d)[j]? = some d := by rw [List.getElem?_set_ne e]; exact hj
      have h1 := flatMap_set f z c hj'
      have h2 := flatMap_at f z hj'
      have h3 := flatMap_set f z d hi
      have h4 := flatMap_at f z hi
      omega
  refine ⟨fun a ha => I.sound a (mem a ha), fun a ha => I.clear a (mem a ha), ?_, ?_, I.nodup, I.nz⟩
  · refine I.alloc.trans (List.perm_iff_count.2 fun z => ?_)
    simp only [List.count_append, cnt]
  · refine I.cons.trans (List.perm_iff_count.2 fun z => ?_)
    simp only [List.count_append, cnt]

theorem safe_swap {j : Nat} (I : Inv w) (l : w.Legal (.swap i j)) : Safe (w.step (.swap i j)) := by
  obtain ⟨c, d, hi, hj, k⟩ := l
  exact ⟨_, _, Or.inl (by simp only [World.step, hi, hj, swap_spec k]; try rfl), safe_exchange I hi hj⟩

theorem safe_swapElements {j : Nat} (I : Inv w) (l : w.Legal (.swapElements i j)) : Safe (w.step (.swapElements i j)) := by
  obtain ⟨c, d, hi, hj, k⟩ := l
  exact ⟨_, _, Or.inl (by simp only [World.step, hi, hj, swapElements_spec k]; try rfl), safe_exchange I hi hj⟩

/-- A container has been added, whose nodes are new. -/
theorem safe_add {m' : Mem V} {c' : Container V} (I : Inv w) (s : Sound m'.val c') (nd : (c'.hd :: c'.elems).Nodup) (fr : ∀ n ∈ c'.hd :: c'.elems, w.Fresh n)
    (ha : m'.alloc = c'.elems.reverse ++ c'.hd :: w.m.alloc) (hc : m'.cons = c'.elems.reverse ++ w.m.cons)
    (hv : ∀ z, z ∉ c'.elems → m'.val z = w.m.val z) (cl : Clear (c'.hd :: c'.elems ++ w.m.alloc) c'.ls) : Inv { w with m := m', cs := w.cs ++ [c'] } := by
  have mem : ∀ z, z ∈ m'.alloc ↔ z ∈ c'.hd :: c'.elems ++ w.m.alloc := by
    intro z
    rw [ha]
    simp only [List.mem_append, List.mem_reverse, List.mem_cons]
    tauto
  refine ⟨?_, ?_, ?_, ?_, ?_, ?_⟩
  · intro a h
    rcases List.mem_append.1 h with h | h
    · exact (I.sound a h).congr fun z hz => hv z fun hn => (fr z (by simp [hn])).2.1 (I.elem_alloc h hz)
    · rw [List.mem_singleton.1 h]; exact s
  · intro a h z hz
    rcases List.mem_append.1 h with h | h
    · rcases List.mem_append.1 ((mem z).1 hz) with k | k
      · exact (fr z k).2.2 a h
      · exact I.clear a h z k
    · rw [List.mem_singleton.1 h]; exact cl z ((mem z).1 hz)
  · refine List.perm_iff_count.2 fun y => ?_
    have := I.count_alloc y
    simp only [ha, List.count_append, List.count_reverse, List.count_cons, List.flatMap_append, List.flatMap_cons, List.flatMap_nil, List.append_nil]
    omega
  · refine List.perm_iff_count.2 fun y => ?_
    have := I.count_cons y
    simp only [hc, List.count_append, List.count_reverse, List.flatMap_append, List.flatMap_cons, List.flatMap_nil, List.append_nil]
    omega
  · have p : m'.alloc.Perm ((c'.hd :: c'.elems) ++ w.m.alloc) := by
      refine List.perm_iff_count.2 fun y => ?_
      simp only [ha, List.count_append, List.count_reverse, List.count_cons]
      omega
    refine p.nodup_iff.2 (List.nodup_append.2 ⟨nd, I.nodup, fun a h1 b h2 => ?_⟩)
    rintro rfl
    exact (fr a h1).2.1 h2
  · intro h
    rcases List.mem_append.1 ((mem 0).1 h) with k | k
    · exact (fr 0 k).1 rfl
    · exact I.nz k

/-- Nothing has happened but that memory that holds nothing has been written to. -/
theorem safe_none {m' : Mem V} (I : Inv w) (ha : m'.alloc = w.m.alloc) (hc : m'.cons = w.m.cons) (hv : ∀ z ∈ w.m.alloc, m'.val z = w.m.val z) :
    Inv { w with m := m' } := by
  refine ⟨fun a h => (I.sound a h).congr fun z hz => hv z (I.elem_alloc h hz), fun a h => by show Clear m'.alloc _; rw [ha]; exact I.clear a h, ?_, ?_, ?_, ?_⟩
  · show m'.alloc.Perm _; rw [ha]; exact I.alloc
  · show m'.cons.Perm _; rw [hc]; exact I.cons
  · show m'.alloc.Nodup; rw [ha]; exact I.nodup
  · show 0 ∉ m'.alloc; rw [ha]; exact I.nz

theorem safe_copy {hd z : Id} {ns : List Id} {e : Nat → Env} {F : CopyFault} (I : Inv w) (l : w.Legal (.copy i hd z ns e F)) :
    Safe (w.step (.copy i hd z ns e F)) := by
  obtain ⟨c, hi, hn, nd, fr, env⟩ := l
  obtain ⟨hc, s, cl, sa, sc, z0, h0⟩ := I.facts hi
  rcases copy_spec (m := w.m) (z := z) (F := F) s (by simp only [List.mem_cons, not_or]; exact ⟨h0.symm, z0⟩) hn nd
      (fun k => (fr 0 k).1 rfl) (fun n h k => (fr n h).2.1 (sa n k)) env with
    ⟨m', c', k1, -, k2, k3, k4, k5, k6, k7, -, -, -, -, k8⟩ | ⟨m', k1, -, k2, k3, k4⟩
  · exact ⟨_, _, Or.inl (by simp only [World.step, hi, k1, World.add]; try rfl),
      safe_add I k5 (by rw [k6, k7]; exact nd) (by rw [k6, k7]; exact fr) (by rw [k2, k6, k7]) (by rw [k3, k7]) (by rw [k7]; exact k4) (by rw [k6, k7]; exact k8)⟩
  · refine ⟨_, _, Or.inr (by simp only [World.step, hi, k1, World.add, Option.toList_none, List.append_nil]; try rfl), ?_⟩
    exact safe_none I k2 k3 fun z hz => k4 z fun h => (fr z (by simp [h])).2.1 hz

theorem safe_newLike {hd z : Id} {pol : Pol} {e : Nat → Env} {F : CopyFault} (I : Inv w) (l : w.Legal (.newLike i hd z pol e F)) :
    Safe (w.step (.newLike i hd z pol e F)) := by
  obtain ⟨c, hi, fr, env⟩ := l
  obtain ⟨hc, s, cl, sa, sc, z0, h0⟩ := I.facts hi
  obtain ⟨k1, k2, k3, k4⟩ := newLike_spec (w := w) (z := z) (pol := pol) s fr.1 env
  by_cases f1 : F.header = true
  · exact ⟨_, _, Or.inr (by simp only [World.step, hi, Container.newLike, f1, if_true, World.add, Option.toList_none, List.append_nil]; try rfl), I⟩
  · by_cases f2 : F.index = true
    · have k : c.newLike w.m hd z pol e F = .threw (w.m, none) := by
        unfold Container.newLike
        rw [if_neg f1]
        simp [f2, dropHeader, Mem.deallocate, Mem.allocate]
      exact ⟨_, _, Or.inr (by simp only [World.step, hi, k, World.add, Option.toList_none, List.append_nil]; try rfl), I⟩
    · refine ⟨_, _, Or.inl (by simp only [World.step, hi, Container.newLike, f1, f2, if_false, World.add, Option.toList_some]; try rfl), ?_⟩
      refine safe_add I k1 (by rw [k2]; simp) (by rw [k2]; intro n hn; rw [List.mem_singleton.1 hn]; exact fr) (by rw [k2]; rfl) (by rw [k2]; rfl) (fun _ _ => rfl)
        (by rw [k2]; exact k4)

theorem safe_relocate {k : Nat} {pos x : Id} (I : Inv w) (l : w.Legal (.relocate i k pos x)) : Safe (w.step (.relocate i k pos x)) := by
  obtain ⟨c, L, hi, hL, kd, hx, hp⟩ := l
  obtain ⟨hc, s, cl, sa, sc, z0, h0⟩ := I.facts hi
  obtain ⟨xs, g1, g2, g3⟩ := fit_get s.fit hL
  obtain ⟨L', xs', k1, k2, k3, k4, k5⟩ := relocate_spec (pos := pos) kd g2 (g3.mem_iff.2 hx)
    (by simp only [List.mem_cons] at hp ⊢; exact hp.imp id g3.mem_iff.2)
  have av : ∀ z ∈ w.m.alloc, L'.Avoids z := by
    intro z _
    cases L with
    | seq h => obtain rfl := Option.some.inj k1; trivial
    | rnd h => obtain rfl := Option.some.inj k1; trivial
    | ord => exact nomatch kd
    | hash => exact nomatch kd
  obtain ⟨b1, b2⟩ := became_set (pool := w.m.alloc) s cl hL k2 k3 (k4.trans g3) av
  exact ⟨_, _, Or.inl (by simp only [World.step, hi, hL, k1]; try rfl), safe_same_post I hi b1 (fun _ _ _ => rfl) rfl rfl (.refl _)⟩

theorem safe_rearrange {k : Nat} {a : Rearr V} (I : Inv w) (l : w.Legal (.rearrange i k a)) : Safe (w.step (.rearrange i k a)) := by
  obtain ⟨c, L, xs, hi, hL, kd, hxs, ok⟩ := l
  obtain ⟨hc, s, cl, sa, sc, z0, h0⟩ := I.facts hi
  obtain ⟨ys, g1, g2, g3⟩ := fit_get s.fit hL
  obtain rfl := Option.some.inj (hxs.symm.trans g1)
  obtain ⟨L', xs', k1, k2, k3, k4, k5⟩ := rearrange_spec (n := c.budget) kd g2 ok (by rw [g3.length_eq, Container.budget, s.count]; omega)
    (fun h => z0 (g3.mem_iff.1 h))
  obtain ⟨b1, b2⟩ := became_set (pool := w.m.alloc) s cl hL k1 k2 (k3.trans g3) (fun z _ => k4 z)
  rcases k5 with ⟨k5, -⟩ | ⟨k5, -⟩
  · exact ⟨_, _, Or.inl (by simp only [World.step, hi, hL, k5]; try rfl), safe_same_post I hi b1 (fun _ _ _ => rfl) rfl rfl (.refl _)⟩
  · exact ⟨_, _, Or.inr (by simp only [World.step, hi, hL, k5]; try rfl), safe_same_post I hi b1 (fun _ _ _ => rfl) rfl rfl (.refl _)⟩

theorem safe_place {k : Nat} {fail : Bool} {ins : List (Option Id × Id)} (I : Inv w) (l : w.Legal (.place i k fail ins)) :
    Safe (w.step (.place i k fail ins)) := by
  obtain ⟨c, L, hi, hL, ok⟩ := l
  obtain ⟨hc, s, cl, sa, sc, z0, h0⟩ := I.facts hi
  obtain ⟨ys, g1, g2, g3⟩ := fit_get s.fit hL
  obtain ⟨L', xs', k1, k2, k3, k4, k5⟩ := place_spec (n := c.budget) (fail := fail) (okAll_get s.ok hL) g2
    (fun a ha => ⟨g3.mem_iff.2 (ok a ha).1, fun q hq => ⟨g3.mem_iff.2 ((ok a ha).2 q hq).1, ((ok a ha).2 q hq).2⟩⟩)
    (by rw [g3.length_eq, Container.budget, s.count]; omega) (by rw [g3.length_eq, Container.budget, s.count]; exact log_budget4 _)
  obtain ⟨b1, b2⟩ := became_set (pool := w.m.alloc) s cl hL k1 k2 (k3.trans g3) (fun z hz => k4 z (clear_get cl hL z hz))
  rcases k5 with ⟨k5, -⟩ | ⟨k5, -⟩
  · exact ⟨_, _, Or.inl (by simp only [World.step, hi, hL, k5]; try rfl), safe_same_post I hi b1 (fun _ _ _ => rfl) rfl rfl (.refl _)⟩
  · exact ⟨_, _, Or.inr (by simp only [World.step, hi, hL, k5]; try rfl), safe_same_post I hi b1 (fun _ _ _ => rfl) rfl rfl (.refl _)⟩

theorem safe_rehash {k n : Nat} {e : Env} (I : Inv w) (l : w.Legal (.rehash i k n e)) : Safe (w.step (.rehash i k n e)) := by
  obtain ⟨c, L, hi, hL, le⟩ := l
  obtain ⟨hc, s, cl, sa, sc, z0, h0⟩ := I.facts hi
  obtain ⟨xs, g1, g2, g3⟩ := fit_get s.fit hL
  have hl : c.count = xs.length := by rw [g3.length_eq, s.count]
  rw [hl] at le
  obtain ⟨L', k1, k2, k3, xs', k4, k5⟩ := rehash_spec (n := n) (okAll_get s.ok hL) g2 le (fun z hz => sa z (g3.mem_iff.1 hz)) (clear_get cl hL)
  obtain ⟨b1, b2⟩ := became_set (pool := w.m.alloc) s cl hL k2 k4 ((Same.perm k5).trans g3) k3
  rcases k1 with k1 | ⟨k1, -⟩
  · exact ⟨_, _, Or.inl (by simp only [World.step, hi, hL, hl, k1]; try rfl), safe_same_post I hi b1 (fun _ _ _ => rfl) rfl rfl (.refl _)⟩
  · exact ⟨_, _, Or.inr (by simp only [World.step, hi, hL, hl, k1]; try rfl), safe_same_post I hi b1 (fun _ _ _ => rfl) rfl rfl (.refl _)⟩

/-- Every legal operation returns or throws, and leaves the invariant intact. -/
theorem step_safe (I : Inv w) : ∀ {o : Op V}, w.Legal o → Safe (w.step o)
  | .new .., l => safe_new I l
  | .insert .., l => safe_insert I l
  | .emplace .., l => safe_emplace I l
  | .extract .., l => safe_extract I l
  | .insertNh .., l => safe_insertNh I l
  | .dropHandle .., l => safe_drop I l
  | .moveHandle .., l => safe_move I l
  | .newHandle, _ => safe_newHandle I
  | .swapHandles .., l => safe_swapHandles I l
  | .erase .., l => safe_erase I l
  | .clear .., l => safe_clear I l
  | .destroy .., l => safe_destroy I l
  | .replace .., l => safe_replace I l
  | .modify .., l => safe_modify I l
  | .modifyRb .., l => safe_modifyRb I l
  | .transfer .., l => safe_transfer I l
  | .swap .., l => safe_swap I l
  | .copy .., l => safe_copy I l
  | .newLike .., l => safe_newLike I l
  | .swapElements .., l => safe_swapElements I l
  | .relocate .., l => safe_relocate I l
  | .rearrange .., l => safe_rearrange I l
  | .place .., l => safe_place I l
  | .rehash .., l => safe_rehash I l

end
end MI.Cont
