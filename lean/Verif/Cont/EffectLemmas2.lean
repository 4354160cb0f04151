import Verif.Cont.EffectLemmas
/-!
The effect of each operation on a reachable program (continued), and what it leaves alone.
-/
set_option linter.unusedVariables false
set_option linter.unusedSimpArgs false
namespace MI.Cont
open MI
variable {V : Type} {w w' : World V} {i : Nat} {c c' : Container V}

theorem each_head {R : Spec V → List Id → List Id → Prop} {Ss : List (Spec V)} {xss yss : List (List Id)} (h : Each R Ss xss yss) (ne : Ss ≠ []) :
    ∃ S ∈ Ss, R S (xss.headD []) (yss.headD []) := by
  cases Ss with
  | nil => exact absurd rfl ne
  | cons S Ss =>
    cases xss with
    | nil => cases yss <;> exact h.elim
    | cons xs xss =>
      cases yss with
      | nil => exact h.elim
      | cons ys yss => exact ⟨S, by simp, h.1⟩

theorem asked_ne (s : Sound w.m.val c) : c.asked ≠ [] := by
  have := s.ne
  unfold Container.asked
  simpa using this

theorem Added.mem {val : Id → V} {hint : Option Id} {x z : Id} {S : Spec V} {xs ys : List Id} (a : Added val hint x S xs ys) (h : z ∈ xs) : z ∈ ys := by
  obtain ⟨u, v, rfl, h2, -⟩ := a
  have : z ∈ u ++ v := (Same.perm h2).mem_iff.2 h
  simp only [List.mem_append, List.mem_cons] at this ⊢
  tauto

theorem Moved.mem {v0 : V} {val : Id → V} {x z : Id} {S : Spec V} {xs ys : List Id} (a : Moved v0 val x S xs ys) (h : z ∈ xs) : z ∈ ys := by
  obtain ⟨u, v, h1, rfl, -⟩ := a
  by_cases k : z = x
  · simp [k]
  · have : z ∈ u ++ v := by rw [← h1]; exact (List.mem_erase_of_ne k).2 h
    simp only [List.mem_append, List.mem_cons] at this ⊢
    tauto

theorem lost_elems {x : Id} (h : c'.seqs = c.seqs.map (·.erase x)) : c'.elems = c.elems.erase x := by
  unfold Container.elems
  rw [h]
  cases c.seqs <;> rfl

/-- Survival in containers, when only container `i` changed. -/
theorem survive_at (hi : w.cs[i]? = some c) (hcs : w'.cs = w.cs.set i c') (hh : c'.hd = c.hd) {z : Id} (h : z ∈ c.elems → z ∈ c'.elems) :
    ∀ d ∈ w.cs, z ∈ d.elems → ∃ d' ∈ w'.cs, d'.hd = d.hd ∧ z ∈ d'.elems := by
  intro d hd hz
  rw [hcs]
  obtain ⟨k, hk⟩ := List.mem_iff_getElem?.1 hd
  by_cases e : k = i
  · subst e
    obtain rfl := Option.some.inj (hi.symm.trans hk)
    exact ⟨c', List.mem_iff_getElem?.2 ⟨k, by rw [List.getElem?_set_self (by have := List.getElem?_eq_some_iff.1 hi; exact this.1)]⟩, hh, h hz⟩
  · exact ⟨d, List.mem_iff_getElem?.2 ⟨k, by rw [List.getElem?_set_ne (Ne.symm e)]; exact hk⟩, rfl, hz⟩

theorem Unchanged.elems (I : Inv w) (u : Unchanged w w' i) : ∃ c c', OnlyAt w w' i c c' ∧ c'.elems.Perm c.elems := by
  obtain ⟨m, c, c', o, -, e⟩ := u
  obtain ⟨S, -, k⟩ := each_head e (asked_ne (I.facts o.pre).2.1)
  exact ⟨c, c', o, Same.perm k⟩

theorem Unchanged.survives (I : Inv w) (u : Unchanged w w' i) (z : Id) : Survives w w' z := by
  obtain ⟨c, c', o, p⟩ := u.elems I
  obtain ⟨m, -⟩ := u
  exact ⟨survive_at o.pre o.cs o.hd fun h => p.mem_iff.2 h, fun h => by rw [m.hs]; exact h, m.val z⟩

theorem Identical.survives (u : Identical w w' i) (z : Id) : Survives w w' z := by
  obtain ⟨m, hs, c, c', o, -, e⟩ := u
  exact ⟨survive_at o.pre o.cs o.hd fun h => by unfold Container.elems at *; rw [e]; exact h, fun h => by rw [hs]; exact h, fun _ => by rw [m]⟩

theorem Gained.survives {hint : Option Id} {x z : Id} (I : Inv w) (g : Gained w w' i hint x) (hs : some z ∈ w.hs → some z ∈ w'.hs) : Survives w w' z := by
  obtain ⟨m, c, c', o, -, e⟩ := g
  obtain ⟨S, -, k⟩ := each_head e (asked_ne (I.facts o.pre).2.1)
  exact ⟨survive_at o.pre o.cs o.hd fun h => k.mem h, hs, m z⟩

theorem Lost.survives {x z : Id} (g : Lost w w' i x) (hz : z ≠ x) (hs : some z ∈ w.hs → some z ∈ w'.hs) : Survives w w' z := by
  obtain ⟨m, c, c', o, -, -, e⟩ := g
  exact ⟨survive_at o.pre o.cs o.hd fun h => by rw [lost_elems e]; exact (List.mem_erase_of_ne hz).2 h, hs, fun h => m z h hz⟩

theorem Changed.survives {x z : Id} {v : V} (I : Inv w) (g : Changed w w' i x v) (hz : z ≠ x) : Survives w w' z := by
  obtain ⟨-, -, h3, -, h5, c, c', o, -, e⟩ := g
  obtain ⟨S, -, k⟩ := each_head e (asked_ne (I.facts o.pre).2.1)
  exact ⟨survive_at o.pre o.cs o.hd fun h => k.mem h, fun h => by rw [h3]; exact h, fun _ => h5 z hz⟩

theorem Inv.count_le_alloc (I : Inv w) (hc : c ∈ w.cs) (z : Id) : c.elems.count z ≤ w.m.alloc.count z := by
  have := I.count_alloc z
  have k := count_flatMap_le (f := fun c : Container V => c.hd :: c.elems) (z := z) hc
  have : c.elems.count z ≤ (c.hd :: c.elems).count z := List.count_le_count_cons
  omega

theorem Inv.count_le_cons (I : Inv w) (hc : c ∈ w.cs) (z : Id) : c.elems.count z ≤ w.m.cons.count z := by
  have := I.count_cons z
  have k := count_flatMap_le (f := fun c : Container V => c.elems) (z := z) hc
  omega

theorem mem_diff_nodup {l xs : List Id} (nd : l.Nodup) (z : Id) : z ∈ l.diff xs ↔ z ∈ l ∧ z ∉ xs := nd.mem_sdiff_iff

/-- `clear()`. -/
theorem eff_clear (I : Inv w) (l : w.Legal (.clear i)) :
    ∃ w' c c', w.step (.clear i) = .ok (w', ⟨0, true⟩) ∧ OnlyAt w w' i c c' ∧ Emptied w w' c.elems c.elems ∧ c'.count = 0 ∧ ∀ xs ∈ c'.seqs, xs = [] := by
  obtain ⟨c, hi⟩ : ∃ c, w.cs[i]? = some c := ⟨_, List.getElem?_eq_getElem l⟩
  obtain ⟨hc, s, cl, sa, sc, z0, h0⟩ := I.facts hi
  obtain ⟨m', c', k1, k2, k3, k4, b⟩ := clear_spec (m := w.m) s h0 (I.count_le_alloc hc) (I.count_le_cons hc) cl
  refine ⟨⟨m', w.cs.set i c', w.hs⟩, c, c', by simp only [World.step, hi, k1, World.put], b.onlyAt hi, ⟨?_, ?_, k2, rfl⟩, by rw [b.count']; rfl, ?_⟩
  · intro z; show z ∈ m'.cons ↔ _; rw [k4]; exact mem_diff_nodup I.cons_nodup z
  · intro z; show z ∈ m'.alloc ↔ _; rw [k3]; exact mem_diff_nodup I.nodup z
  · intro xs h; exact (b.seqs_mem xs h).eq_nil

/-- The destructor. -/
theorem eff_destroy (I : Inv w) (l : w.Legal (.destroy i)) :
    ∃ w' c, w.step (.destroy i) = .ok (w', ⟨0, true⟩) ∧ w.cs[i]? = some c ∧ w'.cs = w.cs.eraseIdx i ∧ Emptied w w' c.elems (c.hd :: c.elems) := by
  obtain ⟨c, hi⟩ : ∃ c, w.cs[i]? = some c := ⟨_, List.getElem?_eq_getElem l⟩
  obtain ⟨hc, s, cl, sa, sc, z0, h0⟩ := I.facts hi
  obtain ⟨m', k1, k2, k3, k4⟩ := deleteAll_spec (m := w.m) s (I.count_le_alloc hc) (I.count_le_cons hc)
  have ha : c.hd ∈ m'.alloc := by rw [k3]; exact (mem_diff_nodup I.nodup _).2 ⟨I.mem_alloc hc (by simp), s.hd_not⟩
  have nd : m'.alloc.Nodup := by rw [k3]; exact I.nodup.diff
  refine ⟨⟨{ m' with alloc := m'.alloc.erase c.hd }, w.cs.eraseIdx i, w.hs⟩, c, by simp only [World.step, hi, k1, Mem.deallocate, ha, if_true], hi, rfl, ?_, ?_, k2, rfl⟩
  · intro z; show z ∈ m'.cons ↔ _; rw [k4]; exact mem_diff_nodup I.cons_nodup z
  · intro z
    show z ∈ m'.alloc.erase c.hd ↔ _
    rw [nd.mem_erase_iff, k3, mem_diff_nodup I.nodup, List.mem_cons]
    tauto

/-- One element of `merge`. -/
theorem eff_transfer {j : Nat} {x : Id} {e : Nat → Env} (I : Inv w) (l : w.Legal (.transfer i j x e)) :
    (∃ w', w.step (.transfer i j x e) = .ok (w', ⟨x, true⟩) ∧ Handed w w' i j x ∧ (∀ c, w.cs[i]? = some c → ¬ c.Bans w.m.val [] (w.m.val x))) ∨
    (∃ w' y, w.step (.transfer i j x e) = .ok (w', ⟨y, false⟩) ∧ Unchanged w w' i ∧ w'.m = w.m ∧
      ∀ c, w.cs[i]? = some c → y ∈ c.elems ∧ ∃ S ∈ c.asked, S.unique = true ∧ S.equiv (w.m.val x) (w.m.val y) = true) ∨
    (∃ w', w.step (.transfer i j x e) = .threw (w', ⟨0, false⟩) ∧ Unchanged w w' i ∧ w'.m = w.m ∧ ∃ k, ¬ (e k).Quiet) := by
  obtain ⟨ne, c, d, hi, hj, hxd, env⟩ := l
  obtain ⟨hc, s, cl, sa, sc, z0, h0⟩ := I.facts hi
  obtain ⟨hc2, s2, cl2, sa2, sc2, z02, h02⟩ := I.facts hj
  have hx : x ∉ c.hd :: c.elems := by
    intro k
    have hm : c ∈ w.cs.eraseIdx j := by
      rw [List.mem_eraseIdx_iff_getElem?]
      exact ⟨i, ne, hi⟩
    exact I.disj hj hm (by simp [hxd]) k
  have hset : ∀ c', (w.cs.set i c').set j d = w.cs.set i c' := fun c' => set_same (by rw [List.getElem?_set_ne ne]; exact hj)
  rcases transfer_spec (m := w.m) (e := e) s s2 (I.nz' (sa2 x hxd)) hx hxd (sa2 x hxd) sa (sa2 x hxd) env cl cl2 with
    ⟨c', d', k1, b, k2, b2, k3, k4⟩ | ⟨c', y, k1, k2, b, k3, k4⟩ | ⟨c', k1, b, k2, k3⟩
  · left
    refine ⟨⟨w.m, (w.cs.set i c').set j d', w.hs⟩, by simp only [World.step, hi, hj, k1],
      ⟨rfl, rfl, c, c', d, d', hi, hj, rfl, b.specs, b.hd, b2.specs, b2.hd, hxd, ?_, ?_, k2, k3⟩, ?_⟩
    · rw [b.count', s.count]; rfl
    · have := List.length_pos_of_mem hxd
      rw [b2.count', List.length_erase_of_mem hxd, s2.count]; omega
    · intro c2 hc2
      obtain rfl := Option.some.inj (hi.symm.trans hc2)
      rw [bans_nil]; exact k4
  · right; left
    refine ⟨⟨w.m, w.cs.set i c', w.hs⟩, y, by simp only [World.step, hi, hj, k1, hset], ⟨⟨rfl, rfl, fun _ _ => rfl, rfl⟩, c, c', b.onlyAt hi, ?_, k3⟩, rfl, ?_⟩
    · rw [b.count', s.count]
    · intro d hd
      obtain rfl := Option.some.inj (hi.symm.trans hd)
      exact ⟨k2, k4⟩
  · right; right
    refine ⟨⟨w.m, w.cs.set i c', w.hs⟩, by simp only [World.step, hi, hj, k1, hset], ⟨⟨rfl, rfl, fun _ _ => rfl, rfl⟩, c, c', b.onlyAt hi, ?_, k2⟩, rfl, k3⟩
    rw [b.count', s.count]

theorem Handed.survives {j : Nat} {x z : Id} (I : Inv w) (ne : i ≠ j) (g : Handed w w' i j x) (hz : z ≠ x) : Survives w w' z := by
  obtain ⟨hm, hs, c, c', d, d', hi, hj, hcs, -, h1, -, h2, -, -, -, e, q⟩ := g
  obtain ⟨S, -, k⟩ := each_head e (asked_ne (I.facts hi).2.1)
  refine ⟨fun a ha hza => ?_, fun h => by rw [hs]; exact h, fun _ => by rw [hm]⟩
  obtain ⟨a', ha', e1, e2⟩ := survive_at (w' := ⟨w.m, w.cs.set i c', w.hs⟩) hi rfl h1 (fun h => k.mem h) a ha hza
  have hj' : (w.cs.set i c')[j]? = some d := by rw [List.getElem?_set_ne ne]; exact hj
  obtain ⟨a2, ha2, e3, e4⟩ := survive_at (w := ⟨w.m, w.cs.set i c', w.hs⟩) (w' := w') (c' := d') hj' hcs h2
    (fun h => by rw [lost_elems q]; exact (List.mem_erase_of_ne hz).2 h) a' ha' e2
  exact ⟨a2, ha2, e3.trans e1, e4⟩

/-- `relocate`. -/
theorem eff_relocate {k : Nat} {pos x : Id} (I : Inv w) (l : w.Legal (.relocate i k pos x)) :
    ∃ w' c c', w.step (.relocate i k pos x) = .ok (w', ⟨x, true⟩) ∧ OnlyAt w w' i c c' ∧ w'.m = w.m ∧ w'.hs = w.hs ∧ c'.count = c.count ∧
      ∃ xs xs', c.seqs[k]? = some xs ∧ c'.seqs = c.seqs.set k xs' ∧ xs'.Perm xs ∧ PutBefore c.hd pos x xs xs' ∧ c'.elems.Perm c.elems := by
  obtain ⟨c, L, hi, hL, kd, hx, hp⟩ := l
  obtain ⟨hc, s, cl, sa, sc, z0, h0⟩ := I.facts hi
  obtain ⟨xs, q1, q2, q3⟩ := fit_get s.fit hL
  obtain ⟨L', xs', k1, k2, k3, k4, k5⟩ := relocate_spec (pos := pos) kd q2 (q3.mem_iff.2 hx) (by
    rcases List.mem_cons.1 hp with h | h
    · simp [h]
    · exact List.mem_cons_of_mem _ (q3.mem_iff.2 h))
  have av : ∀ z ∈ w.m.alloc, L'.Avoids z := by
    intro z hz
    cases L with
    | ord => exact nomatch kd
    | hash => exact nomatch kd
    | seq => obtain rfl := Option.some.inj k1; trivial
    | rnd => obtain rfl := Option.some.inj k1; trivial
  obtain ⟨b, b2⟩ := became_set (m := w.m) s cl hL k2 k3 (k4.trans q3) av
  exact ⟨⟨w.m, w.cs.set i _, w.hs⟩, c, _, by simp only [World.step, hi, hL, k1]; try rfl, b.onlyAt hi, rfl, rfl, rfl, xs, xs', q1, b2, k4, k5, b.perm⟩

/-- Rearrangements. -/
theorem eff_rearrange {k : Nat} {a : Rearr V} (I : Inv w) (l : w.Legal (.rearrange i k a)) :
    ∃ w' c c' S xs xs', OnlyAt w w' i c c' ∧ w'.m = w.m ∧ w'.hs = w.hs ∧ c'.count = c.count ∧ c.asked[k]? = some S ∧ c.seqs[k]? = some xs ∧
      c'.seqs = c.seqs.set k xs' ∧ xs'.Perm xs ∧ c'.elems.Perm c.elems ∧
      ((w.step (.rearrange i k a) = .ok (w', ⟨0, true⟩) ∧ a.Does c.hd w.m.val S xs xs') ∨
        (w.step (.rearrange i k a) = .threw (w', ⟨0, true⟩) ∧ a.Fails c.hd w.m.val S xs xs')) := by
  obtain ⟨c, L, xs, hi, hL, kd, hxs, ok⟩ := l
  obtain ⟨hc, s, cl, sa, sc, z0, h0⟩ := I.facts hi
  obtain ⟨ys, g1, g2, g3⟩ := fit_get s.fit hL
  obtain rfl := Option.some.inj (hxs.symm.trans g1)
  obtain ⟨L', xs', k1, k2, k3, k4, k5⟩ := rearrange_spec (n := c.budget) kd g2 ok (by rw [g3.length_eq, Container.budget, s.count]; omega)
    (fun h => z0 (g3.mem_iff.1 h))
  obtain ⟨b1, b2⟩ := became_set (pool := w.m.alloc) s cl hL k1 k2 (k3.trans g3) (fun z _ => k4 z)
  refine ⟨⟨w.m, w.cs.set i { c with ls := c.ls.set k L' }, w.hs⟩, c, _, L.spec, xs, xs', b1.onlyAt hi, rfl, rfl, rfl, ?_, hxs, b2, k3, b1.perm, ?_⟩
  · simp only [Container.asked, List.getElem?_map, hL]; rfl
  · rcases k5 with ⟨k5, k6⟩ | ⟨k5, k6⟩
    · exact Or.inl ⟨by simp only [World.step, hi, hL, k5]; try rfl, k6⟩
    · exact Or.inr ⟨by simp only [World.step, hi, hL, k5]; try rfl, k6⟩

/-- `load_` of one index. -/
theorem eff_place {k : Nat} {fail : Bool} {ins : List (Option Id × Id)} (I : Inv w) (l : w.Legal (.place i k fail ins)) :
    ∃ w' c c' S xs xs', OnlyAt w w' i c c' ∧ w'.m = w.m ∧ w'.hs = w.hs ∧ c'.count = c.count ∧ c.asked[k]? = some S ∧ c.seqs[k]? = some xs ∧
      c'.seqs = c.seqs.set k xs' ∧ xs'.Perm xs ∧ c'.elems.Perm c.elems ∧
      ((w.step (.place i k fail ins) = .ok (w', ⟨0, true⟩) ∧ S.moves w.m.val xs ins = (xs', true)) ∨
       (w.step (.place i k fail ins) = .threw (w', ⟨0, true⟩) ∧ (S.moves w.m.val xs ins = (xs', false) ∨ (xs' = xs ∧ fail = true)))) := by
  obtain ⟨c, L, hi, hL, ok⟩ := l
  obtain ⟨hc, s, cl, sa, sc, z0, h0⟩ := I.facts hi
  obtain ⟨xs, g1, g2, g3⟩ := fit_get s.fit hL
  obtain ⟨L', xs', k1, k2, k3, k4, k5⟩ := place_spec (n := c.budget) (fail := fail) (okAll_get s.ok hL) g2
    (fun a ha => ⟨g3.mem_iff.2 (ok a ha).1, fun q hq => ⟨g3.mem_iff.2 ((ok a ha).2 q hq).1, ((ok a ha).2 q hq).2⟩⟩)
    (by rw [g3.length_eq, Container.budget, s.count]; omega) (by rw [g3.length_eq, Container.budget, s.count]; exact log_budget4 _)
  obtain ⟨b1, b2⟩ := became_set (pool := w.m.alloc) s cl hL k1 k2 (k3.trans g3) (fun z hz => k4 z (clear_get cl hL z hz))
  refine ⟨⟨w.m, w.cs.set i { c with ls := c.ls.set k L' }, w.hs⟩, c, _, L.spec, xs, xs', b1.onlyAt hi, rfl, rfl, rfl, ?_, g1, b2, k3, b1.perm, ?_⟩
  · simp only [Container.asked, List.getElem?_map, hL]; rfl
  · rcases k5 with ⟨k5, k6⟩ | ⟨k5, k6⟩
    · exact Or.inl ⟨by simp only [World.step, hi, hL, k5]; try rfl, k6⟩
    · exact Or.inr ⟨by simp only [World.step, hi, hL, k5]; try rfl, k6⟩

/-- `rehash`. -/
theorem eff_rehash {k n : Nat} {e : Env} (I : Inv w) (l : w.Legal (.rehash i k n e)) :
    ∃ w', (w.step (.rehash i k n e) = .ok (w', ⟨0, true⟩) ∨ (w.step (.rehash i k n e) = .threw (w', ⟨0, true⟩) ∧ ¬ e.Quiet)) ∧ w'.m = w.m ∧ Unchanged w w' i := by
  obtain ⟨c, L, hi, hL, le⟩ := l
  obtain ⟨hc, s, cl, sa, sc, z0, h0⟩ := I.facts hi
  obtain ⟨xs, q1, q2, q3⟩ := fit_get s.fit hL
  have hlen : c.count = xs.length := by rw [s.count, q3.length_eq]
  obtain ⟨L', k1, k2, k3, xs', k4, k5⟩ := rehash_spec (pool := w.m.alloc) (okAll_get s.ok hL) q2 (by rw [← hlen]; exact le)
    (fun z hz => sa z (q3.mem_iff.1 hz)) (clear_get cl hL)
  obtain ⟨b, b2⟩ := became_set (m := w.m) s cl hL k2 k4 ((Same.perm k5).trans q3) k3
  have un : Unchanged w ⟨w.m, w.cs.set i { c with ls := c.ls.set k L' }, w.hs⟩ i := by
    refine ⟨⟨rfl, rfl, fun _ _ => rfl, rfl⟩, c, _, b.onlyAt hi, rfl, ?_⟩
    rw [b2]
    have go : ∀ {Ls : List (Layer V)} {xss : List (List Id)} {k : Nat}, Fit w.m.val c.hd c.elems Ls xss → Ls[k]? = some L → xss[k]? = some xs →
        Each (fun S xs ys => S.Same w.m.val xs ys) (Ls.map Layer.spec) xss (xss.set k xs') := by
      intro Ls
      induction Ls with
      | nil => intro xss k f h; exact nomatch h
      | cons M Ls ih =>
        intro xss k f h h2
        obtain ⟨ys, yss, rfl, w1, p, f2⟩ := f.cases
        cases k with
        | zero =>
          obtain rfl : M = L := by simpa using h
          obtain rfl : ys = xs := by simpa using h2
          exact ⟨k5, each_refl f2⟩
        | succ k => exact ⟨Same.refl _, ih f2 (by simpa using h) (by simpa using h2)⟩
    exact go s.fit hL q1
  refine ⟨⟨w.m, w.cs.set i { c with ls := c.ls.set k L' }, w.hs⟩, ?_, rfl, un⟩
  rw [← hlen] at k1
  rcases k1 with k1 | ⟨k1, k6⟩
  · left; simp only [World.step, hi, hL, k1]
  · right; exact ⟨by simp only [World.step, hi, hL, k1], k6⟩

theorem mem_set_of_ne {l : List (Option Id)} {h : Nat} {z : Id} {nh a : Option Id} (hh : l[h]? = some nh) (hz : nh ≠ some z) (m : some z ∈ l) : some z ∈ l.set h a := by
  obtain ⟨k, hk⟩ := List.mem_iff_getElem?.1 m
  have : k ≠ h := by rintro rfl; rw [hh] at hk; exact hz (Option.some.inj hk)
  exact List.mem_iff_getElem?.2 ⟨k, by rw [List.getElem?_set_ne (Ne.symm this)]; exact hk⟩

theorem mem_swap {l : List (Option Id)} {h g : Nat} {z : Id} {nh ng : Option Id} (hh : l[h]? = some nh) (hg : l[g]? = some ng) (m : some z ∈ l) :
    some z ∈ (l.set h ng).set g nh := by
  obtain ⟨k, hk⟩ := List.mem_iff_getElem?.1 m
  have lh := (List.getElem?_eq_some_iff.1 hh).1
  have lg := (List.getElem?_eq_some_iff.1 hg).1
  by_cases e1 : k = g
  · subst e1
    by_cases e2 : h = k
    · subst e2
      refine List.mem_iff_getElem?.2 ⟨h, ?_⟩
      rw [List.getElem?_set_self (by simpa using lh), ← hk, hh]
    · refine List.mem_iff_getElem?.2 ⟨h, ?_⟩
      rw [List.getElem?_set_ne (Ne.symm e2), List.getElem?_set_self lh, ← hk, hg]
  · by_cases e2 : k = h
    · subst e2
      refine List.mem_iff_getElem?.2 ⟨g, ?_⟩
      rw [List.getElem?_set_self (by simpa using lg), ← hk, hh]
    · refine List.mem_iff_getElem?.2 ⟨k, ?_⟩
      rw [List.getElem?_set_ne (Ne.symm e1), List.getElem?_set_ne (Ne.symm e2)]
      exact hk

theorem mem_move {l : List (Option Id)} {h g : Nat} {z : Id} {nh ng : Option Id} (ne : h ≠ g) (hh : l[h]? = some nh) (hg : l[g]? = some ng) (hz : nh ≠ some z)
    (m : some z ∈ l) : some z ∈ (l.set h ng).set g none := by
  have := mem_swap hh hg m
  obtain ⟨k, hk⟩ := List.mem_iff_getElem?.1 this
  have lg := (List.getElem?_eq_some_iff.1 hg).1
  have e1 : k ≠ g := by
    rintro rfl
    rw [List.getElem?_set_self (by simpa using lg)] at hk
    exact hz (Option.some.inj hk)
  rw [List.getElem?_set_ne (Ne.symm e1)] at hk
  exact List.mem_iff_getElem?.2 ⟨k, by rw [List.getElem?_set_ne (Ne.symm e1)]; exact hk⟩

theorem deleteOpt_val {m m' : Mem V} {nh : Option Id} (h : m.deleteOpt nh = some m') : m'.val = m.val := by
  cases nh with
  | none => obtain rfl := Option.some.inj h; rfl
  | some x =>
    simp only [Mem.deleteOpt, Mem.deleteNode, Mem.destroy, Mem.deallocate] at h
    by_cases hx : x ∈ m.cons
    · simp only [hx, if_true] at h
      by_cases ha : x ∈ m.alloc
      · simp only [ha, if_true] at h
        obtain rfl := Option.some.inj h; rfl
      · simp only [ha, if_false] at h; exact nomatch h
    · simp only [hx, if_false] at h; exact nomatch h

/-- Two containers have been exchanged. -/
theorem survives_exchange {i j : Nat} {c d : Container V} {z : Id} (hi : w.cs[i]? = some c) (hj : w.cs[j]? = some d) :
    Survives w ⟨w.m, (w.cs.set i d).set j c, w.hs⟩ z := by
  refine ⟨fun a ha k => ⟨a, ?_, rfl, k⟩, fun k => k, fun _ => rfl⟩
  obtain ⟨n, hn⟩ := List.mem_iff_getElem?.1 ha
  have lh := (List.getElem?_eq_some_iff.1 hi).1
  have lg := (List.getElem?_eq_some_iff.1 hj).1
  by_cases e1 : n = i
  · refine List.mem_iff_getElem?.2 ⟨j, ?_⟩
    rw [List.getElem?_set_self (by simpa using lg), ← hi, ← hn, e1]
  · by_cases e2 : n = j
    · refine List.mem_iff_getElem?.2 ⟨i, ?_⟩
      by_cases e3 : i = j
      · exact absurd (e2.trans e3.symm) e1
      · rw [List.getElem?_set_ne (Ne.symm e3), List.getElem?_set_self lh, ← hj, ← hn, e2]
    · exact List.mem_iff_getElem?.2 ⟨n, by rw [List.getElem?_set_ne (Ne.symm e2), List.getElem?_set_ne (Ne.symm e1)]; exact hn⟩

theorem Copied.survives {c c' : Container V} {hd : Id} {ns : List Id} {z : Id} (k : Copied w w' c c' hd ns) (I : Inv w) : Survives w w' z :=
  ⟨fun a ha h => ⟨a, by rw [k.cs]; simp [ha], rfl, h⟩, fun h => by rw [k.hs]; exact h, fun h => k.val z (I.cons_sub h)⟩

theorem eff_swap {i j : Nat} {c d : Container V} (hi : w.cs[i]? = some c) (hj : w.cs[j]? = some d) (k : c.kinds = d.kinds) :
    w.step (.swap i j) = .ok (⟨w.m, (w.cs.set i d).set j c, w.hs⟩, ⟨0, true⟩) := by
  simp only [World.step, hi, hj, swap_spec k]

theorem eff_swapElements {i j : Nat} {c d : Container V} (hi : w.cs[i]? = some c) (hj : w.cs[j]? = some d) (k : c.asked = d.asked) :
    w.step (.swapElements i j) = .ok (⟨w.m, (w.cs.set i d).set j c, w.hs⟩, ⟨0, true⟩) := by
  simp only [World.step, hi, hj, swapElements_spec (c := c) (d := d) k]

/-- The effect of copy construction. -/
theorem eff_copy {i : Nat} {hd y : Id} {ns : List Id} {e : Nat → Env} {F : CopyFault} (I : Inv w) (l : w.Legal (.copy i hd y ns e F)) :
    (∃ w' c c', w.step (.copy i hd y ns e F) = .ok (w', ⟨0, true⟩) ∧ w.cs[i]? = some c ∧ ¬ F.Some c.count ∧ Copied w w' c c' hd ns) ∨
    (∃ w' c, w.step (.copy i hd y ns e F) = .threw (w', ⟨0, false⟩) ∧ w.cs[i]? = some c ∧ F.Some c.count ∧ w'.cs = w.cs ∧ w'.hs = w.hs ∧
      w'.m.alloc = w.m.alloc ∧ w'.m.cons = w.m.cons ∧ ∀ z ∈ w.m.alloc, w'.m.val z = w.m.val z) := by
  obtain ⟨c, hi, hn, nd, fr, env⟩ := l
  obtain ⟨hc, s, cl, sa, sc, z0, h0⟩ := I.facts hi
  rcases copy_spec (m := w.m) (z := y) (F := F) s (by simp only [List.mem_cons, not_or]; exact ⟨h0.symm, z0⟩) hn nd
      (fun k => (fr 0 k).1 rfl) (fun n h k => (fr n h).2.1 (sa n k)) env with
    ⟨m', c', k1, k0, k2, k3, k4, k5, k6, k7, k8, k9, k10, k11, -⟩ | ⟨m', k1, k0, k2, k3, k4⟩
  · refine Or.inl ⟨⟨m', w.cs ++ [c'], w.hs⟩, c, c', by simp only [World.step, hi, k1, World.add]; try rfl, hi, k0, ?_⟩
    have e1 : c.elems.map (cloneOf c.hd hd c.elems ns) = ns :=
      map_cloneOf (List.nodup_cons.2 ⟨fun h => ?_, ?_⟩) (by rw [← s.count, hn])
    · have vs : ∀ xs ∈ c.seqs, (xs.map (cloneOf c.hd hd c.elems ns)).map m'.val = xs.map w.m.val := by
        intro xs hxs
        rw [List.map_map]
        refine List.map_congr_left fun x hx => k11 x ?_
        obtain ⟨n, hn'⟩ := List.mem_iff_getElem?.1 hxs
        have hlt : n < c.ls.length := by simpa [Container.seqs] using (List.getElem?_eq_some_iff.1 hn').1
        obtain ⟨xs', g1, g2, g3⟩ := fit_get s.fit (List.getElem?_eq_getElem hlt)
        obtain rfl := Option.some.inj (hn'.symm.trans g1)
        exact g3.mem_iff.1 hx
      refine ⟨rfl, rfl, k6, k7, ?_, k8, k9, ⟨cloneOf c.hd hd c.elems ns, k10, e1⟩, ?_, k2, k3, fun z hz => k4 z fun h => (fr z (by simp [h])).2.1 hz⟩
      · rw [k5.count, k7, hn]
      · show c'.seqs.map _ = _
        rw [k10, List.map_map]
        exact List.map_congr_left fun xs hxs => vs xs hxs
    · exact (List.nodup_cons.1 s.nodup).1 h
    · exact (List.nodup_cons.1 s.nodup).2
  · refine Or.inr ⟨⟨m', w.cs, w.hs⟩, c, by simp only [World.step, hi, k1, World.add, Option.toList_none, List.append_nil]; try rfl, hi, k0, rfl, rfl, k2, k3, ?_⟩
    exact fun z hz => k4 z fun h => (fr z (by simp [h])).2.1 hz

/-- The effect of the construction of an empty container with the functions of another one. -/
theorem eff_newLike {i : Nat} {hd y : Id} {pol : Pol} {e : Nat → Env} {F : CopyFault} (I : Inv w) (l : w.Legal (.newLike i hd y pol e F)) :
    (∃ w' c c', w.step (.newLike i hd y pol e F) = .ok (w', ⟨0, true⟩) ∧ w.cs[i]? = some c ∧ ¬ (F.header = true ∨ F.index = true) ∧ w'.cs = w.cs ++ [c'] ∧ w'.hs = w.hs ∧
      w'.m = w.m.allocate hd ∧ c'.hd = hd ∧ c'.asked = c.asked ∧ c'.count = 0 ∧ c'.seqs = c.seqs.map fun _ => []) ∨
    (∃ c, w.step (.newLike i hd y pol e F) = .threw (w, ⟨0, false⟩) ∧ w.cs[i]? = some c ∧ (F.header = true ∨ F.index = true)) := by
  obtain ⟨c, hi, fr, env⟩ := l
  obtain ⟨hc, s, cl, sa, sc, z0, h0⟩ := I.facts hi
  obtain ⟨k1, k2, k3, k4⟩ := newLike_spec (w := w) (z := y) (pol := pol) s fr.1 env
  by_cases f1 : F.header = true
  · exact Or.inr ⟨c, by simp only [World.step, hi, Container.newLike, f1, if_true, World.add, Option.toList_none, List.append_nil]; try rfl, hi, Or.inl f1⟩
  · by_cases f2 : F.index = true
    · have k : c.newLike w.m hd y pol e F = .threw (w.m, none) := by
        unfold Container.newLike
        rw [if_neg f1]
        simp [f2, dropHeader, Mem.deallocate, Mem.allocate]
      exact Or.inr ⟨c, by simp only [World.step, hi, k, World.add, Option.toList_none, List.append_nil]; try rfl, hi, Or.inr f2⟩
    · refine Or.inl ⟨⟨w.m.allocate hd, w.cs ++ [c.blank hd y pol e], w.hs⟩, c, c.blank hd y pol e,
        by simp only [World.step, hi, Container.newLike, f1, f2, if_false, World.add, Option.toList_some]; try rfl, hi, by tauto, rfl, rfl, rfl, rfl, k3, rfl, ?_⟩
      have f := k1.fit
      rw [k2] at f
      have hl : (c.blank hd y pol e).ls.length = c.ls.length := by
        have := congrArg List.length k3
        simpa [specs] using this
      refine List.ext_getElem? fun n => ?_
      rw [List.getElem?_map]
      have hsl : (c.blank hd y pol e).seqs.length = c.seqs.length := by simp [Container.seqs, hl]
      cases hn : (c.blank hd y pol e).seqs[n]? with
      | none =>
        rw [List.getElem?_eq_none_iff, hsl] at hn
        rw [List.getElem?_eq_none_iff.2 hn]; rfl
      | some xs =>
        have hlt := (List.getElem?_eq_some_iff.1 hn).1
        have hL : n < (c.blank hd y pol e).ls.length := by simpa [Container.seqs] using hlt
        obtain ⟨xs', g1, g2, g3⟩ := fit_get k1.fit (List.getElem?_eq_getElem hL)
        obtain rfl := Option.some.inj (hn.symm.trans g1)
        rw [k2] at g3
        rw [g3.eq_nil]
        rw [hsl] at hlt
        rw [List.getElem?_eq_getElem hlt]; rfl

/-- An element that an operation is not directed at survives it. -/
theorem step_survives {o : Op V} {r : Ret} (I : Inv w) (l : w.Legal o) (hst : w.step o = .ok (w', r) ∨ w.step o = .threw (w', r)) {z : Id} (hz : z ∉ w.targets o) :
    Survives w w' z := by
  have fin : ∀ {w1 : World V} {r1 : Ret}, (w.step o = .ok (w1, r1) ∨ w.step o = .threw (w1, r1)) → Survives w w1 z → Survives w w' z := by
    intro w1 r1 k s
    rcases hst with h | h <;> rcases k with k | k <;> rw [h] at k
    · obtain ⟨rfl, -⟩ := Prod.mk.inj (Out.ok.inj k); exact s
    · exact nomatch k
    · exact nomatch k
    · obtain ⟨rfl, -⟩ := Prod.mk.inj (Out.threw.inj k); exact s
  cases o with
  | new hd y is =>
    exact fin (Or.inl rfl) ⟨fun c hc k => ⟨c, by simp [hc], rfl, k⟩, fun k => k, fun _ => rfl⟩
  | insert i v x f hint e =>
    rcases eff_insert I l with ⟨w1, k1, k2, -, -, -, k3, -⟩ | ⟨w1, y, k1, k2, -⟩ | ⟨w1, k1, k2, -⟩
    · exact fin (Or.inl k1) (k2.survives I fun h => by rw [k3]; exact h)
    · exact fin (Or.inl k1) (k2.survives I z)
    · exact fin (Or.inr k1) (k2.survives I z)
  | emplace i v x f hint e =>
    rcases eff_emplace I l with ⟨w1, k1, k2, -, -, -, k3, -⟩ | ⟨w1, y, k1, k2, -⟩ | ⟨w1, k1, k2, -⟩
    · exact fin (Or.inl k1) (k2.survives I fun h => by rw [k3]; exact h)
    · exact fin (Or.inl k1) (k2.survives I z)
    · exact fin (Or.inr k1) (k2.survives I z)
  | extract i x =>
    obtain ⟨w1, k1, k2, k3, k4⟩ := eff_extract I l
    exact fin (Or.inl k1) (k2.survives (by simpa [World.targets] using hz) fun h => by rw [k4]; simp [h])
  | insertNh i h hint e =>
    have hl := l
    obtain ⟨c, hi, hl, ho, env⟩ := hl
    obtain ⟨nh, hh⟩ : ∃ nh, w.hs[h]? = some nh := ⟨_, List.getElem?_eq_getElem hl⟩
    cases nh with
    | none =>
      refine fin (w1 := ⟨w.m, w.cs.set i c, w.hs.set h none⟩) (Or.inl (by simp only [World.step, hi, hh, Container.insertNh]; try rfl)) ⟨?_, fun k => ?_, fun _ => rfl⟩
      · exact survive_at hi rfl rfl (fun h => h)
      · exact mem_set_of_ne hh (fun h => nomatch h) k
    | some x =>
      have hzx : z ≠ x := by simpa [World.targets, hh] using hz
      rcases eff_insertNh I l hh with ⟨w1, k1, k2, -, k3, -⟩ | ⟨w1, y, k1, k2, -⟩ | ⟨w1, k1, k2, -⟩
      · exact fin (Or.inl k1) (k2.survives I fun k => by rw [k3]; exact mem_set_of_ne hh (by simpa using Ne.symm hzx) k)
      · exact fin (Or.inl k1) (k2.survives I z)
      · exact fin (Or.inr k1) (k2.survives I z)
  | dropHandle h =>
    obtain ⟨nh, hh⟩ : ∃ nh, w.hs[h]? = some nh := ⟨_, List.getElem?_eq_getElem l⟩
    have hzx : nh ≠ some z := by rintro rfl; simp [World.targets, hh] at hz
    obtain ⟨w2, r2, q, -⟩ := step_safe I l
    simp only [World.step, hh] at q
    cases hd : w.m.deleteOpt nh with
    | none => rw [hd] at q; rcases q with q | q <;> exact nomatch q
    | some m' =>
      exact fin (w1 := ⟨m', w.cs, w.hs.set h none⟩) (Or.inl (by simp only [World.step, hh, hd]; try rfl)) ⟨fun c hc k => ⟨c, hc, rfl, k⟩, mem_set_of_ne hh hzx,
        fun _ => by show m'.val z = _; rw [deleteOpt_val hd]⟩
  | moveHandle h g =>
    obtain ⟨nh, hh⟩ : ∃ nh, w.hs[h]? = some nh := ⟨_, List.getElem?_eq_getElem l.1⟩
    obtain ⟨ng, hg⟩ : ∃ nh, w.hs[g]? = some nh := ⟨_, List.getElem?_eq_getElem l.2⟩
    have hzx : nh ≠ some z := by rintro rfl; simp [World.targets, hh] at hz
    by_cases e : h = g
    · subst e
      exact fin (w1 := w) (Or.inl (by simp only [World.step, hh, if_true]; try rfl)) ⟨fun c hc k => ⟨c, hc, rfl, k⟩, fun k => k, fun _ => rfl⟩
    · obtain ⟨w2, r2, q, -⟩ := step_safe I l
      simp only [World.step, hh, hg, if_neg e] at q
      cases hd : w.m.deleteOpt nh with
      | none => rw [hd] at q; rcases q with q | q <;> exact nomatch q
      | some m' =>
        exact fin (w1 := ⟨m', w.cs, (w.hs.set h ng).set g none⟩) (Or.inl (by simp only [World.step, hh, hg, if_neg e, hd]; try rfl)) ⟨fun c hc k => ⟨c, hc, rfl, k⟩,
          mem_move e hh hg hzx, fun _ => by show m'.val z = _; rw [deleteOpt_val hd]⟩
  | newHandle =>
    exact fin (w1 := ⟨w.m, w.cs, w.hs ++ [none]⟩) (Or.inl rfl) ⟨fun c hc k => ⟨c, hc, rfl, k⟩, by simp, fun _ => rfl⟩
  | swapHandles h g =>
    obtain ⟨nh, hh⟩ : ∃ nh, w.hs[h]? = some nh := ⟨_, List.getElem?_eq_getElem l.1⟩
    obtain ⟨ng, hg⟩ : ∃ nh, w.hs[g]? = some nh := ⟨_, List.getElem?_eq_getElem l.2⟩
    exact fin (w1 := ⟨w.m, w.cs, (w.hs.set h ng).set g nh⟩) (Or.inl (by simp only [World.step, hh, hg]; try rfl)) ⟨fun c hc k => ⟨c, hc, rfl, k⟩, mem_swap hh hg, fun _ => rfl⟩
  | erase i x =>
    obtain ⟨w1, k1, k2, k3, -⟩ := eff_erase I l
    exact fin (Or.inl k1) (k2.survives (by simpa [World.targets] using hz) fun h => by rw [k3.hs]; exact h)
  | clear i =>
    obtain ⟨w1, c, c', k1, o, ⟨-, -, e1, e2⟩, -⟩ := eff_clear I l
    have : z ∉ c.elems := by simpa [World.targets, o.pre] using hz
    exact fin (Or.inl k1) ⟨survive_at o.pre o.cs o.hd fun h => absurd h this, fun h => by rw [e2]; exact h, fun _ => by rw [e1]⟩
  | destroy i =>
    obtain ⟨w1, c, k1, hi, k2, -, -, e1, e2⟩ := eff_destroy I l
    have : z ∉ c.elems := by simpa [World.targets, hi] using hz
    refine fin (Or.inl k1) ⟨fun d hd k => ⟨d, ?_, rfl, k⟩, fun h => by rw [e2]; exact h, fun _ => by rw [e1]⟩
    rw [k2, List.mem_eraseIdx_iff_getElem?]
    obtain ⟨j, hj⟩ := List.mem_iff_getElem?.1 hd
    refine ⟨j, ?_, hj⟩
    rintro rfl
    obtain rfl := Option.some.inj (hi.symm.trans hj)
    exact this k
  | replace i x v a e =>
    have hzx : z ≠ x := by simpa [World.targets] using hz
    rcases eff_replace I l with ⟨w1, k1, k2, -⟩ | ⟨w1, k1, k2, -⟩ | ⟨w1, k1, k2, -⟩
    · exact fin (Or.inl k1) (k2.survives I hzx)
    · exact fin (Or.inl k1) (k2.survives z)
    · exact fin (Or.inr k1) (k2.survives z)
  | modify i x mod e =>
    have hzx : z ≠ x := by simpa [World.targets] using hz
    rcases eff_modify I l with ⟨w1, k1, k2, -⟩ | ⟨w1, k1, k2, k3, -⟩ | ⟨w1, r1, k1, k2, k3, -⟩
    · exact fin (Or.inl k1) (k2.survives I hzx)
    · exact fin (Or.inl k1) (k2.survives hzx fun h => by rw [k3.hs]; exact h)
    · exact fin (Or.inr k1) (k2.survives hzx fun h => by rw [k3.hs]; exact h)
  | modifyRb i x mod back e e' =>
    have hzx : z ≠ x := by simpa [World.targets] using hz
    rcases eff_modifyRb I l with ⟨w1, k1, k2, -⟩ | ⟨w1, k1, k2, k3, ⟨c, c', o, -, q⟩, -⟩ | ⟨w1, k1, k2, k3, -⟩ | ⟨w1, r1, k1, k2, k3, -⟩
    · exact fin (Or.inl k1) (k2.survives I hzx)
    · exact fin (Or.inl k1) ⟨survive_at o.pre o.cs o.hd fun h => by unfold Container.elems at *; rw [q]; exact h, fun h => by rw [k3]; exact h,
        fun _ => by rw [k2]; exact upd_other _ _ hzx⟩
    · exact fin (Or.inl k1) (k2.survives hzx fun h => by rw [k3.hs]; exact h)
    · exact fin (Or.inr k1) (k2.survives hzx fun h => by rw [k3.hs]; exact h)
  | transfer i j x e =>
    have hzx : z ≠ x := by simpa [World.targets] using hz
    rcases eff_transfer I l with ⟨w1, k1, k2, -⟩ | ⟨w1, y, k1, k2, -⟩ | ⟨w1, k1, k2, -⟩
    · exact fin (Or.inl k1) (k2.survives I l.1 hzx)
    · exact fin (Or.inl k1) (k2.survives I z)
    · exact fin (Or.inr k1) (k2.survives I z)
  | swap i j =>
    obtain ⟨c, d, hi, hj, k⟩ := l
    exact fin (w1 := ⟨w.m, (w.cs.set i d).set j c, w.hs⟩) (Or.inl (by simp only [World.step, hi, hj, swap_spec k]; try rfl)) (survives_exchange hi hj)
  | swapElements i j =>
    obtain ⟨c, d, hi, hj, k⟩ := l
    exact fin (w1 := ⟨w.m, (w.cs.set i d).set j c, w.hs⟩) (Or.inl (by simp only [World.step, hi, hj, swapElements_spec k]; try rfl)) (survives_exchange hi hj)
  | copy i hd y ns e F =>
    rcases eff_copy I l with ⟨w1, c, c', k1, hi, -, k2⟩ | ⟨w1, c, k1, -, -, k2, k3, k4, k5, k6⟩
    · exact fin (Or.inl k1) (k2.survives I)
    · exact fin (Or.inr k1) ⟨fun a ha k => ⟨a, by rw [k2]; exact ha, rfl, k⟩, fun k => by rw [k3]; exact k, fun k => k6 z (I.cons_sub k)⟩
  | newLike i hd y pol e F =>
    rcases eff_newLike I l with ⟨w1, c, c', k1, hi, -, k2, k3, k4, -⟩ | ⟨c, k1, -⟩
    · exact fin (Or.inl k1) ⟨fun a ha k => ⟨a, by rw [k2]; simp [ha], rfl, k⟩, fun k => by rw [k3]; exact k, fun _ => by rw [k4]; rfl⟩
    · exact fin (Or.inr k1) ⟨fun a ha k => ⟨a, ha, rfl, k⟩, fun k => k, fun _ => rfl⟩
  | relocate i k pos x =>
    obtain ⟨w1, c, c', k1, o, k2, k3, -, xs, xs', -, -, -, -, p⟩ := eff_relocate I l
    exact fin (Or.inl k1) ⟨survive_at o.pre o.cs o.hd fun h => p.mem_iff.2 h, fun h => by rw [k3]; exact h, fun _ => by rw [k2]⟩
  | rearrange i k a =>
    obtain ⟨w1, c, c', S, xs, xs', o, k2, k3, -, -, -, -, -, p, k1⟩ := eff_rearrange I l
    have q : Survives w w1 z := ⟨survive_at o.pre o.cs o.hd fun h => p.mem_iff.2 h, fun h => by rw [k3]; exact h, fun _ => by rw [k2]⟩
    rcases k1 with ⟨k1, -⟩ | ⟨k1, -⟩
    · exact fin (Or.inl k1) q
    · exact fin (Or.inr k1) q
  | place i k fail ins =>
    obtain ⟨w1, c, c', S, xs, xs', o, k2, k3, -, -, -, -, -, p, k1⟩ := eff_place I l
    have q : Survives w w1 z := ⟨survive_at o.pre o.cs o.hd fun h => p.mem_iff.2 h, fun h => by rw [k3]; exact h, fun _ => by rw [k2]⟩
    rcases k1 with ⟨k1, -⟩ | ⟨k1, -⟩
    · exact fin (Or.inl k1) q
    · exact fin (Or.inr k1) q
  | rehash i k n e =>
    obtain ⟨w1, k1, k2, k3⟩ := eff_rehash I l
    rcases k1 with k1 | ⟨k1, -⟩
    · exact fin (Or.inl k1) (k3.survives I z)
    · exact fin (Or.inr k1) (k3.survives I z)

end MI.Cont
