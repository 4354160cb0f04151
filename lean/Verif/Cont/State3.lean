import Verif.Rnd.SiftLemmas
import Verif.Cont.State2
import Verif.Seq.SortLemmas
import Verif.Rnd.Algo2
import Verif.Cont.PlaceLemmas
/-!
Transfer between containers, `relocate`, `rehash` and construction.
-/
set_option linter.unusedVariables false
namespace MI.Cont
open MI
variable {V : Type}

section
variable {m : Mem V} {c : Container V} {pool : List Id}

theorem transfer_spec {d : Container V} {x : Id} {e : Nat → Env} (s : Sound m.val c) (t : Sound m.val d) (x0 : x ≠ 0)
    (hx : x ∉ c.hd :: c.elems) (hxd : x ∈ d.elems) (ha : x ∈ m.alloc) (sub : ∀ z ∈ c.elems, z ∈ pool) (xp : x ∈ pool)
    (env : EnvAll c.hd c.count pool e c.ls) (cl : Clear pool c.ls) (cl2 : Clear pool d.ls) :
    (∃ c' d', c.transfer m d x e = .ok (⟨m, c', x, true⟩, d') ∧ Became c c' m.val (x :: c.elems) pool ∧
      Each (Added m.val none x) (specs c.ls) c.seqs c'.seqs ∧ Became d d' m.val (d.elems.erase x) pool ∧ d'.seqs = d.seqs.map (·.erase x) ∧
      ¬ Banned (specs c.ls) m.val c.elems (m.val x)) ∨
    (∃ c' y, c.transfer m d x e = .ok (⟨m, c', y, false⟩, d) ∧ y ∈ c.elems ∧ Became c c' m.val c.elems pool ∧ SameOrders m.val c c' ∧
      ∃ S ∈ specs c.ls, S.unique = true ∧ S.equiv (m.val x) (m.val y) = true) ∨
    (∃ c', c.transfer m d x e = .threw (⟨m, c', 0, false⟩, d) ∧ Became c c' m.val c.elems pool ∧ SameOrders m.val c c' ∧ ∃ i, ¬ (e i).Quiet) := by
  obtain ⟨d', j1, j2, j3⟩ := unlinkAll_spec t hxd ha (fun _ _ => rfl) cl2
  rcases insertC_cont (m0 := d) (hint := none) (base := Container.unlinkAll m d x) (xr := x) s x0 hx (fun _ h => nomatch h) sub xp ⟨_, Or.inl j1⟩ env cl (by intro h; exact hx (by simp [h])) with
    ⟨Ls', m', k1, k2, k3, k4, k5⟩ | ⟨Ls', y, k1, k2, k3, k4, k5⟩ | ⟨r, k1, k2, k3, k4, k5⟩
  · left
    rw [j1] at k1
    obtain rfl := Out.ok.inj k1
    exact ⟨_, d', by simp only [Container.transfer, k2, if_true], k3, k4, j2, j3, k5⟩
  · right; left
    have yx : y ≠ x := by rintro rfl; exact hx (by simp [k2])
    exact ⟨_, y, by simp only [Container.transfer, k1, yx, if_false], k2, k3, k4, k5⟩
  · right; right
    have rm : r.m = d := by
      rcases k2 with h | h
      · exact h
      · rw [j1] at h; exact nomatch h
    refine ⟨{ c with ls := r.ls }, by simp only [Container.transfer, k1, rm], k3, k4, ?_⟩
    rcases k5 with h | h
    · exact h
    · rw [j1] at h; exact nomatch h

theorem split_hdOr {hd pos : Id} : ∀ {xs : List Id}, pos ∈ hd :: xs → ∃ p q, xs = p ++ q ∧ hdOr hd q = pos
  | xs, h => by
    rcases List.mem_cons.1 h with rfl | h
    · exact ⟨xs, [], by simp, rfl⟩
    · obtain ⟨p, q, rfl⟩ := List.append_of_mem h
      exact ⟨p, pos :: q, rfl, rfl⟩

theorem relocate_spec {L : Layer V} {val : Id → V} {hd pos x : Id} {xs : List Id} (kd : L.keyed = false) (w : L.Holds val hd xs) (hx : x ∈ xs)
    (hp : pos ∈ hd :: xs) : ∃ L' xs', L.relocate pos x = some L' ∧ L'.spec = L.spec ∧ L'.Holds val hd xs' ∧ xs'.Perm xs ∧ PutBefore hd pos x xs xs' := by
  by_cases h : pos = x
  · subst h
    cases L with
    | seq h => exact ⟨_, xs, rfl, rfl, by simpa [Seq.relocate] using w, .refl _, Or.inl ⟨rfl, rfl⟩⟩
    | rnd s => exact ⟨_, xs, rfl, rfl, by simpa [Rnd.relocate] using w, .refl _, Or.inl ⟨rfl, rfl⟩⟩
    | ord => exact nomatch kd
    | hash => exact nomatch kd
  · have nd := w.nodup
    obtain ⟨u, v, rfl⟩ := List.append_of_mem hx
    have hp' : pos ∈ hd :: (u ++ v) := by
      simp only [List.mem_cons, List.mem_append] at hp ⊢
      rcases hp with h1 | h1 | h1 | h1 <;> simp_all
    obtain ⟨p, q, e1, rfl⟩ := split_hdOr hp'
    have pm : (p ++ x :: q).Perm (u ++ x :: v) := List.perm_middle.trans (by rw [← e1]; exact List.perm_middle.symm)
    have er : (u ++ x :: v).erase x = p ++ q := by rw [erase_split (List.nodup_cons.1 nd).2, e1]
    cases L with
    | seq s =>
      refine ⟨_, p ++ x :: q, rfl, rfl, ?_, pm, Or.inr ⟨h, p, q, er, rfl, rfl⟩⟩
      show Seq.Fam (Seq.relocate s _ x) _
      unfold Seq.relocate
      rw [if_pos h]
      exact Seq.fam_relink_same w e1
    | rnd s => exact ⟨_, p ++ x :: q, rfl, rfl, Rnd.rep_relocate w e1, pm, Or.inr ⟨h, p, q, er, rfl, rfl⟩⟩
    | ord => exact nomatch kd
    | hash => exact nomatch kd

theorem rearrange_spec {L : Layer V} {val : Id → V} {hd : Id} {xs : List Id} {n : Nat} {a : Rearr V} (kd : L.keyed = false) (w : L.Holds val hd xs)
    (ok : a.Ok hd xs L.spec) (hn : xs.length + 3 ≤ n) (nz : 0 ∉ xs) :
    ∃ L' xs', L'.spec = L.spec ∧ L'.Holds val hd xs' ∧ xs'.Perm xs ∧ (∀ z, L'.Avoids z) ∧
      ((L.rearrange n hd val a = .ok L' ∧ a.Does hd val L.spec xs xs') ∨ (L.rearrange n hd val a = .threw L' ∧ a.Fails hd val L.spec xs xs')) := by
  have lt2 : xs.length < 2 ^ (n - 1) := Nat.lt_of_lt_of_le (Nat.lt_two_pow_self) (Nat.pow_le_pow_right (by omega) (by omega))
  have pb : ∀ {u blk v s t : List Id}, u ++ v = s ++ t → (s ++ blk ++ t).Perm (u ++ blk ++ v) := by
    intro u blk v s t e
    have h1 : ∀ a b : List Id, (a ++ blk ++ b).Perm (blk ++ (a ++ b)) := fun a b => by
      rw [← List.append_assoc]; exact List.perm_append_comm.append_right b
    exact (h1 s t).trans (by rw [← e]; exact (h1 u v).symm)
  have psp : ∀ {s t vs : List Id}, (s ++ t).Nodup → vs.Nodup → (∀ x ∈ vs, x ∈ s ++ t) → (s.filter (· ∉ vs) ++ vs ++ t.filter (· ∉ vs)).Perm (s ++ t) := by
    intro s t vs n1 n2 h
    refine (List.perm_ext_iff_of_nodup ?_ n1).2 fun z => ?_
    · simp only [List.nodup_append, List.mem_append, List.mem_filter, decide_eq_true_eq] at n1 ⊢
      exact ⟨⟨n1.1.filter _, n2, fun a ha b hb => by rintro rfl; exact ha.2 hb⟩, n1.2.1.filter _, fun a ha b hb => by
        rintro rfl
        rcases ha with ha | ha
        · exact n1.2.2 _ ha.1 _ hb.1 rfl
        · exact hb.2 ha⟩
    · have := h z
      simp only [List.mem_append, List.mem_filter, decide_eq_true_eq] at this ⊢
      tauto
  have nd := (List.nodup_cons.1 w.nodup).2
  cases L with
  | ord => exact nomatch kd
  | hash => exact nomatch kd
  | seq h =>
    cases a with
    | relocateRange pos first last =>
      obtain ⟨u, blk, v, s, t, rfl, e, rfl, rfl, rfl⟩ := ok
      refine ⟨.seq (Seq.relocateRange h _ _ _), s ++ blk ++ t, rfl, ?_, pb e, fun _ => trivial, Or.inl ⟨rfl, u, blk, v, s, t, rfl, e, rfl, rfl, rfl, rfl⟩⟩
      exact Seq.fam_relocateRange w e
    | reverse =>
      obtain ⟨h', e, f⟩ := Seq.fam_reverse (n := n) w (by omega)
      exact ⟨.seq h', xs.reverse, rfl, f, xs.reverse_perm, fun _ => trivial, Or.inl ⟨by simp only [Layer.rearrange, e], rfl⟩⟩
    | rearrange vs =>
      refine ⟨.seq (Seq.rearrange h hd vs), vs, rfl, ?_, ok, fun _ => trivial, Or.inl ⟨rfl, rfl⟩⟩
      have := Seq.fam_rearrange vs (xs := xs) (dn := []) (by simpa using (show Seq.Fam h [(hd, xs)] from w)) ok
      exact show Seq.Fam _ [(hd, vs)] by simpa using this
    | splice pos vs =>
      obtain ⟨h1, h2, h3, h4⟩ := ok
      obtain ⟨s, t, rfl, rfl⟩ := split_hdOr h1
      exact ⟨.seq (Seq.internalSplice h _ vs), _, rfl, Seq.fam_internalSplice vs w h3 h4 h2, psp nd h3 h4, fun _ => trivial, Or.inl ⟨rfl, s, t, rfl, rfl, rfl⟩⟩
    | sort cmp carry cid ssort =>
      obtain ⟨h1, h2, h3, -⟩ := ok
      obtain ⟨n, rfl⟩ : ∃ k, n = k + 1 := ⟨n - 1, by omega⟩
      rcases Seq.sort_spec (fun t x y => cmp t (val x) (val y)) (carry := carry) (cid := cid) (N := n + 1) (W := n) w (by simpa [Seq.famIds] using h1)
        ⟨h2, by simpa [Seq.famIds] using h3⟩ (by omega) (by simpa using lt2) with ⟨h', k', ys, e, p, f, so⟩ | ⟨h', k', ys, e, p, f, t, x, y, ht⟩
      · exact ⟨.seq h', ys, rfl, f, p, fun _ => trivial, Or.inl ⟨by simp only [Layer.rearrange, e], fun lt sw hc =>
          so _ ⟨fun x => sw.irrefl _, sw.trans, sw.incomp⟩ (fun t x y => hc t _ _)⟩⟩
      · exact ⟨.seq h', ys, rfl, f, p, fun _ => trivial, Or.inr ⟨by simp only [Layer.rearrange, e], Or.inl ⟨rfl, t, _, _, ht⟩⟩⟩
    | reserve => exact nomatch ok
    | shrink => exact nomatch ok
    | remove => exact nomatch ok
    | unique => exact nomatch ok
    | merge => exact nomatch ok.1
  | rnd s =>
    cases a with
    | relocateRange pos first last =>
      obtain ⟨u, blk, v, p, q, rfl, e, rfl, rfl, rfl⟩ := ok
      obtain ⟨s', e1, r1, -⟩ := Rnd.rep_relocateRange w e
      exact ⟨.rnd s', p ++ blk ++ q, rfl, r1, pb e, fun _ => trivial, Or.inl ⟨by simp only [Layer.rearrange]; rw [show Rnd.relocateRange s (q.headD hd) ((blk ++ v).headD hd) (v.headD hd) = some s' from e1], u, blk, v, p, q, rfl, e, rfl, rfl, rfl, rfl⟩⟩
    | reverse => exact ⟨.rnd (Rnd.reverse s), xs.reverse, rfl, (Rnd.rep_reverse w).1, xs.reverse_perm, fun _ => trivial, Or.inl ⟨rfl, rfl⟩⟩
    | rearrange vs => exact ⟨.rnd (Rnd.rearrange s vs), vs, rfl, (Rnd.rep_rearrangeGo vs (dn := []) (rest := xs) w ok).1, ok, fun _ => trivial, Or.inl ⟨rfl, rfl⟩⟩
    | splice pos vs =>
      obtain ⟨h1, h2, h3, h4⟩ := ok
      obtain ⟨p, q, rfl, rfl⟩ := split_hdOr h1
      exact ⟨.rnd (Rnd.internalSplice 0 s _ vs), _, rfl, (Rnd.rep_internalSplice w h3 h4 nz).1, psp nd h3 h4, fun _ => trivial, Or.inl ⟨rfl, p, q, rfl, rfl, rfl⟩⟩
    | sort cmp carry cid ssort =>
      obtain ⟨-, -, -, h4⟩ := ok
      by_cases h1 : xs.length ≤ 1
      · refine ⟨.rnd s, xs, rfl, w, .refl _, fun _ => trivial, Or.inl ⟨?_, Or.inl ⟨h1, rfl⟩⟩⟩
        have : s.size ≤ 1 := by rw [w.1]; exact h1
        simp only [Layer.rearrange, Rnd.sort, if_pos this]
      · have hs : ¬ s.size ≤ 1 := by rw [w.1]; exact h1
        cases hb : ssort xs with
        | none =>
          refine ⟨.rnd s, xs, rfl, w, .refl _, fun _ => trivial, Or.inr ⟨?_, Or.inr ⟨rfl, hb, rfl⟩⟩⟩
          simp only [Layer.rearrange, Rnd.sort, if_neg hs, Rnd.Rep.slots w, hb]
        | some ys =>
          refine ⟨.rnd (Rnd.writeBack ys s 0), ys, rfl, (Rnd.rep_writeBack w (h4 ys hb)).1, h4 ys hb, fun _ => trivial, Or.inl ⟨?_, Or.inr hb⟩⟩
          simp only [Layer.rearrange, Rnd.sort, if_neg hs, Rnd.Rep.slots w, hb]
    | reserve c fail junk =>
      by_cases k : fail = true ∧ c > s.cap
      · exact ⟨.rnd s, xs, rfl, w, .refl _, fun _ => trivial, Or.inr ⟨by simp only [Layer.rearrange, if_pos k], k.1, rfl⟩⟩
      · exact ⟨.rnd (Rnd.reserve junk s c), xs, rfl, (Rnd.rep_reserve junk w c).1, .refl _, fun _ => trivial, Or.inl ⟨by simp only [Layer.rearrange, if_neg k], rfl⟩⟩
    | shrink fail junk =>
      by_cases k : fail = true ∧ s.cap > s.size
      · exact ⟨.rnd s, xs, rfl, w, .refl _, fun _ => trivial, Or.inr ⟨by simp only [Layer.rearrange, if_pos k], k.1, rfl⟩⟩
      · exact ⟨.rnd (Rnd.shrinkToFit junk s), xs, rfl, (Rnd.rep_shrink junk w).1, .refl _, fun _ => trivial, Or.inl ⟨by simp only [Layer.rearrange, if_neg k], rfl⟩⟩
    | remove pred =>
      have w : Rnd.Rep s hd xs := w
      rcases Rnd.removeGo_sift (fun t x => pred t (val x)) w with ⟨s', kept, gone, g, e, si, p, r⟩ | ⟨s', m, ys, dn, kept, gone, e, si, r, p⟩
      · exact ⟨.rnd s', kept ++ g, rfl, r, (p.append_left kept).trans si.perm, fun _ => trivial, Or.inl ⟨by simp only [Layer.rearrange, e], kept, gone, g, si, p, rfl⟩⟩
      · exact ⟨.rnd s', ys, rfl, r, p, fun _ => trivial, Or.inr ⟨by simp only [Layer.rearrange, e], dn, kept, gone, si⟩⟩
    | unique pred =>
      have w : Rnd.Rep s hd xs := w
      rcases Rnd.uniqueAll_sift (fun t x y => pred t (val x) (val y)) w with ⟨rfl, e⟩ | ⟨f, ys, rfl, ⟨s', kept, gone, g, e, si, p, r⟩ | ⟨s', m, zs, dn, kept, gone, e, si, r, p⟩⟩
      · exact ⟨.rnd s, [], rfl, w, .refl _, fun _ => trivial, Or.inl ⟨by simp only [Layer.rearrange, e], Or.inl ⟨rfl, rfl⟩⟩⟩
      · exact ⟨.rnd s', f :: kept ++ g, rfl, r, ((p.append_left kept).trans si.perm).cons f, fun _ => trivial,
          Or.inl ⟨by simp only [Layer.rearrange, e], Or.inr ⟨f, ys, kept, gone, g, rfl, si, p, rfl⟩⟩⟩
      · exact ⟨.rnd s', zs, rfl, r, p, fun _ => trivial, Or.inr ⟨by simp only [Layer.rearrange, e], f, ys, dn, kept, gone, rfl, si⟩⟩
    | merge c cmp fail =>
      have w : Rnd.Rep s hd xs := w
      by_cases k : fail = true ∧ s.size ≠ 0
      · exact ⟨.rnd s, xs, rfl, w, .refl _, fun _ => trivial, Or.inr ⟨by simp only [Layer.rearrange, if_pos k], Or.inr k.1, rfl⟩⟩
      · have hc : (xs.take c).length = c := by simp [ok.2]
        have w' : Rnd.Rep s hd (xs.take c ++ xs.drop c) := by simpa using w
        have hr := Rnd.rep_inplaceMerge (fun t x y => cmp t (val x) (val y)) w'
        rw [hc] at hr
        rcases Rnd.mrgL_merges (fun t x y => cmp t (val x) (val y)) 0 (xs.take c) (xs.drop c) with ⟨zs, e1, mg⟩ | ⟨e1, t, y, x, ht⟩
        · rcases hr with ⟨-, e2⟩ | ⟨s', zs', e, e2, r, -⟩
          · rw [e1] at e2; exact nomatch e2
          · obtain rfl := Option.some.inj (e1.symm.trans e2)
            exact ⟨.rnd s', zs, rfl, r, by simpa using Rnd.mrgL_perm _ _ _ _ _ _ (Nat.le_refl _) e1, fun _ => trivial,
              Or.inl ⟨by simp only [Layer.rearrange, if_neg k, e], mg⟩⟩
        · rcases hr with ⟨e, -⟩ | ⟨s', zs', e, e2, r, -⟩
          · exact ⟨.rnd s, xs, rfl, w, .refl _, fun _ => trivial, Or.inr ⟨by simp only [Layer.rearrange, if_neg k, e], Or.inl ⟨t, _, _, ht⟩, rfl⟩⟩
          · rw [e1] at e2; exact nomatch e2

theorem rehash_spec {L : Layer V} {val : Id → V} {hd : Id} {xs : List Id} {n : Nat} {e : Env} (ok : L.spec.Ok) (w : L.Holds val hd xs)
    (le : L.RehashOk hd xs.length n pool e) (sub : ∀ z ∈ xs, z ∈ pool) (av : ∀ z ∈ pool, L.Avoids z) :
    ∃ L', (L.rehash hd val xs.length n e = .ok L' ∨ (L.rehash hd val xs.length n e = .threw L' ∧ ¬ e.Quiet)) ∧ L'.spec = L.spec ∧ (∀ z ∈ pool, L'.Avoids z) ∧
      ∃ xs', L'.Holds val hd xs' ∧ L.spec.Same val xs xs' := by
  cases L with
  | ord => exact le.elim
  | seq => exact le.elim
  | rnd => exact le.elim
  | hash c eq hf pol ml h a =>
    have rf : (Spec.hash c eq hf).Same val xs xs := ⟨.refl _, fun _ _ => rfl⟩
    by_cases k : xs.length ≤ ml ∧ n ≤ a.size
    · exact ⟨.hash c eq hf pol ml h a, Or.inl (by simp only [Layer.rehash, if_pos k]), rfl, av, xs, w, rf⟩
    · cases ka : e.allocFail with
      | true => exact ⟨.hash c eq hf pol ml h a, Or.inr ⟨by simp only [Layer.rehash, if_neg k, ka, if_true], by simp [Env.Quiet, ka]⟩, rfl, av, xs, w, rf⟩
      | false =>
        have nm : Hash.NewMem a ⟨e.base, Hash.sizeFor Hash.sizes (max (pol.grow xs.length) n)⟩ hd e.cpy xs := by
          obtain ⟨b0, c0, cn, co, cna, xn, ar⟩ := le
          exact ⟨b0, c0, fun q => cn (by simp only [List.mem_cons] at q ⊢; exact q.imp id (sub _)), co, cna,
            fun z hz => xn z (by simp only [List.mem_cons] at hz ⊢; exact hz.imp id (sub _)), ar⟩
        obtain ⟨h', b, e1, e2, e3, e4⟩ := Hash.Holds.rehash (t := e.hashThrow) w.2 (eqv_ok ok val) (Hash.sizeFor_pos _) nm
        cases b with
        | true =>
          refine ⟨.hash c eq hf pol ml h' a, Or.inr ⟨?_, ?_⟩, rfl, av, xs, ⟨w.1, e3 rfl⟩, rf⟩
          · simp only [Layer.rehash, if_neg k, ka, Bool.false_eq_true, if_false]
            rw [e1]
          · rintro ⟨-, q, -⟩
            exact absurd (e2 q) (by simp)
        | false =>
          obtain ⟨xs', w', p, f⟩ := e4 rfl
          refine ⟨.hash c eq hf pol (pol.load (Hash.sizeFor Hash.sizes (max (pol.grow xs.length) n))) h' ⟨e.base, Hash.sizeFor Hash.sizes (max (pol.grow xs.length) n)⟩,
            Or.inl ?_, rfl, fun z hz => le.xn z (by simp [hz]), xs', ⟨Hash.sizeFor_mem _, w'⟩, p, fun y _ => f y⟩
          simp only [Layer.rehash, if_neg k, ka, Bool.false_eq_true, if_false]
          rw [e1]

/-- One index is replaced by a well formed one. -/
theorem fit_set {val : Id → V} {hd : Id} {els xs' : List Id} {L L' : Layer V} (w : L'.Holds val hd xs') (p : xs'.Perm els) :
    ∀ {Ls : List (Layer V)} {xss : List (List Id)} {k : Nat}, Fit val hd els Ls xss → Ls[k]? = some L → Fit val hd els (Ls.set k L') (xss.set k xs')
  | [], _, _, _, h => nomatch h
  | M :: Ls, xss, 0, f, h => by
    obtain ⟨xs, yss, rfl, w2, p2, f2⟩ := f.cases
    exact .cons w p f2
  | M :: Ls, xss, k + 1, f, h => by
    obtain ⟨xs, yss, rfl, w2, p2, f2⟩ := f.cases
    exact .cons w2 p2 (fit_set w p f2 (by simpa using h))

theorem fit_get {val : Id → V} {hd : Id} {els : List Id} {L : Layer V} : ∀ {Ls : List (Layer V)} {xss : List (List Id)} {k : Nat},
    Fit val hd els Ls xss → Ls[k]? = some L → ∃ xs, xss[k]? = some xs ∧ L.Holds val hd xs ∧ xs.Perm els
  | [], _, _, _, h => nomatch h
  | M :: Ls, xss, 0, f, h => by
    obtain ⟨xs, yss, rfl, w2, p2, f2⟩ := f.cases
    obtain rfl : M = L := by simpa using h
    exact ⟨xs, rfl, w2, p2⟩
  | M :: Ls, xss, k + 1, f, h => by
    obtain ⟨xs, yss, rfl, w2, p2, f2⟩ := f.cases
    have h' : Ls[k]? = some L := by simpa using h
    obtain ⟨ys, q⟩ := fit_get f2 h'
    exact ⟨ys, by simpa using q⟩

theorem specs_set {L L' : Layer V} (h : L'.spec = L.spec) : ∀ {Ls : List (Layer V)} {k : Nat}, Ls[k]? = some L → specs (Ls.set k L') = specs Ls
  | [], _, h => nomatch h
  | M :: Ls, 0, k => by
    obtain rfl : M = L := by simpa using k
    simp [h]
  | M :: Ls, k + 1, hk => by simp [specs_set h (by simpa using hk : Ls[k]? = some L)]

theorem clear_set {L' : Layer V} (h : ∀ z ∈ pool, L'.Avoids z) : ∀ {Ls : List (Layer V)} {k : Nat}, Clear pool Ls → Clear pool (Ls.set k L')
  | [], _, _ => .nil
  | M :: Ls, 0, c => .cons h c.tail
  | M :: Ls, k + 1, c => .cons c.head (clear_set h c.tail)

theorem became_set {L L' : Layer V} {k : Nat} {xs' : List Id} (s : Sound m.val c) (cl : Clear pool c.ls) (hL : c.ls[k]? = some L) (hs : L'.spec = L.spec)
    (w : L'.Holds m.val c.hd xs') (p : xs'.Perm c.elems) (av : ∀ z ∈ pool, L'.Avoids z) :
    Became c { c with ls := c.ls.set k L' } m.val c.elems pool ∧ ({ c with ls := c.ls.set k L' } : Container V).seqs = c.seqs.set k xs' :=
  became (k := c.count) s.ne s.ok (specs_set hs hL) s.count (fit_set w p s.fit hL) (clear_set av cl)

theorem okAll_get {L : Layer V} {k : Nat} (ok : OkAll (specs c.ls)) (hL : c.ls[k]? = some L) : L.spec.Ok :=
  ok _ (List.mem_map.2 ⟨L, List.mem_of_getElem? hL, rfl⟩)

theorem clear_get {L : Layer V} {k : Nat} (cl : Clear pool c.ls) (hL : c.ls[k]? = some L) : ∀ z ∈ pool, L.Avoids z :=
  fun z hz => cl z hz L (List.mem_of_getElem? hL)

theorem fam_new (z hd : Id) : Seq.Fam (Seq.Heap.emptyInit ⟨fun _ => z, fun _ => z⟩ hd) [(hd, [])] :=
  Seq.fam_emptyInit (L := []) ⟨by simp [Seq.famIds], by simp⟩ (by simp [Seq.famIds])

theorem layer_new {w : World V} {hd z : Id} {a : Init V} {val : Id → V} (h0 : hd ≠ 0) (ok : a.Ok w hd) :
    (a.layer hd z).Holds val hd [] ∧ (a.layer hd z).spec.Ok ∧ ∀ y ∈ hd :: w.m.alloc, (a.layer hd z).Avoids y := by
  cases a with
  | ord u lt =>
    refine ⟨⟨Ord.emptyInit_rep _ h0, ?_⟩, ok, fun _ _ => trivial⟩
    cases u <;> exact List.Pairwise.nil
  | hash c eq hf pol n base =>
    obtain ⟨eh, b0, dis⟩ := ok
    exact ⟨⟨Hash.sizeFor_mem n, Hash.holds_clear _ _ _ _ (Hash.sizeFor_pos n) b0 h0 (dis hd (by simp))⟩, eh, dis⟩
  | seq => exact ⟨fam_new z hd, trivial, fun _ _ => trivial⟩
  | rnd junk => exact ⟨Rnd.rep_empty junk (fun _ => z) hd, trivial, fun _ _ => trivial⟩

theorem new_fit {w : World V} {hd z : Id} {val : Id → V} (h0 : hd ≠ 0) : ∀ {is : List (Init V)}, (∀ a ∈ is, a.Ok w hd) →
    Fit val hd [] (is.map (·.layer hd z)) (is.map fun _ => []) ∧ OkAll (specs (is.map (·.layer hd z))) ∧
      Clear (hd :: w.m.alloc) (is.map (·.layer hd z))
  | [], _ => ⟨.nil, fun _ h => (nomatch h), .nil⟩
  | a :: is, h => by
    obtain ⟨h1, h2, h3⟩ := layer_new (z := z) (val := val) h0 (h a (by simp))
    obtain ⟨i1, i2, i3⟩ := new_fit (z := z) (val := val) (is := is) h0 (fun b hb => h b (by simp [hb]))
    refine ⟨.cons h1 (.refl _) i1, ?_, .cons h3 i3⟩
    intro S hS
    rcases List.mem_cons.1 hS with rfl | hS
    · exact h2
    · exact i2 S hS

theorem new_spec {w : World V} {hd z : Id} {val : Id → V} {is : List (Init V)} (h0 : hd ≠ 0) (ne : is ≠ []) (h : ∀ a ∈ is, a.Ok w hd) :
    Sound val (Container.new hd z is) ∧ (Container.new hd z is).elems = [] ∧ Clear (hd :: w.m.alloc) (Container.new hd z is).ls := by
  obtain ⟨i1, i2, i3⟩ := new_fit (z := z) (val := val) h0 h
  obtain ⟨s1, s2, s3⟩ := sound_intro (c := Container.new hd z is) (by simpa [Container.new] using ne) i2 rfl i1
  exact ⟨s1, s2.eq_nil, i3⟩

end
end MI.Cont
