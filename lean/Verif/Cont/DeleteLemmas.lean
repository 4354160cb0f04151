import Verif.Cont.Delete
import Verif.Cont.LayerLemmas
/-! Destroying all elements visits each exactly once and reads no deleted node. -/
set_option linter.unusedVariables false
namespace MI.Cont
open MI
variable {V : Type}

theorem deleteOrd_spec {h : Ord.Heap} : ∀ {t : Ord.T} {n : Nat} {fr : List Id} {par : Id}, Ord.At h par t → t.ids.Nodup → 0 ∉ t.ids → (∀ z ∈ t.ids, z ∉ fr) →
    t.ids.length ≤ n → ∃ ys, deleteOrd h n fr t.root = .ok (ys ++ fr) ∧ ys.Perm t.ids
  | .nil, n, fr, par, _, _, _, _, _ => ⟨[], by unfold deleteOrd; simp [Ord.T.root], by simp [Ord.T.ids]⟩
  | .node c s l x r, n, fr, par, ha, nd, nz, di, hn => by
    obtain ⟨-, -, -, h1, h2, h3, h4⟩ := ha
    simp only [Ord.T.ids, List.length_append, List.length_cons] at hn
    obtain ⟨n, rfl⟩ : ∃ k, n = k + 1 := ⟨n - 1, by omega⟩
    have x0 : x ≠ 0 := by rintro rfl; exact nz (by simp [Ord.T.ids])
    simp only [Ord.T.ids] at nd nz di ⊢
    rw [List.nodup_append, List.nodup_cons] at nd
    obtain ⟨n1, ⟨n2, n3⟩, n4⟩ := nd
    obtain ⟨ys, i1, i2⟩ := deleteOrd_spec (n := n) (fr := fr) h3 n1 (fun k => nz (by simp [k])) (fun z hz => di z (by simp [hz])) (by omega)
    obtain ⟨zs, j1, j2⟩ := deleteOrd_spec (n := n) (fr := ys ++ fr) h4 n3 (fun k => nz (by simp [k])) (fun z hz k => by
      rcases List.mem_append.1 k with k | k
      · exact n4 z (i2.mem_iff.1 k) z (by simp [hz]) rfl
      · exact di z (by simp [hz]) k) (by omega)
    have xf : x ∉ fr := di x (by simp)
    have xf2 : x ∉ ys ++ fr := by
      intro k
      rcases List.mem_append.1 k with k | k
      · exact n4 x (i2.mem_iff.1 k) x (by simp) rfl
      · exact xf k
    refine ⟨x :: (zs ++ ys), ?_, ?_⟩
    · have hr : (Ord.T.node c s l x r).root = x := rfl
      rw [hr, deleteOrd]
      simp only [if_neg x0, if_neg xf, h1, i1, if_neg xf2, h2, j1]
      simp
    · refine (List.Perm.cons x ((j2.append i2).trans List.perm_append_comm)).trans ?_
      exact List.perm_middle.symm

theorem deleteSeq_spec {h : Seq.Heap} {hd : Id} : ∀ {v : List Id} {n : Nat} {fr : List Id} {a : Id}, Seq.Seg h a v hd → v.Nodup → hd ∉ v → (∀ z ∈ v, z ∉ fr) →
    v.length ≤ n → deleteSeq h hd n fr (hdOr hd v) = .ok (v.reverse ++ fr)
  | [], n, fr, a, _, _, _, _, _ => by unfold deleteSeq; simp [hdOr]
  | x :: v, n, fr, a, hs, nd, hh, di, hn => by
    obtain ⟨n, rfl⟩ : ∃ k, n = k + 1 := ⟨n - 1, by simp at hn; omega⟩
    obtain ⟨-, -, h3⟩ := hs
    have hx : x ≠ hd := by rintro rfl; exact hh (by simp)
    have hnx : h.next x = hdOr hd v := by
      cases v with
      | nil => exact h3.1
      | cons y v => exact h3.1
    have ih := deleteSeq_spec (n := n) (fr := x :: fr) h3 (List.nodup_cons.1 nd).2 (fun k => hh (by simp [k])) (fun z hz k => by
      rcases List.mem_cons.1 k with rfl | k
      · exact (List.nodup_cons.1 nd).1 hz
      · exact di z (by simp [hz]) k) (by simpa using hn)
    have hr : hdOr hd (x :: v) = x := rfl
    rw [hr, deleteSeq]
    simp only [if_neg hx, if_neg (di x (by simp)), hnx, ih]
    simp

section
open Hash

/-- A run of nodes linked one to another, after the node `p`. -/
theorem deleteHash_line {h : Heap} {hd p f : Id} {ob : Option Id} {c : Cat} {k : Nat} (j : Join h p ob f) : ∀ {r : List Id} {fr : List Id}, Line h (f :: r) → (f :: r).Nodup →
    hd ∉ f :: r → (∀ z ∈ f :: r, z ∉ fr) → p ∉ fr → p ∉ f :: r → (∀ b, ob = some b → b ∉ fr ∧ b ∉ f :: r) →
    deleteHash c hd (k + r.length + 1) h fr (r.getLastD f) = deleteHash c hd k h (f :: r ++ fr) p := by
  intro r
  induction r using List.reverseRecOn with
  | nil =>
    intro fr hl nd hh di pf pr hb
    have fh : f ≠ hd := by rintro rfl; exact hh (by simp)
    rw [deleteHash]
    simp only [List.getLastD_nil, if_neg fh, List.length_nil, if_neg (di f (by simp)), j.1]
    cases c with
    | uniq => rfl
    | multi =>
      simp only [if_neg pf, j.2.1]
      cases ob with
      | none => simp
      | some b =>
        have h3 := j.2.2 b rfl
        have : b ∉ fr := (hb b rfl).1
        have bf : b ≠ f := fun q => (hb b rfl).2 (by simp [q])
        simp [this, bf, h3]
  | append_singleton r x ih =>
    intro fr hl nd hh di pf pr hb
    have line_split : ∀ {l : List Id} {a : Id}, Line h (a :: (l ++ [x])) → Line h (a :: l) ∧ h.next (l.getLastD a) = x ∧ h.prior x = l.getLastD a := by
      intro l
      induction l with
      | nil =>
        intro a hl
        have := hl.1 x (by simp)
        exact ⟨⟨by simp, trivial⟩, this.1, this.2⟩
      | cons b l ih =>
        intro a hl
        obtain ⟨q1, q2, q3⟩ := ih hl.2
        refine ⟨⟨?_, q1⟩, by rw [List.getLastD_cons]; exact q2, by rw [List.getLastD_cons]; exact q3⟩
        intro d hd'
        simp only [List.head?_cons, Option.mem_def, Option.some.injEq] at hd'
        exact hl.1 d (by simp [hd'])
    obtain ⟨l1, l2, l3⟩ := line_split hl
    have xh : x ≠ hd := by rintro rfl; exact hh (by simp)
    have nd' : (f :: r).Nodup ∧ x ∉ f :: r := by
      have : (f :: r ++ [x]).Nodup := by simpa using nd
      rw [List.nodup_append] at this
      exact ⟨this.1, fun q => this.2.2 x q x (by simp) rfl⟩
    have up : ∀ {z : Id}, z ∈ f :: r → z ∈ f :: (r ++ [x]) := by
      intro z hz
      rcases List.mem_cons.1 hz with e | e
      · simp [e]
      · simp [e]
    have ih' := ih (fr := x :: fr) l1 nd'.1 (fun q => hh (up q)) (fun z hz q => by
        rcases List.mem_cons.1 q with rfl | q
        · exact nd'.2 hz
        · exact di z (up hz) q) (fun q => by
        rcases List.mem_cons.1 q with rfl | q
        · exact pr (by simp)
        · exact pf q) (fun q => pr (up q)) (fun b hb' => ⟨fun q => by
            rcases List.mem_cons.1 q with rfl | q
            · exact (hb b hb').2 (by simp)
            · exact (hb b hb').1 q, fun q => (hb b hb').2 (up q)⟩)
    have yf : r.getLastD f ∉ fr := by
      apply di
      cases r using List.reverseRecOn <;> simp
    have hlen : k + (r ++ [x]).length + 1 = (k + r.length + 1) + 1 := by simp; omega
    rw [hlen, deleteHash]
    have hlast : (r ++ [x]).getLastD f = x := by simp
    simp only [hlast, if_neg xh, if_neg (di x (by simp)), l3]
    have goal : deleteHash c hd (k + r.length + 1) h (x :: fr) (r.getLastD f) = deleteHash c hd k h (f :: (r ++ [x]) ++ fr) p := by
      rw [ih']; simp
    cases c with
    | uniq => exact goal
    | multi => simp only [if_neg yf, l2, ne_eq, not_true_eq_false, if_false]; exact goal

/-- A group. -/
theorem deleteHash_group {h : Heap} {hd p : Id} {ob : Option Id} {c : Cat} {k : Nat} {g : Grp} {fr : List Id} (j : Join h p ob g.first) (inn : Inner h g)
    (hc : c = .uniq → ∃ x, g = .one x) (nd : g.toList.Nodup) (hh : hd ∉ g.toList) (di : ∀ z ∈ g.toList, z ∉ fr) (pf : p ∉ fr) (pr : p ∉ g.toList)
    (hb : ∀ b, ob = some b → b ∉ fr ∧ b ∉ g.toList) :
    ∃ h' ys, deleteHash c hd (k + g.toList.length) h fr g.last = deleteHash c hd k h' (ys ++ fr) p ∧ ys.Perm g.toList ∧
      Agree h h' g.toList.tail [] := by
  cases g with
  | one x =>
    refine ⟨h, [x], ?_, .refl _, .refl _ _ _⟩
    have := deleteHash_line (c := c) (k := k) (r := []) j ⟨by simp, trivial⟩ nd hh di pf pr hb
    simpa using this
  | many f mid l =>
    obtain ⟨i1, i2, i3, i4⟩ := inn
    obtain rfl : c = .multi := by
      cases c with
      | multi => rfl
      | uniq => obtain ⟨x, hx⟩ := hc rfl; exact nomatch hx
    simp only [Grp.toList_many, Grp.first_many, Grp.last_many] at *
    by_cases hm : mid = []
    · subst hm
      refine ⟨h, f :: [l], ?_, .refl _, .refl _ _ _⟩
      have := deleteHash_line (c := .multi) (k := k) (r := [l]) j
        ⟨by intro b hb'; simp only [List.head?_cons, Option.mem_def, Option.some.injEq] at hb'; subst hb'; exact ⟨i1, i2⟩, by simp, trivial⟩ nd hh di pf pr hb
      simpa using this
    · obtain ⟨i5, i6⟩ := i4 hm
      obtain ⟨m1, mr, rfl⟩ := List.exists_cons_of_ne_nil hm
      simp only [List.headD_cons] at i1 i5
      set y := (m1 :: mr).getLastD f with hy
      have ym : y ∈ m1 :: mr := getLastD_mem _ _ hm
      have yf : y ∉ fr := di y (List.mem_cons_of_mem _ (List.mem_append_left _ ym))
      have nd2 := nd
      rw [List.nodup_cons, List.nodup_append, List.nodup_cons] at nd2
      obtain ⟨n1, ⟨n2, n3⟩, -, n4⟩ := nd2
      have fl : f ≠ l := by rintro rfl; exact n1 (by simp)
      have lh : l ≠ hd := by rintro rfl; exact hh (by simp)
      have pl : p ≠ l := by rintro rfl; exact pr (by simp)
      have ff : f ∉ fr := di f (by simp)
      have m1f : m1 ∉ fr := di m1 (by simp)
      have lf : l ∉ fr := di l (by simp)
      have fm1 : f ≠ m1 := by rintro rfl; exact n1 (by simp)
      have hlen : k + (f :: (m1 :: mr ++ [l])).length = (k + (m1 :: mr).length + 1) + 1 := by simp; omega
      have j' : Join (h.setPrior m1 f) p ob f := by
        refine ⟨?_, j.2.1, ?_⟩
        · simp only [Heap.setPrior, upd_other _ _ fm1]; exact j.1
        · intro b hb'
          have : b ≠ m1 := by rintro rfl; exact (hb b hb').2 (by simp)
          simp only [Heap.setPrior, upd_other _ _ this]; exact j.2.2 b hb'
      have up : ∀ {z : Id}, z ∈ f :: (m1 :: mr) → z ∈ f :: (m1 :: mr ++ [l]) := by
        intro z hz
        rcases List.mem_cons.1 hz with e | e
        · simp [e]
        · exact List.mem_cons_of_mem _ (List.mem_append_left _ e)
      have lnot : l ∉ f :: (m1 :: mr) := by
        intro q
        rcases List.mem_cons.1 q with e | e
        · exact fl e.symm
        · exact n4 l e l (by simp) rfl
      have ln : Line (h.setPrior m1 f) (f :: (m1 :: mr)) := by
        refine ⟨?_, Line.congr i3 ?_ (fun _ _ => rfl)⟩
        · intro b hb'
          simp only [List.head?_cons, Option.mem_def, Option.some.injEq] at hb'
          subst hb'
          exact ⟨i1, upd_same _ _ _⟩
        · intro a ha
          have : a ≠ m1 := by rintro rfl; exact n2 ha
          simp only [Heap.setPrior, upd_other _ _ this]
      refine ⟨h.setPrior m1 f, f :: (m1 :: mr) ++ [l], ?_, ?_, ?_⟩
      · have := deleteHash_line (c := .multi) (k := k) (r := m1 :: mr) (fr := l :: fr) (hd := hd) j' ln (by
            rw [List.nodup_cons, List.nodup_cons]
            exact ⟨fun q => n1 (List.mem_append_left _ q), n2, n3⟩) (fun q => hh (up q)) (fun z hz q => by
            rcases List.mem_cons.1 q with rfl | q
            · exact lnot hz
            · exact di z (up hz) q) (fun q => by
            rcases List.mem_cons.1 q with e | q
            · exact pl e
            · exact pf q) (fun q => pr (up q)) (fun b hb' => ⟨fun q => by
            rcases List.mem_cons.1 q with e | q
            · exact (hb b hb').2 (by simp [e])
            · exact (hb b hb').1 q, fun q => (hb b hb').2 (up q)⟩)
        rw [hlen, deleteHash]
        simp only [if_neg lh, if_neg lf, i2, if_neg yf, i6, ne_eq, fl, not_false_iff, if_true, if_neg ff, j.1, pl, i1, if_neg m1f]
        rw [hy, this]
        simp
      · exact .refl _
      · exact Agree.setPrior _ _ (.refl _ _ _) (by simp)

/-- All segments, the last first. -/
theorem deleteHash_segs {hd : Id} {c : Cat} : ∀ {fs : List Seg} {h : Heap} {fr : List Id} {n : Nat}, Chain h hd fs → (c = .uniq → ∀ s ∈ fs, ∃ x, s.2 = .one x) →
    (hd :: nodesS fs).Nodup → (∀ z ∈ hd :: nodesS fs, z ∉ fr) → (∀ b ∈ bucks fs, b ∉ fr ∧ b ∉ nodesS fs) → (nodesS fs).length ≤ n →
    ∃ ys, deleteHash c hd n h fr (lastOf hd fs) = .ok (ys ++ fr) ∧ ys.Perm (nodesS fs) := by
  intro fs
  induction fs using List.reverseRecOn with
  | nil =>
    intro h fr n ch hc nd di hb hn
    refine ⟨[], ?_, .refl _⟩
    unfold deleteHash
    simp
  | append_singleton fs s ih =>
    intro h fr n ch hc nd di hb hn
    obtain ⟨ob, g⟩ := s
    rw [Chain.append] at ch
    obtain ⟨ch1, j, inn, -⟩ := ch
    simp only [nodesS_append, nodesS_cons, nodesS_nil, List.append_nil, bucks_append] at *
    rw [List.length_append] at hn
    have nd2 := nd
    rw [List.nodup_cons, List.nodup_append] at nd2
    obtain ⟨n1, n2, n3, n4⟩ := nd2
    have pm := lastOf_mem hd fs
    have inl : ∀ {z : Id}, z ∈ hd :: nodesS fs → z ∈ hd :: (nodesS fs ++ g.toList) := by
      intro z hz
      rcases List.mem_cons.1 hz with e | e
      · simp [e]
      · simp [e]
    have cross : ∀ z ∈ hd :: nodesS fs, z ∉ g.toList := by
      intro z hz q
      rcases List.mem_cons.1 hz with e | e
      · exact n1 (by rw [← e]; simp [q])
      · exact n4 z e z q rfl
    obtain ⟨h', ys, k1, k2, k3⟩ := deleteHash_group (c := c) (hd := hd) (k := n - g.toList.length) (fr := fr) j inn (fun e => hc e (ob, g) (by simp)) n3
      (fun q => n1 (by simp [q])) (fun z hz => di z (by simp [hz])) (di _ (inl pm)) (cross _ pm)
      (fun b hb' => by
        have := hb b (by subst hb'; simp)
        exact ⟨this.1, fun q => this.2 (by simp [q])⟩)
    have gt : ∀ z ∈ g.toList.tail, z ∈ g.toList := fun z hz => List.mem_of_mem_tail hz
    have ch' : Chain h' hd fs := Chain.congr ch1 (fun a ha => k3.1 a (fun q => cross a (List.mem_cons_of_mem _ ha) (gt a q)))
      (fun a ha => k3.1 a (fun q => (hb a (by simp [ha])).2 (by simp [gt a q]))) (fun a ha => k3.2 a (by simp))
    obtain ⟨zs, i1, i2⟩ := ih (h := h') (fr := ys ++ fr) (n := n - g.toList.length) ch' (fun e s hs => hc e s (by simp [hs])) (List.nodup_cons.2 ⟨fun q => n1 (by simp [q]), n2⟩)
      (fun z hz q => by
        rcases List.mem_append.1 q with q | q
        · exact cross z hz (k2.mem_iff.1 q)
        · exact di z (inl hz) q)
      (fun b hb' => by
        have := hb b (by simp [hb'])
        refine ⟨fun q => ?_, fun q => this.2 (by simp [q])⟩
        rcases List.mem_append.1 q with q | q
        · exact this.2 (by simp [k2.mem_iff.1 q])
        · exact this.1 q) (by omega)
    refine ⟨zs ++ ys, ?_, i2.append k2⟩
    have hn' : n = (n - g.toList.length) + g.toList.length := by omega
    rw [lastOf_append]
    show deleteHash c hd n h fr g.last = _
    rw [hn', k1, i1]
    simp

end

/-- Destruction deletes every element once and never touches a deleted one. -/
theorem Layer.deleteAll_spec {L : Layer V} {val : Id → V} {hd : Id} {xs : List Id} {n : Nat} (w : L.Holds val hd xs) (hn : xs.length ≤ n) :
    ∃ ys, L.deleteAll n hd = .ok ys ∧ ys.Perm xs := by
  have nd := w.nodup
  cases L with
  | ord u lt h =>
    obtain ⟨t, rt, -, -, rfl⟩ := w.1
    have sh := rt.shape
    have nd := sh.nodup
    obtain ⟨ys, k1, k2⟩ := deleteOrd_spec (n := n) (fr := []) sh.at' (List.nodup_cons.1 sh.nodup).2 (fun k => sh.nz (by simp [k])) (by simp) hn
    refine ⟨ys.reverse, ?_, ys.reverse_perm.trans k2⟩
    simp only [deleteAll, sh.root, k1, List.append_nil]
  | hash c eq hf pol ml h a =>
    obtain ⟨-, -, T, r, gd, rfl⟩ := w
    have hl : h.prior hd = Hash.lastOf hd (T.flat a.base) := by
      have := r.ring
      unfold Hash.Ring Hash.close at this
      rw [Hash.Chain.append] at this
      exact this.2.1.1
    have hring := r.ring
    unfold Hash.Ring Hash.close at hring
    rw [Hash.Chain.append] at hring
    obtain ⟨ys, k1, k2⟩ := deleteHash_segs (c := c) (fs := T.flat a.base) (h := h) (fr := []) (n := n) hring.1 (fun e s hs => by
        have oc := gd.cat e
        simp only [Hash.Tab.flat, Hash.flatO, List.mem_flatMap] at hs
        obtain ⟨i, -, hs⟩ := hs
        have : s.2 ∈ T.B i := by
          cases hB : T.B i with
          | nil => rw [hB] at hs; exact nomatch hs
          | cons g gs =>
            rw [hB] at hs
            simp only [Hash.flatC, List.mem_cons, List.mem_map] at hs
            rcases hs with rfl | ⟨g', hg', rfl⟩
            · simp
            · simp [hg']
        exact oc i _ this) (by rw [r.nodesS]; exact r.nd) (by simp) (fun b hb => ⟨by simp, fun q => by
          rw [r.nodesS] at q
          rw [r.bucks] at hb
          obtain ⟨i, hi, rfl⟩ := List.mem_map.1 hb
          have h1 := r.dis _ (List.mem_cons_of_mem _ q)
          have h2 := r.ordlt i hi
          simp only [Hash.Arr.endB] at h1
          idomega⟩) (by rw [r.nodesS]; exact hn)
    refine ⟨ys.reverse, ?_, ys.reverse_perm.trans (by rw [← r.nodesS]; exact k2)⟩
    simp only [deleteAll, hl, k1, List.append_nil]
  | seq h =>
    have hs : Seq.Seg h hd xs hd := w.2 (hd, xs) (by simp)
    have k := deleteSeq_spec (n := n) (fr := []) hs (List.nodup_cons.1 nd).2 (List.nodup_cons.1 nd).1 (by simp) hn
    refine ⟨xs, ?_, .refl _⟩
    simp only [deleteAll, Seq.next_hd w, k, List.append_nil, List.reverse_reverse]
  | rnd s =>
    refine ⟨xs, ?_, .refl _⟩
    simp only [deleteAll, Out.ok.injEq]
    have sz : s.size = xs.length := w.1.symm ▸ rfl
    apply List.ext_getElem
    · simp [sz]
    · intro i h1 h2
      simp only [List.getElem_map, List.getElem_range]
      exact Rnd.Rep.arr w h2

end MI.Cont
