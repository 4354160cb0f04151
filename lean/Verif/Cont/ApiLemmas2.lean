import Verif.Cont.ApiLemmas
import Verif.Ord.LookupLemmas
/-!
Erasure and extraction by key.
-/
set_option linter.unusedVariables false
set_option linter.unusedSimpArgs false
namespace MI.Cont
open MI
variable {V : Type} {w w' : World V} {i k : Nat} {c c' : Container V}

theorem two_mul_le_pow : ∀ k : Nat, 2 * k ≤ 2 ^ k + 1
  | 0 => by simp
  | 1 => by simp
  | k + 2 => by
    have := two_mul_le_pow (k + 1)
    have : 2 ^ (k + 2) = 2 ^ (k + 1) + 2 ^ (k + 1) := by rw [Nat.pow_succ]; omega
    have : 2 ^ (k + 1) ≥ 2 := by rw [Nat.pow_succ]; have := Nat.one_le_two_pow (n := k); omega
    omega

theorem log_budget' (n : Nat) : 2 * Nat.log2 (n + 1) + 2 ≤ n + 4 := by
  have h1 := two_mul_le_pow (Nat.log2 (n + 1))
  have h2 := Nat.log2_self_le (n := n + 1) (by omega)
  omega

/-- An index of a container of a reachable program. -/
theorem Inv.seq' (I : Inv w) (hi : w.cs[i]? = some c) {S : Spec V} {xs : List Id} (hS : c.asked[k]? = some S) (h : c.seqs[k]? = some xs) :
    ∃ L, c.ls[k]? = some L ∧ L.Holds w.m.val c.hd xs ∧ xs.length + 4 = c.budget ∧ L.spec = S ∧ S.Ok := by
  obtain ⟨L, hL, h2, h3, h4, h5⟩ := I.seq hi h
  obtain ⟨hc, s, -⟩ := I.facts hi
  have : L.spec = S := by
    unfold Container.asked at hS
    rw [List.getElem?_map, hL] at hS
    exact Option.some.inj hS
  exact ⟨L, hL, h2, by rw [h3.length_eq, Container.budget, s.count], this, this ▸ h5⟩

theorem seq_ne_hd (I : Inv w) (hi : w.cs[i]? = some c) {xs : List Id} (h : c.seqs[k]? = some xs) {x : Id} (hx : x ∈ xs) : x ≠ c.hd := by
  rintro rfl
  exact (List.nodup_cons.1 (I.seq_nodup hi h)).1 hx

theorem filter_mid {p : Id → Bool} {u m v : List Id} (hm : ∀ a ∈ m, p a = true) (huv : ∀ a ∈ u ++ v, p a = false) : (u ++ m ++ v).filter p = m := by
  rw [List.filter_append, List.filter_append, List.filter_eq_nil_iff.2, List.filter_eq_self.2 hm, List.filter_eq_nil_iff.2]
  · simp
  · intro a ha; simp [huv a (by simp [ha])]
  · intro a ha; simp [huv a (by simp [ha])]

theorem purged_seq {m xs : List Id} (p : Purged w w' i m) (hi : w.cs[i]? = some c) (hi' : w'.cs[i]? = some c') (h : c.seqs[k]? = some xs) :
    c'.seqs[k]? = some (xs.filter (· ∉ m)) := by
  obtain ⟨-, -, -, hs, -⟩ := p.elems hi hi'
  rw [hs, List.getElem?_map, h]; rfl

/-- `erase(key)`. -/
theorem eraseKey_spec {S : Spec V} {xs : List Id} {p : Probe V} (r : Reach w) (hi : w.cs[i]? = some c) (hS : c.asked[k]? = some S)
    (h : c.seqs[k]? = some xs) (po : p.Ok S) :
    ∃ w', w.eraseKey i k p false = .ok (w', (xs.filter (fun x => p.hits (w.m.val x) S)).length) ∧
      Purged w w' i (xs.filter (fun x => p.hits (w.m.val x) S)) ∧ Reach w' := by
  have I := r.inv
  obtain ⟨L, hL, h2, h4, h5, h6⟩ := I.seq' hi hS h
  have nd := I.seq_nodup hi h
  subst h5
  cases L with
  | seq => exact po.elim
  | rnd => exact po.elim
  | ord un lt hp =>
    obtain ⟨u, m, v, e, hu, hm, hv⟩ := Ord.compat_split (key := w.m.val) (x := ()) po (good_sorted h6 h2.2)
    obtain rfl : xs = u ++ m ++ v := by simpa using e
    have q : Ord.equalRange w.m.val (fun v (_ : Unit) => p.lt v) (fun _ v => p.gt v) c.budget hp c.hd () = some (hdOr c.hd (m ++ v), hdOr c.hd v) := by
      unfold Ord.equalRange
      refine Ord.range_on h2.1 (by rw [← h4]; exact log_budget' _) e (fun a ha => ?_) (fun a ha => ?_) (fun a ha => ?_)
      · simp [(hu a ha).1]
      · simp [(hm a ha).1, (hm a ha).2]
      · simp [(hv a ha).1, (hv a ha).2]
    have f : (u ++ m ++ v).filter (fun x => p.hits (w.m.val x) (Layer.ord un lt hp).spec) = m := by
      refine filter_mid (fun a ha => ?_) (fun a ha => ?_)
      · simp [Probe.hits, Layer.spec, hm a ha]
      · rcases List.mem_append.1 ha with ha | ha
        · simp [Probe.hits, Layer.spec, (hu a ha).1]
        · simp [Probe.hits, Layer.spec, (hv a ha).2]
    rw [f]
    obtain ⟨w', k1, k2, k3⟩ := eraseLoop_spec (k := k) (u := u) (v := v) (m := m) 0 r hi h (n := c.budget) (by simp only [List.length_append] at h4; omega)
    rw [Nat.zero_add] at k1
    exact ⟨w', by simp only [World.eraseKey, hi, hL, q]; exact congrArg (fun o => match o with | Out.ok (w, _, s) => Out.ok (w, s) | .threw (w, _, s) => .threw (w, s) | .ub => .ub | .hang => .hang) k1, k2, k3⟩
  | hash g eq hf pol ml hp a =>
    have eh : EqHash (Layer.eqv eq w.m.val) (fun x => hf (w.m.val x)) := EqHash.comap h6 w.m.val
    have h2 : Hash.Holds g (Layer.eqv eq w.m.val) (fun x => hf (w.m.val x)) hp a c.hd xs := h2.2
    have po : CompatHash eq hf (fun (_ : Unit) v => p.eq v) (fun _ => p.hash) := po
    rcases h2.findLoop eh (n := c.budget) (p := fun x => p.eq (w.m.val x)) (hk := p.hash) (by omega)
      (fun x y a b => po.ext (c := ()) a b) (fun x y a b => po.one (c := ()) a b) (fun x a => po.cons (c := ()) a) with ⟨k1, k2⟩ | ⟨f, m, u, v, k1, e, k2, k3, k4⟩
    · have f : xs.filter (fun x => p.hits (w.m.val x) (Layer.hash g eq hf pol ml hp a).spec) = [] :=
        List.filter_eq_nil_iff.2 fun y hy => by simp [Probe.hits, Layer.spec, k2 y hy]
      rw [f]
      exact ⟨w, by simp only [World.eraseKey, hi, hL, k1]; try rfl, purged_nil hi, r⟩
    · subst e
      have ff : (u ++ (f :: m) ++ v).filter (fun x => p.hits (w.m.val x) (Layer.hash g eq hf pol ml hp a).spec) = f :: m :=
        filter_mid k2 k3
      rw [ff]
      obtain ⟨w1, t1, t2, t3⟩ := eraseIt_spec (u := u) (v := m ++ v) (x := f) r hi (by rw [h]; simp)
      obtain ⟨c0, c1, o, -⟩ := t2.cont
      obtain rfl := Option.some.inj (o.pre.symm.trans hi)
      have hs1 : c1.seqs[k]? = some (u ++ m ++ v) := by
        rw [purged_seq t2 hi o.post h]
        have := filter_split (u := u) (m := [f]) (v := m ++ v) (by simpa using (List.nodup_cons.1 nd).2)
        simpa using this
      obtain ⟨w2, s1, s2, s3⟩ := eraseLoop_spec (k := k) (u := u) (v := v) (m := m) 1 t3 o.post hs1 (n := c0.budget) (by simp only [List.length_append, List.length_cons] at h4; omega)
      rw [o.hd, Nat.add_comm] at s1
      refine ⟨w2, ?_, t2.trans s2, s3⟩
      simp only [World.eraseKey, hi, hL, k1, k4, t1, s1, List.length_cons]
      try rfl

theorem extractAt_spec {x : Id} (r : Reach w) (hi : w.cs[i]? = some c) (hx : x ∈ c.elems) (hne : x ≠ c.hd) :
    ∃ w', w.extractAt i c.hd x = .ok (w', some x) ∧ Lost w w' i x ∧ w'.m = w.m ∧ w'.hs = w.hs ++ [some x] ∧ Reach w' := by
  have l : w.Legal (.extract i x) := ⟨c, hi, hx⟩
  obtain ⟨w', k1, k2, k3, k4⟩ := eff_extract r.inv l
  exact ⟨w', by simp only [World.extractAt, if_neg hne, k1], k2, k3, k4, r.ok l k1⟩

/-- `extract(key)`. -/
theorem extractKey_spec {S : Spec V} {xs : List Id} {p : Probe V} (r : Reach w) (hi : w.cs[i]? = some c) (hS : c.asked[k]? = some S)
    (h : c.seqs[k]? = some xs) (po : p.Ok S) :
    (xs.find? (fun x => p.hits (w.m.val x) S) = none → w.extractKey i k p false = .ok ({ w with hs := w.hs ++ [none] }, none)) ∧
    ∀ x, xs.find? (fun x => p.hits (w.m.val x) S) = some x →
      ∃ w', w.extractKey i k p false = .ok (w', some x) ∧ Lost w w' i x ∧ w'.m = w.m ∧ w'.hs = w.hs ++ [some x] ∧ Reach w' := by
  have I := r.inv
  obtain ⟨L, hL, h2, h4, h5, h6⟩ := I.seq' hi hS h
  obtain ⟨-, -, -, h3, -⟩ := I.seq hi h
  have nd := I.seq_nodup hi h
  subst h5
  cases L with
  | seq => exact po.elim
  | rnd => exact po.elim
  | ord un lt hp =>
    obtain ⟨u, m, v, e, hu, hm, hv⟩ := Ord.compat_split (key := w.m.val) (x := ()) po (good_sorted h6 h2.2)
    have q : Ord.lowerBound w.m.val (fun v (_ : Unit) => p.lt v) c.budget hp c.hd () = some (hdOr c.hd (m ++ v)) := by
      unfold Ord.lowerBound Ord.lowerBoundFrom
      refine Ord.bound_on h2.1 (by rw [← h4]; exact log_budget' _) e (fun a ha => ?_) (fun a ha => ?_)
      · simp [(hu a ha).1]
      · rcases List.mem_append.1 ha with ha | ha
        · simp [(hm a ha).1]
        · simp [(hv a ha).1]
    have hu' : ∀ a ∈ u, p.hits (w.m.val a) (Layer.ord un lt hp).spec = false := fun a ha => by simp [Probe.hits, Layer.spec, (hu a ha).1]
    have hm' : ∀ a ∈ m, p.hits (w.m.val a) (Layer.ord un lt hp).spec = true := fun a ha => by simp [Probe.hits, Layer.spec, hm a ha]
    have hv' : ∀ a ∈ v, p.hits (w.m.val a) (Layer.ord un lt hp).spec = false := fun a ha => by simp [Probe.hits, Layer.spec, (hv a ha).2]
    cases m with
    | nil =>
      have hn : xs.find? (fun x => p.hits (w.m.val x) (Layer.ord un lt hp).spec) = none := by
        rw [List.find?_eq_none, e]
        intro y hy
        simp only [List.nil_append, List.mem_append] at hy
        rcases hy with hy | hy
        · simp [hu' y hy]
        · simp [hv' y hy]
      refine ⟨fun _ => ?_, fun x hx => nomatch hn.symm.trans hx⟩
      have hc : hdOr c.hd ([] ++ v) = c.hd ∨ p.gt (w.m.val (hdOr c.hd ([] ++ v))) = true := by
        cases v with
        | nil => exact Or.inl rfl
        | cons y v => exact Or.inr (hv y (by simp)).2
      simp only [World.extractKey, hi, hL, q, if_pos hc, World.extractAt, Bool.false_eq_true, if_false, if_true]
    | cons y m =>
      have hn : xs.find? (fun x => p.hits (w.m.val x) (Layer.ord un lt hp).spec) = some y := by
        rw [e, List.find?_append, List.find?_eq_none.2 (fun a ha => by simp [hu' a ha])]
        simp [hm' y (by simp)]
      refine ⟨fun hx => (nomatch hn.symm.trans hx), fun x hx => ?_⟩
      obtain rfl := Option.some.inj (hn.symm.trans hx)
      have hyx : y ∈ xs := by rw [e]; simp
      have hne := seq_ne_hd I hi h hyx
      obtain ⟨w', k1, k2⟩ := extractAt_spec r hi (h3.mem_iff.1 hyx) hne
      refine ⟨w', ?_, k2⟩
      have hc : ¬ (hdOr c.hd (y :: m ++ v) = c.hd ∨ p.gt (w.m.val (hdOr c.hd (y :: m ++ v))) = true) := by
        rintro (a | a)
        · exact hne a
        · have := (hm y (by simp)).2
          rw [show hdOr c.hd (y :: m ++ v) = y from rfl, this] at a
          exact nomatch a
      simp only [World.extractKey, hi, hL, q, if_neg hc, Bool.false_eq_true, if_false]
      exact k1
  | hash g eq hf pol ml hp a =>
    have eh : EqHash (Layer.eqv eq w.m.val) (fun x => hf (w.m.val x)) := EqHash.comap h6 w.m.val
    have h2 : Hash.Holds g (Layer.eqv eq w.m.val) (fun x => hf (w.m.val x)) hp a c.hd xs := h2.2
    have po : CompatHash eq hf (fun (_ : Unit) v => p.eq v) (fun _ => p.hash) := po
    have q := h2.find eh (n := c.budget) (p := fun x => p.eq (w.m.val x)) (hk := p.hash) (by omega)
      (fun x y a b => po.ext (c := ()) a b) (fun x y a b => po.one (c := ()) a b) (fun x a => po.cons (c := ()) a)
    have eF : (fun x => p.hits (w.m.val x) (Layer.hash g eq hf pol ml hp a).spec) = fun x => p.eq (w.m.val x) := rfl
    rw [eF]
    refine ⟨fun hx => ?_, fun x hx => ?_⟩
    · rw [hx] at q
      simp only [World.extractKey, hi, hL, q, World.extractAt, Bool.false_eq_true, if_false, if_true, Option.getD_none]
    · rw [hx] at q
      have hyx : x ∈ xs := List.mem_of_find?_eq_some hx
      obtain ⟨w', k1, k2⟩ := extractAt_spec r hi (h3.mem_iff.1 hyx) (seq_ne_hd I hi h hyx)
      refine ⟨w', ?_, k2⟩
      simp only [World.extractKey, hi, hL, q, Bool.false_eq_true, if_false, Option.getD_some]
      exact k1

end MI.Cont
