import Mathlib.Data.List.Perm.Subperm
import Verif.Ser.Matcher

/-! What the matcher computes: patience sorting finds a longest common subsequence. -/
namespace MI.Ser

/-- The halving search finds the boundary of a monotone predicate. -/
theorem lowerBound_spec (p : Nat → Bool) (hi : Nat) (mono : ∀ i j, i ≤ j → j < hi → p j = true → p i = true) :
    ∀ fuel first len, len ≤ fuel → first + len ≤ hi → (∀ k, k < first → p k = true) →
      (∀ k, first + len ≤ k → k < hi → p k = false) →
      first ≤ lowerBound p fuel first len ∧ lowerBound p fuel first len ≤ first + len ∧
        (∀ k, k < lowerBound p fuel first len → p k = true) ∧
        (∀ k, lowerBound p fuel first len ≤ k → k < hi → p k = false) := by
  intro fuel
  induction fuel with
  | zero =>
    intro first len h1 h2 h3 h4
    have : len = 0 := by omega
    subst this
    exact ⟨Nat.le_refl _, Nat.le_refl _, h3, h4⟩
  | succ fuel ih =>
    intro first len h1 h2 h3 h4
    simp only [lowerBound]
    by_cases h0 : len = 0
    · subst h0
      simp only [if_true]
      exact ⟨Nat.le_refl _, Nat.le_refl _, h3, h4⟩
    · rw [if_neg h0]
      have hh : len / 2 < len := by omega
      by_cases hp : p (first + len / 2) = true
      · rw [if_pos hp]
        obtain ⟨a1, a2, a3, a4⟩ := ih (first + len / 2 + 1) (len - len / 2 - 1) (by omega) (by omega)
          (fun k hk => mono k (first + len / 2) (by omega) (by omega) hp)
          (fun k hk hk' => h4 k (by omega) hk')
        exact ⟨by omega, by omega, a3, a4⟩
      · rw [if_neg hp]
        obtain ⟨a1, a2, a3, a4⟩ := ih first (len / 2) (by omega) (by omega) h3
          (fun k hk hk' => by
            cases hc : p k with
            | false => rfl
            | true => exact absurd (mono (first + len / 2) k hk hk' hc) hp)
        exact ⟨by omega, by omega, a3, a4⟩

theorem lowerBound_all (p : Nat → Bool) (n : Nat) (mono : ∀ i j, i ≤ j → j < n → p j = true → p i = true) :
    lowerBound p n 0 n ≤ n ∧ (∀ k, k < lowerBound p n 0 n → p k = true) ∧ (∀ k, lowerBound p n 0 n ≤ k → k < n → p k = false) := by
  obtain ⟨_, a2, a3, a4⟩ := lowerBound_spec p n mono n 0 n (Nat.le_refl _) (by omega) (fun k hk => by omega)
    (fun k h1 h2 => by omega)
  exact ⟨by omega, a3, a4⟩

/-- The entries are those of the base sequence `b`, sorted by node. -/
structure Ready (a : Alg) (b : List Id) : Prop where
  size : a.size = b.length
  sorted : a.sorted = true
  inc : ∀ i j, i < j → j < a.size → a.node i < a.node j
  pos : ∀ k, k < a.size → b[a.pos k]? = some (a.node k)
  all : ∀ x, x ∈ b → ∃ k, k < a.size ∧ a.node k = x

theorem Ready.localize {a : Alg} {b : List Id} (h : Ready a b) {x : Id} (hx : x ∈ b) :
    a.localize x < a.size ∧ a.node (a.localize x) = x := by
  obtain ⟨k, hk, hkx⟩ := h.all x hx
  have mono : ∀ i j, i ≤ j → j < a.size → (fun k => decide (a.node k < x)) j = true → (fun k => decide (a.node k < x)) i = true := by
    intro i j hij hj hp
    simp only [decide_eq_true_eq] at hp ⊢
    rcases Nat.lt_or_ge i j with hlt | hge
    · exact Nat.lt_trans (h.inc i j hlt hj) hp
    · have : i = j := by omega
      subst this; exact hp
  obtain ⟨l1, l2, l3⟩ := lowerBound_all _ a.size mono
  have hle : a.localize x ≤ k := by
    rcases Nat.lt_or_ge k (a.localize x) with hlt | hge
    · have := l2 k hlt
      simp only [decide_eq_true_eq] at this
      idomega
    · exact hge
  have hge : k ≤ a.localize x := by
    rcases Nat.lt_or_ge (a.localize x) k with hlt | hge
    · have h1 := l3 (a.localize x) (Nat.le_refl _) (by omega)
      have h2 := h.inc _ k hlt hk
      simp only [decide_eq_false_iff_not] at h1
      exact absurd (hkx ▸ h2) h1
    · exact hge
  have : a.localize x = k := by omega
  rw [this]; exact ⟨hk, hkx⟩

theorem Ready.node_inj {a : Alg} {b : List Id} (h : Ready a b) {i j : Nat} (hi : i < a.size) (hj : j < a.size)
    (e : a.node i = a.node j) : i = j := by
  rcases Nat.lt_trichotomy i j with hlt | he | hgt
  · have := h.inc i j hlt hj; idomega
  · exact he
  · have := h.inc j i hgt hi; idomega

/-- Two states that agree on what `Ready` is about. -/
theorem Ready.of_eq {a a' : Alg} {b : List Id} (h : Ready a b) (h1 : a'.size = a.size) (h2 : a'.sorted = a.sorted)
    (h3 : a'.node = a.node) (h4 : a'.pos = a.pos) : Ready a' b := by
  refine ⟨by rw [h1]; exact h.size, by rw [h2]; exact h.sorted, ?_, ?_, ?_⟩
  · rw [h1, h3]; exact h.inc
  · rw [h1, h3, h4]; exact h.pos
  · rw [h1, h3]; exact h.all

/-- The entries met by following `previous` from `e`. -/
def chainOf (prev : Nat → Nat) : (n e : Nat) → List Nat
  | 0, _ => []
  | n + 1, e => e :: chainOf prev n (prev e)

theorem chainOf_congr {p q : Nat → Nat} : ∀ n e, (∀ x ∈ chainOf p n e, p x = q x) → chainOf q n e = chainOf p n e
  | 0, _, _ => rfl
  | n + 1, e, h => by
    simp only [chainOf]
    have h0 : p e = q e := h e (by simp [chainOf])
    rw [← h0, chainOf_congr n (p e) (fun x hx => h x (by simp [chainOf, hx]))]

theorem chainOf_length (p : Nat → Nat) : ∀ n e, (chainOf p n e).length = n
  | 0, _ => rfl
  | n + 1, e => by simp [chainOf, chainOf_length p n]

theorem mark_eq (p : Nat → Nat) : ∀ n e (o : Nat → Bool) x, Alg.mark p n e o x = (decide (x ∈ chainOf p n e) || o x)
  | 0, _, o, x => by simp [Alg.mark, chainOf]
  | n + 1, e, o, x => by
    simp only [Alg.mark, chainOf]
    rw [mark_eq p n (p e) (upd o e true) x]
    by_cases hx : x = e
    · subst hx; simp
    · rw [upd_other _ _ hx]
      simp [hx]

/-- What holds while the algorithm runs: `done` are the entries processed, in order, `lv e` is the pile where `e` was put. -/
structure Run (a : Alg) (done : List Nat) (lv : Nat → Nat) : Prop where
  piles : ∀ k, k < a.numPiles → a.pileEnt k ∈ done ∧ lv (a.pileEnt k) = k ∧ a.pileTop k = a.pos (a.pileEnt k)
  inc : ∀ j k, j < k → k < a.numPiles → a.pileTop j < a.pileTop k
  level : ∀ e ∈ done, lv e < a.numPiles ∧ a.pileTop (lv e) ≤ a.pos e
  chain : ∀ e ∈ done, (chainOf a.previous (lv e + 1) e).reverse.Sublist done ∧
    (chainOf a.previous (lv e + 1) e).Pairwise (fun i j => a.pos j < a.pos i)
  best : ∀ S : List Nat, S.Sublist done → S.Pairwise (fun i j => a.pos i < a.pos j) → ∀ e, S.getLast? = some e → S.length ≤ lv e + 1
  plain : ∀ e ∈ done, a.ordered e = false

/-- No more piles than entries processed. -/
theorem Run.count {a : Alg} {done : List Nat} {lv : Nat → Nat} (h : Run a done lv) : a.numPiles ≤ done.length := by
  rcases Nat.eq_zero_or_pos a.numPiles with h0 | h0
  · omega
  · obtain ⟨h1, h2, _⟩ := h.piles (a.numPiles - 1) (by omega)
    have := (h.chain _ h1).1.length_le
    rw [List.length_reverse, chainOf_length, h2] at this
    omega

theorem run_step {a : Alg} {b : List Id} {done : List Nat} {lv : Nat → Nat} (hr : Ready a b) (h : Run a done lv)
    {x : Id} (hx : x ∈ b) (hnew : a.localize x ∉ done) (hlen : done.length < a.size) :
    ∃ a' lv', a.addNode x = some a' ∧ Ready a' b ∧ Run a' (done ++ [a.localize x]) lv' ∧ a'.size = a.size ∧ a'.node = a.node ∧
      a'.pos = a.pos ∧ (∀ k, k ≠ a.localize x → a'.ordered k = a.ordered k) := by
  obtain ⟨hs, hn⟩ := hr.localize hx
  generalize he : a.localize x = e at hs hn hnew
  have hmono : ∀ i j, i ≤ j → j < a.numPiles → (fun k => decide (a.pileTop k < a.pos e)) j = true →
      (fun k => decide (a.pileTop k < a.pos e)) i = true := by
    intro i j hij hj hp
    simp only [decide_eq_true_eq] at hp ⊢
    rcases Nat.lt_or_ge i j with hlt | hge
    · exact Nat.lt_trans (h.inc i j hlt hj) hp
    · have : i = j := by omega
      subst this; exact hp
  obtain ⟨p1, p2, p3⟩ := lowerBound_all _ a.numPiles hmono
  have hpile : a.pileFor (a.pos e) = lowerBound (fun k => decide (a.pileTop k < a.pos e)) a.numPiles 0 a.numPiles := rfl
  rw [← hpile] at p1 p2 p3
  generalize hq : a.pileFor (a.pos e) = q at p1 p2 p3
  simp only [decide_eq_true_eq] at p2
  simp only [decide_eq_false_iff_not, Nat.not_lt] at p3
  have hqs : q < a.size := by have := h.count; omega
  refine ⟨{ a with
        ordered := upd a.ordered e false
        pileTop := upd a.pileTop q (a.pos e)
        pileEnt := upd a.pileEnt q e
        previous := if 0 < q then upd a.previous e (upd a.pileEnt q e (q - 1)) else a.previous
        numPiles := if q = a.numPiles then a.numPiles + 1 else a.numPiles }, upd lv e q,
    by simp only [Alg.addNode, he, hq, if_pos (⟨hs, hqs⟩ : e < a.size ∧ q < a.size)], ?_, ?_, rfl, rfl, rfl, ?_⟩
  · exact hr.of_eq rfl rfl rfl rfl
  · have hprev : ∀ y ∈ done, a.previous y =
        (if 0 < q then upd a.previous e (upd a.pileEnt q e (q - 1)) else a.previous) y := by
      intro y hy
      split
      · rw [upd_other _ _ (ne_of_mem_of_not_mem hy hnew)]
      · rfl
    have hchain : ∀ y ∈ done, chainOf (if 0 < q then upd a.previous e (upd a.pileEnt q e (q - 1)) else a.previous) (lv y + 1) y =
        chainOf a.previous (lv y + 1) y := by
      intro y hy
      refine chainOf_congr _ _ (fun z hz => hprev z ((h.chain y hy).1.subset (List.mem_reverse.2 hz)))
    have hnp : ∀ k, k < (if q = a.numPiles then a.numPiles + 1 else a.numPiles) ↔ (k < a.numPiles ∨ k = q) := by
      intro k
      split <;> omega
    have hlv : ∀ y ∈ done, upd lv e q y = lv y := fun y hy => upd_other _ _ (ne_of_mem_of_not_mem hy hnew)
    refine ⟨?_, ?_, ?_, ?_, ?_, ?_⟩
    · intro k hk
      have hk' := (hnp k).1 hk
      by_cases hkq : k = q
      · subst hkq
        simp only [upd_same]
        exact ⟨List.mem_append_right _ (by simp), trivial, trivial⟩
      · obtain ⟨u1, u2, u3⟩ := h.piles k (by rcases hk' with h' | h'; exact h'; exact absurd h' hkq)
        simp only [upd_other _ _ hkq]
        exact ⟨List.mem_append_left _ u1, by rw [hlv _ u1]; exact u2, u3⟩
    · intro j k hjk hk
      have hk' := (hnp k).1 hk
      have hjn : j < a.numPiles := by rcases hk' with h' | h' <;> omega
      by_cases hjq : j = q
      · subst hjq
        simp only [upd_same, upd_other _ _ (show k ≠ j by omega)]
        have hkn : k < a.numPiles := by rcases hk' with h' | h' <;> omega
        exact Nat.lt_of_le_of_lt (p3 j (Nat.le_refl _) hjn) (h.inc j k hjk hkn)
      · simp only [upd_other _ _ hjq]
        by_cases hkq : k = q
        · subst hkq
          simp only [upd_same]
          exact p2 j hjk
        · simp only [upd_other _ _ hkq]
          exact h.inc j k hjk (by rcases hk' with h' | h'; exact h'; exact absurd h' hkq)
    · intro y hy
      rcases List.mem_append.1 hy with hy | hy
      · obtain ⟨l1, l2⟩ := h.level y hy
        simp only [hlv y hy]
        refine ⟨(hnp _).2 (Or.inl l1), ?_⟩
        by_cases hlq : lv y = q
        · rw [hlq, upd_same]
          rw [hlq] at l1 l2
          exact Nat.le_trans (p3 q (Nat.le_refl _) l1) l2
        · rw [upd_other _ _ hlq]; exact l2
      · simp only [List.mem_singleton] at hy
        subst hy
        simp only [upd_same]
        exact ⟨(hnp _).2 (Or.inr rfl), Nat.le_refl _⟩
    · intro y hy
      rcases List.mem_append.1 hy with hy | hy
      · simp only [hlv y hy, hchain y hy]
        exact ⟨(h.chain y hy).1.trans (List.sublist_append_left _ _), (h.chain y hy).2⟩
      · simp only [List.mem_singleton] at hy
        subst hy
        simp only [upd_same, chainOf]
        by_cases hq0 : 0 < q
        · simp only [if_pos hq0, upd_same]
          have hpe : upd a.pileEnt q y (q - 1) = a.pileEnt (q - 1) := upd_other _ _ (by omega)
          rw [hpe]
          obtain ⟨u1, u2, u3⟩ := h.piles (q - 1) (by omega)
          have hc := hchain _ u1
          rw [u2] at hc
          have e1 : q - 1 + 1 = q := by omega
          rw [e1] at hc
          simp only [if_pos hq0, hpe] at hc
          rw [hc]
          have hh := h.chain _ u1
          rw [u2, e1] at hh
          refine ⟨?_, ?_⟩
          · rw [List.reverse_cons]
            exact hh.1.append (List.Sublist.refl _)
          · refine List.pairwise_cons.2 ⟨?_, hh.2⟩
            intro z hz
            have hlast : a.pos (a.pileEnt (q - 1)) < a.pos y := by rw [← u3]; exact p2 _ (by omega)
            rw [← e1] at hz hh
            simp only [chainOf, List.mem_cons] at hz
            rcases hz with rfl | hz
            · exact hlast
            · exact Nat.lt_trans ((List.pairwise_cons.1 hh.2).1 z hz) hlast
        · have hq0' : q = 0 := by omega
          subst hq0'
          simp only [chainOf]
          exact ⟨by simpa using List.sublist_append_right done [y], List.pairwise_singleton _ _⟩
    · intro S hS hSp y hy
      rcases List.eq_nil_or_concat S with rfl | ⟨T, z, rfl⟩
      · simp at hy
      · simp only [List.concat_eq_append, List.getLast?_append, List.getLast?_singleton, Option.some_or, Option.some.injEq] at hy
        subst hy
        rw [List.concat_eq_append] at hS hSp
        rcases List.sublist_append_iff.1 hS with ⟨S1, S2, hSS, hS1, hS2⟩
        rcases List.eq_nil_or_concat S2 with rfl | ⟨T', z', hT'⟩
        · rw [List.append_nil] at hSS
          subst hSS
          have hz : z ∈ done := hS1.subset (by simp)
          rw [hlv z hz]
          have := h.best _ hS1 hSp z (by simp)
          simpa using this
        · have hS2' : S2 = [e] := by
            rcases List.sublist_singleton.1 hS2 with rfl | h'
            · simp at hT'
            · exact h'
          subst hS2'
          obtain ⟨rfl, h2⟩ := List.append_inj' hSS rfl
          simp only [List.cons.injEq, and_true] at h2
          subst h2
          simp only [upd_same, List.concat_eq_append, List.length_append, List.length_singleton]
          rcases List.eq_nil_or_concat T with rfl | ⟨T2, w, rfl⟩
          · simp
          · rw [List.concat_eq_append] at hS1 hSp ⊢
            have hwd : w ∈ done := hS1.subset (by simp)
            have hb := h.best _ hS1 (List.pairwise_append.1 hSp).1 w (by simp)
            have hlt : a.pos w < a.pos z := (List.pairwise_append.1 hSp).2.2 w (by simp) z (by simp)
            obtain ⟨l1, l2⟩ := h.level w hwd
            have : lv w < q := by
              rcases Nat.lt_or_ge (lv w) q with h' | h'
              · exact h'
              · have := p3 _ h' l1
                omega
            omega
    · intro y hy
      rcases List.mem_append.1 hy with hy | hy
      · show upd a.ordered e false y = false
        rw [upd_other _ _ (ne_of_mem_of_not_mem hy hnew)]
        exact h.plain y hy
      · simp only [List.mem_singleton] at hy
        subst hy
        show upd a.ordered y false y = false
        rw [upd_same]
  · intro k hk
    exact upd_other _ _ hk

theorem localize_eq {a a' : Alg} (h1 : a'.size = a.size) (h2 : a'.node = a.node) (x : Id) : a'.localize x = a.localize x := by
  simp only [Alg.localize, h1, h2]

theorem run_all {b : List Id} : ∀ (xs : List Id) {a : Alg} {done : List Nat} {lv : Nat → Nat}, Ready a b → Run a done lv →
    (∀ x ∈ xs, x ∈ b) → xs.Nodup → (∀ x ∈ xs, a.localize x ∉ done) → done.length + xs.length ≤ a.size →
    ∃ a' lv', a.addNodes xs = some a' ∧ Ready a' b ∧ Run a' (done ++ xs.map a.localize) lv' ∧ a'.size = a.size ∧ a'.node = a.node ∧
      a'.pos = a.pos
  | [], a, done, lv, hr, h, _, _, _, _ => ⟨a, lv, rfl, hr, by simpa using h, rfl, rfl, rfl⟩
  | x :: xs, a, done, lv, hr, h, hb, hnd, hnew, hlen => by
    simp only [List.length_cons] at hlen
    obtain ⟨a1, lv1, e1, r1, h1, s1, n1, p1, _⟩ := run_step hr h (hb x (by simp)) (hnew x (by simp)) (by omega)
    have hloc : a1.localize = a.localize := funext (localize_eq s1 n1)
    obtain ⟨a2, lv2, e2, r2, h2, s2, n2, p2⟩ := run_all xs r1 h1 (fun y hy => hb y (List.mem_cons_of_mem _ hy))
      (List.nodup_cons.1 hnd).2
      (by
        intro y hy hc
        rw [hloc] at hc
        rcases List.mem_append.1 hc with hc | hc
        · exact hnew y (List.mem_cons_of_mem _ hy) hc
        · simp only [List.mem_singleton] at hc
          have e3 := (hr.localize (hb y (List.mem_cons_of_mem _ hy))).2
          rw [hc, (hr.localize (hb x (by simp))).2] at e3
          subst e3
          exact (List.nodup_cons.1 hnd).1 hy)
      (by simp only [List.length_append, List.length_singleton]; omega)
    refine ⟨a2, lv2, by simp only [Alg.addNodes, e1, e2], r2, ?_, by rw [s2, s1], by rw [n2, n1], by rw [p2, p1]⟩
    rw [hloc] at h2
    simpa using h2

/-- A strictly increasing list of positions of `b` gives a subsequence of `b`. -/
theorem sublist_of_pos {b : List Id} (E : List Nat) (node : Nat → Id) (pos : Nat → Nat)
    (h : ∀ e ∈ E, b[pos e]? = some (node e)) (hp : E.Pairwise (fun i j => pos i < pos j)) : (E.map node).Sublist b := by
  have hlt : ∀ e ∈ E, pos e < b.length := fun e he => by
    have := h e he
    rw [List.getElem?_eq_some_iff] at this
    exact this.1
  let is : List (Fin b.length) := E.attach.map fun e => ⟨pos e.1, hlt e.1 e.2⟩
  have h1 : is.Pairwise (· < ·) := by
    refine List.pairwise_map.2 ?_
    show E.attach.Pairwise (fun i j => pos i.1 < pos j.1)
    exact (List.pairwise_map (f := Subtype.val) (R := fun i j => pos i < pos j)).1 (by rw [List.attach_map_subtype_val]; exact hp)
  have h2 := List.map_getElem_sublist (l := b) h1
  have h3 : is.map (fun i => b[i]) = E.map node := by
    have : is.map (fun i => b[i]) = E.attach.map (fun e => node e.1) := by
      simp only [is, List.map_map]
      refine List.map_congr_left (fun e _ => ?_)
      have := h e.1 e.2
      rw [List.getElem?_eq_some_iff] at this
      exact this.2
    rw [this]
    conv_rhs => rw [← List.attach_map_subtype_val E, List.map_map]
    rfl
  exact h3 ▸ h2

/-- A subsequence of `b` comes at strictly increasing positions. -/
theorem pos_of_sublist {b : List Id} (hb : b.Nodup) (E : List Nat) (node : Nat → Id) (pos : Nat → Nat)
    (h : ∀ e ∈ E, b[pos e]? = some (node e)) (hs : (E.map node).Sublist b) : E.Pairwise (fun i j => pos i < pos j) := by
  obtain ⟨is, h1, h2⟩ := List.sublist_eq_map_getElem hs
  have hm : E.map pos = is.map (fun i => i.1) := by
    have hl : E.length = is.length := by have := congrArg List.length h1; simpa using this
    refine List.ext_getElem (by simpa using hl) (fun k hk1 hk2 => ?_)
    simp only [List.getElem_map]
    simp only [List.length_map] at hk1 hk2
    have hk : (E.map node)[k]'(by simpa using hk1) = (is.map (fun i => b[i]))[k]'(by simpa using hk2) := by
      simp only [h1]
    simp only [List.getElem_map] at hk
    have hh := h E[k] (List.getElem_mem _)
    rw [List.getElem?_eq_some_iff] at hh
    obtain ⟨hlt, he⟩ := hh
    rw [hk] at he
    exact (List.nodup_iff_injective_getElem.1 hb) (a₁ := ⟨_, hlt⟩) (a₂ := is[k]) (by simpa using he) |> fun h => congrArg Fin.val h
  have h3 : (E.map pos).Pairwise (· < ·) := by
    rw [hm]
    refine List.pairwise_map.2 ?_
    exact h2
  exact List.pairwise_map.1 h3

theorem filter_mem_of_sublist {α : Type _} [DecidableEq α] : ∀ {l s : List α}, s.Sublist l → l.Nodup → l.filter (fun x => decide (x ∈ s)) = s := by
  intro l s h
  induction h with
  | slnil => intro _; rfl
  | @cons l1 l2 a h ih =>
    intro hnd
    have ⟨ha, hnd'⟩ := List.nodup_cons.1 hnd
    rw [List.filter_cons_of_neg (by simp only [decide_eq_true_eq]; exact fun hc => ha (h.subset hc)), ih hnd']
  | @cons_cons l1 l2 a h ih =>
    intro hnd
    have ⟨ha, hnd'⟩ := List.nodup_cons.1 hnd
    rw [List.filter_cons_of_pos (by simp)]
    congr 1
    rw [← ih hnd']
    refine List.filter_congr (fun x hx => ?_)
    have hxa : x ≠ a := fun hc => ha (hc ▸ hx)
    simp [hxa, ih hnd']

/-- What `execute` computes on a prepared matcher, whatever was computed before. -/
theorem execute_spec {a : Alg} {b xs : List Id} (hr : Ready a.begin b) (hb : b.Nodup) (hx : ∀ x ∈ xs, x ∈ b) (hnd : xs.Nodup) :
    ∃ a', a.execute xs = some a' ∧ Ready a' b ∧ (∀ x ∈ b, ∃ o, a'.isOrdered x = some o) ∧
      (xs.filter fun x => decide (a'.isOrdered x = some true)).Sublist b ∧
      ∀ S : List Id, S.Sublist xs → S.Sublist b → S.length ≤ (xs.filter fun x => decide (a'.isOrdered x = some true)).length := by
  have hlen : xs.length ≤ b.length := by
    have := (List.Nodup.subperm hnd (fun x h => hx x h)).length_le
    exact this
  have h0 : Run a.begin [] (fun _ => 0) := by
    have hnp : a.begin.numPiles = 0 := by
      unfold Alg.begin; split <;> rfl
    refine ⟨fun k hk => by omega, fun j k _ hk => by omega, fun e he => by simp at he, fun e he => by simp at he, ?_, fun e he => by simp at he⟩
    intro S hS _ e he
    have : S = [] := List.sublist_nil.1 hS
    subst this
    simp at he
  obtain ⟨a1, lv, e1, r1, h1, s1, n1, p1⟩ := run_all xs hr h0 hx hnd (fun _ _ hc => by simp at hc) (by rw [hr.size]; simpa using hlen)
  rw [List.nil_append] at h1
  have hloc : ∀ x, a1.localize x = a.begin.localize x := localize_eq s1 n1
  generalize hdone : xs.map a.begin.localize = done at h1
  have hnode : done.map a1.node = xs := by
    rw [← hdone, List.map_map]
    refine (List.map_congr_left (g := id) (fun x hxx => ?_)).trans (List.map_id _)
    simp only [Function.comp, n1, id]
    exact (hr.localize (hx x hxx)).2
  have hds : ∀ e ∈ done, e < a1.size := by
    intro e he
    rw [← hdone] at he
    obtain ⟨x, hxx, rfl⟩ := List.mem_map.1 he
    rw [s1]; exact (hr.localize (hx x hxx)).1
  have hdnd : done.Nodup := List.Nodup.of_map a1.node (by rw [hnode]; exact hnd)
  refine ⟨a1.finish, by simp only [Alg.execute, e1], ?_, ?_, ?_⟩
  · unfold Alg.finish
    split
    · exact r1.of_eq rfl rfl rfl rfl
    · exact r1
  · intro x hxx
    have hsz : a1.finish.size = a1.size := by unfold Alg.finish; split <;> rfl
    have hnn : a1.finish.node = a1.node := by unfold Alg.finish; split <;> rfl
    have := (r1.localize hxx).1
    refine ⟨_, by unfold Alg.isOrdered; rw [localize_eq hsz hnn, hsz, if_pos this]⟩
  · -- the marked entries, first to last
    have hM : ∃ M : List Nat, M.Sublist done ∧ M.Pairwise (fun i j => a1.pos i < a1.pos j) ∧ M.length = a1.numPiles ∧
        ∀ e ∈ done, a1.finish.ordered e = decide (e ∈ M) := by
      rcases Nat.eq_zero_or_pos a1.numPiles with hz | hz
      · refine ⟨[], List.nil_sublist _, List.Pairwise.nil, hz.symm, ?_⟩
        intro e he
        unfold Alg.finish
        rw [if_neg (by omega), h1.plain e he]
        simp
      · obtain ⟨u1, u2, _⟩ := h1.piles (a1.numPiles - 1) (by omega)
        have hc := h1.chain _ u1
        rw [u2, show a1.numPiles - 1 + 1 = a1.numPiles by omega] at hc
        refine ⟨_, hc.1, List.pairwise_reverse.2 hc.2, by rw [List.length_reverse, chainOf_length], ?_⟩
        intro e he
        unfold Alg.finish
        rw [if_pos hz]
        show Alg.mark _ _ _ _ e = _
        rw [mark_eq, h1.plain e he]
        simp
    obtain ⟨M, m1, m2, m3, m4⟩ := hM
    have hfil : xs.filter (fun x => decide (a1.finish.isOrdered x = some true)) = M.map a1.node := by
      have hsz : a1.finish.size = a1.size := by unfold Alg.finish; split <;> rfl
      have hnn : a1.finish.node = a1.node := by unfold Alg.finish; split <;> rfl
      have hM2 : done.filter (fun e => decide (e ∈ M)) = M := filter_mem_of_sublist m1 hdnd
      conv_lhs => rw [← hnode]
      rw [List.filter_map]
      congr 1
      conv_rhs => rw [← hM2]
      refine List.filter_congr (fun e he => ?_)
      simp only [Function.comp]
      have hxb : a1.node e ∈ b := by
        refine hx _ ?_
        rw [← hnode]; exact List.mem_map_of_mem he
      have hle : a1.localize (a1.node e) = e := r1.node_inj (r1.localize hxb).1 (hds e he) (r1.localize hxb).2
      unfold Alg.isOrdered
      rw [localize_eq hsz hnn, hle, hsz, if_pos (hds e he), m4 e he]
      simp
    rw [hfil]
    have hpos : ∀ e ∈ done, b[a1.pos e]? = some (a1.node e) := fun e he => r1.pos e (hds e he)
    refine ⟨sublist_of_pos M a1.node a1.pos (fun e he => hpos e (m1.subset he)) m2, ?_⟩
    intro S hS hSb
    rw [← hnode] at hS
    obtain ⟨E, hE, rfl⟩ := List.sublist_map_iff.1 hS
    have hp := pos_of_sublist hb E a1.node a1.pos (fun e he => hpos e (hE.subset he)) hSb
    simp only [List.length_map, m3]
    rcases List.eq_nil_or_concat E with rfl | ⟨T, z, rfl⟩
    · simp
    · have hb' := h1.best _ hE hp z (by simp)
      have hz : z ∈ done := hE.subset (by simp)
      have := (h1.level z hz).1
      omega

theorem addAll_spec : ∀ (xs : List Id) (a : Alg), a.n + xs.length ≤ a.size → ∃ a', a.addAll xs = some a' ∧ a'.size = a.size ∧
    a'.sorted = a.sorted ∧ a'.n = a.n + xs.length ∧ (∀ k, k < a.n → a'.node k = a.node k ∧ a'.pos k = a.pos k) ∧
    (∀ k : Nat, ∀ x, xs[k]? = some x → a'.node (a.n + k) = x ∧ a'.pos (a.n + k) = a.n + k)
  | [], a, _ => ⟨a, rfl, rfl, rfl, rfl, fun _ _ => ⟨rfl, rfl⟩, fun k x h => by simp at h⟩
  | x :: xs, a, h => by
    simp only [List.length_cons] at h
    have hlt : a.n < a.size := by omega
    obtain ⟨a', e, h1, h2, h3, h4, h5⟩ := addAll_spec xs
      { a with node := upd a.node a.n x, pos := upd a.pos a.n a.n, n := a.n + 1 } (by simp only; omega)
    refine ⟨a', by simp only [Alg.addAll, Alg.add, if_pos hlt, e], h1, h2, by simp only at h3; simp only [List.length_cons]; omega, ?_, ?_⟩
    · intro k hk
      have := h4 k (by simp only; omega)
      simp only [upd_other _ _ (show k ≠ a.n by omega)] at this
      exact this
    · intro k y hy
      cases k with
      | zero =>
        simp only [List.getElem?_cons_zero, Option.some.injEq] at hy
        subst hy
        have := h4 a.n (by simp only; omega)
        simp only [upd_same] at this
        exact this
      | succ k =>
        simp only [List.getElem?_cons_succ] at hy
        have := h5 k y hy
        simp only at this
        rw [show a.n + (k + 1) = a.n + 1 + k by omega]
        exact this

theorem ready_begin {a : Alg} {b : List Id} (hb : b.Nodup) (hs : a.size = b.length) (hso : a.sorted = false)
    (h : ∀ k : Nat, ∀ x, b[k]? = some x → a.node k = x ∧ a.pos k = k) : Ready a.begin b := by
  have hl : ((List.range a.size).map fun k => (a.node k, a.pos k)) = b.zipIdx.map (fun u => (u.1, u.2)) := by
    refine List.ext_getElem (by simp [hs]) (fun k hk1 hk2 => ?_)
    simp only [List.getElem_map, List.getElem_range, List.getElem_zipIdx, Nat.zero_add]
    simp only [List.length_map, List.length_range] at hk1
    have := h k (b[k]'(by omega)) (List.getElem?_eq_getElem _)
    rw [this.1, this.2]
  have hl' : ((List.range a.size).map fun k => (a.node k, a.pos k)) = b.zipIdx := by rw [hl]; simp
  have hperm : a.sortedEntries.Perm b.zipIdx := by
    unfold Alg.sortedEntries
    rw [hl']
    exact List.perm_insertionSort _ _
  have hpw : a.sortedEntries.Pairwise (fun u v => u.1 ≤ v.1) := by
    unfold Alg.sortedEntries
    haveI : Std.Total (fun u v : Id × Nat => u.1 ≤ v.1) := ⟨fun x y => Nat.le_total x.1 y.1⟩
    haveI : IsTrans (Id × Nat) (fun u v => u.1 ≤ v.1) := ⟨fun x y z h1 h2 => Nat.le_trans h1 h2⟩
    exact List.pairwise_insertionSort (fun u v : Id × Nat => u.1 ≤ v.1) _
  have hnd : (a.sortedEntries.map Prod.fst).Nodup := by
    refine (hperm.map Prod.fst).nodup_iff.2 ?_
    rw [List.zipIdx_map_fst]
    exact hb
  have hslt : (a.sortedEntries.map Prod.fst).Pairwise (· < ·) := by
    refine ((List.pairwise_map.2 hpw).and hnd).imp ?_
    intro x y ⟨h1, h2⟩
    exact Nat.lt_of_le_of_ne h1 h2
  have hlen : a.sortedEntries.length = a.size := by rw [hperm.length_eq, List.length_zipIdx, hs]
  have hget : ∀ k, (hk : k < a.size) → a.begin.node k = (a.sortedEntries[k]'(by omega)).1 ∧ a.begin.pos k = (a.sortedEntries[k]'(by omega)).2 := by
    intro k hk
    have hk' : k < a.sortedEntries.length := by omega
    unfold Alg.begin
    rw [if_neg (by rw [hso]; simp)]
    simp only [List.getElem?_eq_getElem hk', Option.getD_some, and_self]
  have hsz : a.begin.size = a.size := by unfold Alg.begin; split <;> rfl
  refine ⟨by rw [hsz, hs], by unfold Alg.begin; rw [if_neg (by rw [hso]; simp)], ?_, ?_, ?_⟩
  · intro i j hij hj
    rw [hsz] at hj
    rw [(hget i (by omega)).1, (hget j hj).1]
    have := List.pairwise_iff_getElem.1 hslt i j (by simp; omega) (by simp; omega) hij
    simpa using this
  · intro k hk
    rw [hsz] at hk
    rw [(hget k hk).1, (hget k hk).2]
    have hm : a.sortedEntries[k]'(by omega) ∈ b.zipIdx := hperm.mem_iff.1 (List.getElem_mem _)
    have := List.mem_zipIdx_iff_getElem?.1 hm
    exact this
  · intro x hx
    obtain ⟨j, hj, hje⟩ := List.getElem_of_mem hx
    have hm : (x, j) ∈ a.sortedEntries := hperm.mem_iff.2 (List.mem_zipIdx_iff_getElem?.2 (by simp [List.getElem?_eq_getElem hj, hje]))
    obtain ⟨k, hk, hke⟩ := List.getElem_of_mem hm
    exact ⟨k, by rw [hsz]; omega, by rw [(hget k (by omega)).1, hke]⟩

theorem begin_of_ready {a : Alg} {b : List Id} (h : Ready a b) : Ready a.begin b := by
  unfold Alg.begin
  rw [if_pos h.sorted]
  exact h.of_eq rfl rfl rfl rfl

/-- The initialization phase prepares the matcher. -/
theorem new_spec {b : List Id} (hb : b.Nodup) (junk : Alg) : ∃ a, (Alg.new b.length junk).addAll b = some a ∧ Ready a.begin b := by
  obtain ⟨a, e, h1, h2, _, _, h5⟩ := addAll_spec b (Alg.new b.length junk) (by simp [Alg.new])
  refine ⟨a, e, ready_begin hb (by rw [h1]; rfl) (by rw [h2]; rfl) ?_⟩
  intro k x hk
  have := h5 k x hk
  simpa [Alg.new] using this

end MI.Ser
