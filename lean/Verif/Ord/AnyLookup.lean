import Verif.Ord.AnyLemmas
import Verif.Ord.LookupLemmas
/-! Lookups of ordered indices whose comparison objects answer anything (helper lemmas). -/
namespace MI.Ord
open MI

section
variable {Q : Type}

theorem boundA_any (q : Id → Asks Q Bool) {h : Heap} {hd : Id} {xs : List Id} {n : Nat} (hr : Rep h hd xs) (hn : xs.length + 3 ≤ n) :
    (boundLoopA q h n (h.parent hd) hd).Always fun r => ∃ u v, xs = u ++ v ∧ r = some (hdOr hd v) := by
  obtain ⟨t, R, hb, hs, rfl⟩ := hr
  rw [R.shape.root]
  exact boundLoopA_any q t R.shape.at' (fun e => R.shape.nz (by simp [e])) (by have := height_le t; omega)

theorem rangeA'_any (b a lo up : Id → Asks Q Bool) {h : Heap} {hd : Id} {xs : List Id} {n : Nat} (hr : Rep h hd xs) (hn : xs.length + 3 ≤ n) :
    (rangeLoopA b a lo up h n (h.parent hd) hd).Always fun r => ∃ u m v, xs = u ++ (m ++ v) ∧ r = some (hdOr hd (m ++ v), hdOr hd v) := by
  obtain ⟨t, R, hb, hs, rfl⟩ := hr
  rw [R.shape.root]
  exact rangeLoopA_any b a lo up t R.shape.at' (fun e => R.shape.nz (by simp [e])) (by have := height_le t; omega)

theorem hdOr_mem {hd : Id} {u v : List Id} : hdOr hd v ∈ hd :: (u ++ v) := by
  cases v <;> simp [hdOr]

section
variable {K CK : Type} (key : Id → K) {h : Heap} {hd : Id} {xs : List Id} {n : Nat}

theorem findA_any (hr : Rep h hd xs) (hn : xs.length + 3 ≤ n) (x : CK) : (findA key n h hd x).Always fun r => ∃ y ∈ hd :: xs, r = some y := by
  unfold findA
  refine (boundA_any _ hr hn).then ?_
  rintro r ⟨u, v, e, rfl⟩
  simp only
  split
  · exact ⟨hd, by simp, rfl⟩
  · refine Asks.Always.any _ fun b => ?_
    cases b with
    | true => exact ⟨hd, by simp, rfl⟩
    | false => exact ⟨_, by rw [e]; exact hdOr_mem, rfl⟩

theorem countA_any (hr : Rep h hd xs) (hn : xs.length + 3 ≤ n) (x : CK) : (countA key n h hd x).Always fun r => ∃ k ≤ xs.length, r = some k := by
  unfold countA equalRangeA
  refine (rangeA'_any _ _ _ _ hr hn).then ?_
  rintro r ⟨u, m, v, rfl, rfl⟩
  have hl : (u ++ (m ++ v)).length = u.length + (m.length + v.length) := by simp
  exact ⟨m.length, by omega, distance_spec hr hn (by omega)⟩

theorem rangeA_any (hasLo hasUp : Bool) (hr : Rep h hd xs) (hn : xs.length + 3 ≤ n) :
    (rangeA key hasLo hasUp n h hd).Always fun r => ∃ u m v, xs = u ++ (m ++ v) ∧ r = some (hdOr hd (m ++ v), hdOr hd v) := by
  have hf := rep_first hr
  unfold rangeA
  cases hasLo <;> cases hasUp
  · exact ⟨[], xs, [], by simp, by simp [hf, hdOr]⟩
  · refine (boundA_any _ hr hn).then ?_
    rintro r ⟨u, v, rfl, rfl⟩
    exact ⟨[], u, v, by simp, by simp [hf]⟩
  · refine (boundA_any _ hr hn).then ?_
    rintro r ⟨u, v, rfl, rfl⟩
    exact ⟨u, v, [], by simp, by simp [hdOr]⟩
  · exact rangeA'_any _ _ _ _ hr hn

end

/-! ## Ranks -/

theorem rankLoopA_any (q : Id → Asks Q Bool) {h : Heap} (t : T) : ∀ {p y : Id} {n s : Nat}, At h p t → 0 ∉ t.ids → t.Sized →
    t ≠ .nil → t.height + 1 ≤ n → t.ids.length ≤ s →
    (rankLoopA q h n t.root y s).Always fun r => ∃ u v, t.ids = u ++ v ∧ r = some (s - v.length, hdOr y v) := by
  induction t with
  | nil => intro p y n s _ _ _ h; exact absurd rfl h
  | node c s0 l x r ihl ihr =>
    intro p y n s ha h0 hz _ hn hs
    obtain ⟨_, _, _, hl, hr, al, ar⟩ := ha
    cases n with
    | zero => omega
    | succ n =>
      simp only [T.ids, List.mem_append, List.mem_cons, not_or] at h0
      simp only [T.ids, List.length_append, List.length_cons] at hs
      simp only [T.height] at hn
      rw [root_node, rankLoopA]
      refine Asks.Always.any _ fun b => ?_
      cases b with
      | true =>
        simp only [if_true]
        rw [hl, hr, nodeSize_len ar h0.2.2 hz.2.2]
        by_cases q' : l = .nil
        · subst q'
          rw [root_nil, if_pos rfl]
          exact ⟨[], x :: r.ids, rfl, rfl⟩
        · rw [if_neg (by rw [root_zero h0.1]; exact q')]
          refine (ihl al h0.1 hz.2.1 q' (by omega) (by omega)).mono ?_
          rintro q0 ⟨u, v, e, rfl⟩
          refine ⟨u, v ++ x :: r.ids, by simp [T.ids, e], ?_⟩
          rw [hdOr_append]
          simp only [List.length_append, List.length_cons, Option.some.injEq, Prod.mk.injEq]
          exact ⟨by omega, rfl⟩
      | false =>
        simp only [Bool.false_eq_true, if_false]
        rw [hr]
        by_cases q' : r = .nil
        · subst q'
          rw [root_nil, if_pos rfl]
          exact ⟨l.ids ++ [x], [], by simp [T.ids], rfl⟩
        · rw [if_neg (by rw [root_zero h0.2.2]; exact q')]
          refine (ihr ar h0.2.2 hz.2.2 q' (by omega) (by omega)).mono ?_
          rintro q0 ⟨u, v, e, rfl⟩
          exact ⟨l.ids ++ x :: u, v, by simp [T.ids, e], rfl⟩

theorem boundRankA_any (q : Id → Asks Q Bool) {h : Heap} {t : T} {p y : Id} {n : Nat} (ha : At h p t) (h0 : 0 ∉ t.ids) (hz : t.Sized)
    (hn : t.height + 1 ≤ n) : (boundRankA q n h t.root y).Always fun r => ∃ k ≤ t.ids.length, r = some k := by
  unfold boundRankA
  by_cases ht : t = .nil
  · subst ht
    rw [root_nil, if_pos rfl]
    exact ⟨0, by simp, rfl⟩
  · have hr0 : t.root ≠ 0 := by rw [ne_eq, root_zero h0]; exact ht
    rw [if_neg hr0]
    have hsz : h.size t.root = t.ids.length := by
      have := nodeSize_len ha h0 hz
      unfold nodeSize at this
      rwa [if_pos hr0] at this
    rw [hsz]
    refine (rankLoopA_any q t ha h0 hz ht hn (Nat.le_refl _)).then ?_
    rintro q0 ⟨u, v, e, rfl⟩
    exact ⟨t.ids.length - v.length, by omega, rfl⟩

theorem rangeRankLoopA_any (b a lo up : Id → Asks Q Bool) {h : Heap} (t : T) : ∀ {p y : Id} {n s : Nat}, At h p t → 0 ∉ t.ids →
    t.Sized → t ≠ .nil → t.height + 2 ≤ n → t.ids.length ≤ s →
    (rangeRankLoopA b a lo up h n t.root y s).Always fun r => ∃ i j, r = some (i, j) ∧ i ≤ j ∧ j ≤ s := by
  induction t with
  | nil => intro p y n s _ _ _ h; exact absurd rfl h
  | node c s0 l x r ihl ihr =>
    intro p y n s ha h0 hz _ hn hs
    obtain ⟨_, _, hsx, hl, hr, al, ar⟩ := ha
    cases n with
    | zero => omega
    | succ n =>
      simp only [T.ids, List.mem_append, List.mem_cons, not_or] at h0
      simp only [T.ids, List.length_append, List.length_cons] at hs
      simp only [T.height] at hn
      rw [root_node, rangeRankLoopA]
      refine Asks.Always.any _ fun c1 => ?_
      cases c1 with
      | true =>
        simp only [if_true]
        rw [hr]
        by_cases q' : r = .nil
        · subst q'
          rw [root_nil, if_pos rfl]
          exact ⟨s, s, rfl, by omega, by omega⟩
        · rw [if_neg (by rw [root_zero h0.2.2]; exact q')]
          exact ihr ar h0.2.2 hz.2.2 q' (by omega) (by omega)
      | false =>
        refine Asks.Always.any _ fun c2 => ?_
        cases c2 with
        | true =>
          simp only [if_true, hl, hr, nodeSize_len ar h0.2.2 hz.2.2]
          by_cases q' : l = .nil
          · subst q'
            rw [root_nil, if_pos rfl]
            exact ⟨_, _, rfl, by omega, by omega⟩
          · rw [if_neg (by rw [root_zero h0.1]; exact q')]
            refine (ihl al h0.1 hz.2.1 q' (by omega) (by omega)).mono ?_
            rintro q0 ⟨i, j, rfl, h1, h2⟩
            exact ⟨i, j, rfl, h1, by omega⟩
        | false =>
          simp only [Bool.false_eq_true, if_false, hl, hr]
          refine (boundRankA_any lo al h0.1 hz.2.1 (by omega)).then ?_
          rintro q1 ⟨i, hi, rfl⟩
          refine (boundRankA_any up ar h0.2.2 hz.2.2 (by omega)).then ?_
          rintro q2 ⟨j, hj, rfl⟩
          have hz1 := hz.1
          refine ⟨_, _, rfl, ?_, ?_⟩
          · rw [hsx, nodeSize_len ar h0.2.2 hz.2.2]; omega
          · rw [nodeSize_len ar h0.2.2 hz.2.2]; omega

section
variable {K CK : Type} (key : Id → K) {h : Heap} {hd : Id} {xs : List Id} {n : Nat}

theorem rankA_any (q : Id → Asks Q Bool) (hr : Rep h hd xs) (hn : xs.length + 3 ≤ n) :
    (boundRankA q n h (h.parent hd) hd).Always fun r => ∃ k ≤ xs.length, r = some k := by
  obtain ⟨t, R, hb, hs, rfl⟩ := hr
  rw [R.shape.root]
  exact boundRankA_any q R.shape.at' (fun e => R.shape.nz (by simp [e])) hs (by have := height_le t; omega)

theorem rangeRankA_any (b a lo up : Id → Asks Q Bool) (hr : Rep h hd xs) (hn : xs.length + 3 ≤ n) (ne : h.parent hd ≠ 0) :
    (rangeRankLoopA b a lo up h n (h.parent hd) hd (h.size (h.parent hd))).Always fun r => ∃ i j, r = some (i, j) ∧ i ≤ j ∧ j ≤ xs.length := by
  obtain ⟨t, R, hb, hs, rfl⟩ := hr
  have h0 : 0 ∉ t.ids := fun e => R.shape.nz (by simp [e])
  rw [R.shape.root] at ne ⊢
  have hsz : h.size t.root = t.ids.length := by
    have := nodeSize_len R.shape.at' h0 hs
    unfold nodeSize at this
    rwa [if_pos ne] at this
  rw [hsz]
  exact rangeRankLoopA_any b a lo up t R.shape.at' h0 hs (by rw [ne_eq, root_zero h0] at ne; exact ne) (by have := height_le t; omega) (Nat.le_refl _)

theorem equalRangeRankA_any (hr : Rep h hd xs) (hn : xs.length + 3 ≤ n) (x : CK) :
    (equalRangeRankA key n h hd x).Always fun r => ∃ i j, r = some (i, j) ∧ i ≤ j ∧ j ≤ xs.length := by
  unfold equalRangeRankA
  simp only
  split
  · exact ⟨0, 0, rfl, by omega, by omega⟩
  · rename_i ne
    exact rangeRankA_any _ _ _ _ hr hn ne

theorem findRankA_any (hr : Rep h hd xs) (hn : xs.length + 3 ≤ n) (x : CK) : (findRankA key n h hd x).Always fun r => ∃ k ≤ xs.length, r = some k := by
  unfold findRankA
  simp only
  split
  · exact ⟨0, by omega, rfl⟩
  · rename_i ne
    obtain ⟨t, R, hb, hs, rfl⟩ := hr
    have h0 : 0 ∉ t.ids := fun e => R.shape.nz (by simp [e])
    rw [R.shape.root] at ne ⊢
    have hsz : h.size t.root = t.ids.length := by
      have := nodeSize_len R.shape.at' h0 hs
      unfold nodeSize at this
      rwa [if_pos ne] at this
    rw [hsz]
    refine (rankLoopA_any _ t R.shape.at' h0 hs (by rw [root_zero h0] at ne; exact ne) (by have := height_le t; omega) (Nat.le_refl _)).then ?_
    rintro q0 ⟨u, v, e, rfl⟩
    simp only
    split
    · exact ⟨_, Nat.le_refl _, rfl⟩
    · refine Asks.Always.any _ fun b => ?_
      cases b with
      | true => exact ⟨_, Nat.le_refl _, rfl⟩
      | false => exact ⟨_, by omega, rfl⟩

end
end
end MI.Ord
