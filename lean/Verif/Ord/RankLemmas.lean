import Verif.Ord.SearchLemmas
/-! Height, ranks (helper lemmas). -/
namespace MI.Ord
open MI

theorem rb_size {t : T} : ∀ {n : Nat}, t.RB n → 2 ^ n ≤ t.ids.length + 1 := by
  induction t with
  | nil => intro n h; simp only [T.RB] at h; subst h; simp
  | node c s l x r ihl ihr =>
    intro n h
    simp only [T.ids, List.length_append, List.length_cons]
    cases c with
    | red => have := ihl h.2.2.1; omega
    | black =>
      obtain ⟨m, rfl, hl, hr⟩ := h
      have := ihl hl; have := ihr hr
      rw [Nat.pow_succ]; omega

theorem rb_height_aux {t : T} : ∀ {n : Nat}, t.RB n → t.height ≤ 2 * n + 1 ∧ (t.black → t.height ≤ 2 * n) := by
  induction t with
  | nil => intro n h; simp [T.height]
  | node c s l x r ihl ihr =>
    intro n h
    simp only [T.height, T.black]
    cases c with
    | red =>
      obtain ⟨bl, br, hl, hr⟩ := h
      have := (ihl hl).2 bl; have := (ihr hr).2 br
      refine ⟨by omega, fun h => by cases h⟩
    | black =>
      obtain ⟨m, rfl, hl, hr⟩ := h
      have := (ihl hl).1; have := (ihr hr).1
      exact ⟨by omega, fun _ => by omega⟩

/-- A red-black tree of `n` nodes has height at most `2*log2(n+1)`. -/
theorem rb_height {t : T} (h : RBTree t) : t.height ≤ 2 * Nat.log2 (t.ids.length + 1) := by
  obtain ⟨hb, n, hn⟩ := h
  have h1 := (rb_height_aux hn).2 hb
  have h2 : n ≤ Nat.log2 (t.ids.length + 1) := (Nat.le_log2 (by omega)).2 (rb_size hn)
  omega

theorem log_le (n : Nat) : 2 * Nat.log2 (n + 1) + 2 ≤ n + 3 := by
  have h : 2 ^ Nat.log2 (n + 1) ≤ n + 1 := Nat.log2_self_le (by omega)
  have h2 : ∀ k : Nat, 2 * k ≤ 2 ^ k := by
    intro k
    induction k with
    | zero => simp
    | succ k ih =>
      cases k with
      | zero => simp
      | succ k => rw [Nat.pow_succ]; have : 2 ≤ 2 ^ (k + 1) := by rw [Nat.pow_succ]; have := Nat.one_le_two_pow (n := k); omega
                  omega
  have := h2 (Nat.log2 (n + 1))
  omega

theorem nodeSize_len {h : Heap} {p : Id} {t : T} (ha : At h p t) (h0 : 0 ∉ t.ids) (hs : t.Sized) : nodeSize h t.root = t.ids.length := by
  unfold nodeSize
  cases t with
  | nil => simp [root_nil, T.ids]
  | node c s l x r =>
    have : x ≠ 0 := by rintro rfl; simp [T.ids] at h0
    rw [root_node, if_pos this, ha.2.2.1, ← sz_eq hs]; rfl

theorem rankLoop_spec {q : Id → Bool} {h : Heap} (t : T) : ∀ {p y : Id} {n s : Nat} {u v : List Id}, At h p t → 0 ∉ t.ids → t.Sized →
    t ≠ .nil → t.height + 1 ≤ n → t.ids = u ++ v → (∀ a ∈ u, q a = false) → (∀ a ∈ v, q a = true) → t.ids.length ≤ s →
    rankLoop q h n t.root y s = some (s - v.length, hdOr y v) := by
  induction t with
  | nil => intro p y n s u v _ _ _ h; exact absurd rfl h
  | node c s0 l x r ihl ihr =>
    intro p y n s u v ha h0 hz _ hn e hu hv hs
    obtain ⟨_, _, _, hl, hr, al, ar⟩ := ha
    cases n with
    | zero => omega
    | succ n =>
      simp only [T.ids, List.mem_append, List.mem_cons, not_or] at h0
      simp only [T.ids, List.length_append, List.length_cons] at hs
      simp only [T.height] at hn
      have hx0 : x ≠ 0 := fun h => h0.2.1 h.symm
      rw [root_node, rankLoop]
      rcases split_node e with ⟨v', e1, rfl⟩ | ⟨u', e1, rfl⟩
      · simp only [if_pos (hv x (by simp))]
        rw [hl, hr, nodeSize_len ar h0.2.2 hz.2.2]
        have e1l := congrArg List.length e1
        simp only [List.length_append] at e1l
        by_cases q' : l = .nil
        · subst q'
          have h2 := e1.symm
          simp only [T.ids, List.append_eq_nil_iff] at h2
          obtain ⟨rfl, rfl⟩ := h2
          rw [root_nil, if_pos rfl]; simp [hdOr]
        · rw [if_neg (by rw [root_zero h0.1]; exact q')]
          rw [ihl al h0.1 hz.2.1 q' (by omega) e1 hu (fun a ha => hv a (by simp [ha])) (by omega), hdOr_append]
          simp only [List.length_append, List.length_cons, Option.some.injEq, Prod.mk.injEq]
          exact ⟨by omega, rfl⟩
      · have hx := hu x (by simp)
        simp only [hx, Bool.false_eq_true, if_false]
        rw [hr]
        by_cases q' : r = .nil
        · subst q'
          have h2 := e1.symm
          simp only [T.ids, List.append_eq_nil_iff] at h2
          obtain ⟨rfl, rfl⟩ := h2
          rw [root_nil, if_pos rfl]; simp [hdOr]
        · rw [if_neg (by rw [root_zero h0.2.2]; exact q')]
          rw [ihr ar h0.2.2 hz.2.2 q' (by omega) e1 (fun a ha => hu a (by simp [ha])) hv (by omega)]

theorem boundRank_spec {q : Id → Bool} {h : Heap} {t : T} {p y : Id} {n : Nat} {u v : List Id} (ha : At h p t) (h0 : 0 ∉ t.ids) (hz : t.Sized)
    (hn : t.height + 1 ≤ n) (e : t.ids = u ++ v) (hu : ∀ a ∈ u, q a = false) (hv : ∀ a ∈ v, q a = true) :
    boundRank q n h t.root y = some u.length := by
  unfold boundRank
  by_cases ht : t = .nil
  · subst ht
    have h2 := e.symm
    simp only [T.ids, List.append_eq_nil_iff] at h2
    obtain ⟨rfl, rfl⟩ := h2
    rw [root_nil, if_pos rfl]; rfl
  · have hr0 : t.root ≠ 0 := by rw [ne_eq, root_zero h0]; exact ht
    rw [if_neg hr0]
    have hsz : h.size t.root = t.ids.length := by
      have := nodeSize_len ha h0 hz
      unfold nodeSize at this
      rwa [if_pos hr0] at this
    rw [hsz, rankLoop_spec t ha h0 hz ht hn e hu hv (Nat.le_refl _)]
    simp [e]

theorem rangeRankLoop_spec {b a lo up : Id → Bool} {h : Heap} (t : T) : ∀ {p y : Id} {n s : Nat} {u m v : List Id}, At h p t → 0 ∉ t.ids →
    t.Sized → t ≠ .nil → t.height + 2 ≤ n → t.ids = u ++ (m ++ v) → (∀ x ∈ u, b x = true ∧ lo x = false) →
    (∀ x ∈ m, b x = false ∧ a x = false ∧ lo x = true ∧ up x = false) → (∀ x ∈ v, b x = false ∧ a x = true ∧ up x = true) →
    t.ids.length ≤ s →
    rangeRankLoop b a lo up h n t.root y s = some (s - (m ++ v).length, s - v.length) := by
  induction t with
  | nil => intro p y n s u m v _ _ _ h; exact absurd rfl h
  | node c s0 l x r ihl ihr =>
    intro p y n s u m v ha h0 hz _ hn e hu hm hv hs
    obtain ⟨_, _, hsx, hl, hr, al, ar⟩ := ha
    cases n with
    | zero => omega
    | succ n =>
      simp only [T.ids, List.mem_append, List.mem_cons, not_or] at h0
      simp only [T.ids, List.length_append, List.length_cons] at hs
      simp only [T.height] at hn
      have hx0 : x ≠ 0 := fun h => h0.2.1 h.symm
      rw [root_node, rangeRankLoop]
      rcases split_node e with ⟨v', e1, e2⟩ | ⟨u', e1, rfl⟩
      · rcases split_node e2.symm with ⟨w, rfl, rfl⟩ | ⟨w, e3, rfl⟩
        · -- x after the range
          have hx := hv x (by simp)
          rw [if_neg (by simp [hx.1]), if_pos hx.2.1]
          simp only [hl, hr, nodeSize_len ar h0.2.2 hz.2.2]
          have e1l := congrArg List.length e1
          simp only [List.length_append] at e1l
          by_cases q' : l = .nil
          · subst q'
            have h2 := e1.symm
            simp only [T.ids, List.append_eq_nil_iff] at h2
            obtain ⟨rfl, rfl, rfl⟩ := h2
            rw [root_nil, if_pos rfl]; simp
          · rw [if_neg (by rw [root_zero h0.1]; exact q')]
            rw [ihl al h0.1 hz.2.1 q' (by omega) e1 hu hm (fun z hz => hv z (by simp [hz])) (by omega)]
            simp only [List.length_append, List.length_cons, Option.some.injEq, Prod.mk.injEq]
            omega
        · -- x in the range
          have hx := hm x (by simp)
          rw [if_neg (by simp [hx.1]), if_neg (by simp [hx.2.1]), hl, hr,
            boundRank_spec al h0.1 hz.2.1 (by omega) e1 (fun z hz => (hu z hz).2) (fun z hz => (hm z (by simp [hz])).2.2.1),
            boundRank_spec ar h0.2.2 hz.2.2 (by omega) e3 (fun z hz => (hm z (by simp [hz])).2.2.2) (fun z hz => (hv z hz).2.2)]
          have e1l := congrArg List.length e1
          have e3l := congrArg List.length e3
          have hz1 := hz.1
          simp only [List.length_append] at e1l e3l
          simp only [hsx, nodeSize_len ar h0.2.2 hz.2.2, List.length_append, List.length_cons, Option.some.injEq, Prod.mk.injEq]
          omega
      · have hx := hu x (by simp)
        rw [if_pos hx.1, hr]
        by_cases q' : r = .nil
        · subst q'
          have h2 := e1.symm
          simp only [T.ids, List.append_eq_nil_iff] at h2
          obtain ⟨rfl, rfl, rfl⟩ := h2
          rw [root_nil, if_pos rfl]; simp
        · rw [if_neg (by rw [root_zero h0.2.2]; exact q')]
          rw [ihr ar h0.2.2 hz.2.2 q' (by omega) e1 (fun z hz => hu z (by simp [hz])) hm hv (by omega)]

theorem nthGo_spec {h : Heap} (t : T) : ∀ {p : Id} {n i : Nat}, At h p t → 0 ∉ t.ids → t.Sized → t.height ≤ n → (hi : i < t.ids.length) →
    nthGo h n i t.root = some (t.ids[i]) := by
  induction t with
  | nil => intro p n i _ _ _ _ hi; simp [T.ids] at hi
  | node c s l x r ihl ihr =>
    intro p n i ha h0 hz hn hi
    obtain ⟨_, _, _, hl, hr, al, ar⟩ := ha
    simp only [T.ids, List.mem_append, List.mem_cons, not_or] at h0
    have hi' := hi
    simp only [T.ids, List.length_append, List.length_cons] at hi'
    simp only [T.height] at hn
    cases n with
    | zero => omega
    | succ n =>
      rw [root_node, nthGo]
      simp only [hl, hr, nodeSize_len al h0.1 hz.2.1]
      by_cases h1 : i = l.ids.length
      · rw [if_pos h1]
        simp [T.ids, h1]
      · rw [if_neg h1]
        by_cases h2 : i < l.ids.length
        · rw [if_pos h2, ihl al h0.1 hz.2.1 (by omega) h2]
          simp [T.ids, List.getElem_append_left h2]
        · rw [if_neg h2, ihr ar h0.2.2 hz.2.2 (by omega) (by omega)]
          simp only [T.ids]
          rw [List.getElem_append_right (by omega), List.getElem_cons]
          rw [dif_neg (by omega)]
          congr 1

theorem rankGo_spec {h : Heap} {hd : Id} (k : Ctx) : ∀ {t : T} {n s : Nat}, Shape h hd (plug k t) → (plug k t).Sized → t ≠ .nil → k.length + 1 ≤ n →
    rankGo h (plug k t).root n t.root s = some (s + (ctxL k).length) := by
  induction k with
  | nil =>
    intro t n s _ _ _ hn
    cases n with
    | zero => simp at hn
    | succ n => rw [rankGo, if_neg (by simp [plug])]; simp [ctxL]
  | cons f k ih =>
    intro t n s H hz ht hn
    cases n with
    | zero => simp at hn
    | succ n =>
      have hne : t.root ≠ (plug (f :: k) t).root := by
        rw [← H.root, ne_eq, Shape.root_iff H]; simp
      rw [rankGo, if_pos hne]
      rcases f with ⟨side, c, s', x, sib⟩
      have hzz := shape_plug.1 H
      have h0 : 0 ∉ t.ids := by have := hzz.nz; simp only [List.mem_cons, List.mem_append, not_or] at this; tauto
      have ht0 : t.root ≠ 0 := by rw [ne_eq, root_zero h0]; exact ht
      have hp : h.parent t.root = x := by
        cases t with
        | nil => exact absurd rfl ht
        | node c' s' l' x' r' => exact (Shape.read (k := ⟨side, c, _, x, sib⟩ :: k) H).1
      simp only [hp]
      cases side with
      | left =>
        have H' : Shape h hd (plug k (.node c s' t x sib)) := H
        have hrd := H'.read
        have hn2 := hzz.nodup
        have : t.root ≠ h.right x := by
          rw [hrd.2.2.2.2.1]; intro e
          have hs := root_mem ht0
          have hs2 := hs
          rw [e] at ht0
          have h3 := root_mem ht0
          rw [← e] at h3
          simp only [ctxL, ctxR, List.nodup_cons, List.nodup_append, List.mem_append, List.mem_cons] at hn2
          grind
        rw [if_neg this]
        have := ih H' hz (by simp) (n := n) (s := s) (by simp at hn; omega)
        rw [root_node] at this
        exact this
      | right =>
        have H' : Shape h hd (plug k (.node c s' sib x t)) := H
        have hrd := H'.read
        rw [if_pos hrd.2.2.2.2.1.symm, hrd.2.2.2.1]
        have hzs : sib.Sized := ((sized_plug k (.node c s' sib x t)).1 hz).1.2.1
        have hs0 : 0 ∉ sib.ids := by
          have := hzz.nz; simp only [ctxL, ctxR, List.mem_cons, List.mem_append, not_or] at this; tauto
        rw [nodeSize_len (shape_plug.1 H').at'.2.2.2.2.2.1 hs0 hzs]
        have := ih H' hz (by simp) (n := n) (s := s + (sib.ids.length + 1)) (by simp at hn; omega)
        have e : (plug (⟨.right, c, s', x, sib⟩ :: k) t).root = (plug k (.node c s' sib x t)).root := rfl
        rw [e]
        rw [root_node] at this
        rw [this]
        simp only [ctxL, List.length_append, List.length_cons, List.length_nil, Option.some.injEq]
        omega

theorem nth_spec {h : Heap} {hd : Id} {xs : List Id} {n : Nat} (hr : Rep h hd xs) (hn : 2 * Nat.log2 (xs.length + 1) + 2 ≤ n) (i : Nat) :
    nth n h hd i = some (if hi : i < xs.length then xs[i] else hd) := by
  obtain ⟨t, R, hb, hs, rfl⟩ := hr
  have h0 : 0 ∉ t.ids := fun e => R.shape.nz (by simp [e])
  unfold nth
  simp only [R.shape.root]
  by_cases ht : t = .nil
  · subst ht; simp [T.ids, root_nil]
  · have hr0 : t.root ≠ 0 := by rw [ne_eq, root_zero h0]; exact ht
    have hsz : h.size t.root = t.ids.length := by
      have := nodeSize_len R.shape.at' h0 hs
      unfold nodeSize at this
      rwa [if_pos hr0] at this
    rw [hsz]
    by_cases hi : i < t.ids.length
    · rw [if_neg (by rintro (q | q); exact hr0 q; omega), dif_pos hi, nthGo_spec t R.shape.at' h0 hs (by have := rb_height hb; omega) hi]
    · rw [if_pos (Or.inr (by omega)), dif_neg hi]

theorem rank_spec {h : Heap} {hd x : Id} {u v : List Id} {n : Nat} (hr : Rep h hd (u ++ x :: v))
    (hn : 2 * Nat.log2 ((u ++ x :: v).length + 1) + 2 ≤ n) :
    rank n h hd x = some u.length := by
  obtain ⟨t, R, hb, hs, hi⟩ := hr
  obtain ⟨k, c, s, l, r, rfl⟩ := exists_zip (x := x) t (by rw [hi]; simp)
  have hnd : (u ++ x :: v).Nodup := by rw [← hi]; exact (List.nodup_cons.1 R.shape.nodup).2
  have hi' : u ++ x :: v = (ctxL k ++ l.ids) ++ x :: (r.ids ++ ctxR k) := by rw [← hi, ids_plug]; simp [T.ids]
  obtain ⟨rfl, rfl⟩ := split_unique hnd hi'
  have hz := shape_plug.1 R.shape
  have hrd := R.shape.read
  have h0 : 0 ∉ (plug k (.node c s l x r)).ids := fun e => R.shape.nz (by simp [e])
  have hl0 : 0 ∉ l.ids := by have := hz.nz; simp only [T.ids, List.mem_cons, List.mem_append, not_or] at this; tauto
  unfold rank
  simp only [R.shape.root]
  have hne : plug k (.node c s l x r) ≠ .nil := by
    intro e; have := congrArg T.ids e; rw [ids_plug] at this; simp [T.ids] at this
  have hr0 : (plug k (.node c s l x r)).root ≠ 0 := by rw [ne_eq, root_zero h0]; exact hne
  rw [if_neg hr0, if_neg hrd.2.2.2.2.2.2, hrd.2.2.2.1,
    nodeSize_len hz.at'.2.2.2.2.2.1 hl0 ((sized_plug k _).1 hs).1.2.1]
  have hk := ctx_height k (.node c s l x r)
  have hh := rb_height hb
  rw [hi] at hh
  have := rankGo_spec (n := n) (s := l.ids.length) k R.shape hs (by simp) (by omega)
  rw [root_node] at this
  rw [this]; simp [Nat.add_comm]

theorem rank_end {h : Heap} {hd : Id} {xs : List Id} {n : Nat} (hr : Rep h hd xs) : rank n h hd hd = some xs.length := by
  obtain ⟨t, R, hb, hs, rfl⟩ := hr
  have h0 : 0 ∉ t.ids := fun e => R.shape.nz (by simp [e])
  unfold rank
  simp only [R.shape.root]
  by_cases ht : t = .nil
  · subst ht; rfl
  · have hr0 : t.root ≠ 0 := by rw [ne_eq, root_zero h0]; exact ht
    have := nodeSize_len R.shape.at' h0 hs
    unfold nodeSize at this
    rw [if_pos hr0] at this
    rw [if_neg hr0, if_pos trivial, this]

end MI.Ord
