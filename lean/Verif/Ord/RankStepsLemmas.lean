import Verif.Ord.RankSteps
import Verif.Ord.RankLemmas
import Verif.Ord.ActsLemmas2
/-! Rounds of the operations of ranked indices (helper lemmas). -/
namespace MI.Ord
open MI

theorem addGoS_spec {hd : Id} (k : Ctx) : ∀ {h : Heap} {t : T} {N : Nat} {r : Heap} {c : Nat}, Shape h hd (plug k t) → t.root ≠ 0 →
    addGoS (h.parent hd) N h t.root = some (r, c) → c = k.length := by
  induction k with
  | nil =>
    intro h t N r c H hr e
    cases N with
    | zero => cases e
    | succ N =>
      have := (H.root_iff (k := [])).2 rfl
      rw [addGoS, if_neg (by rw [this]; simp)] at e
      cases e; rfl
  | cons f k ih =>
    intro h t N r c H hr e
    cases N with
    | zero => cases e
    | succ N =>
      have hne : t.root ≠ h.parent hd := fun e => by
        have := (H.root_iff).1 e; cases this
      have hp : h.parent t.root = f.x := by
        cases t with
        | nil => exact absurd rfl hr
        | node c s l x r => exact H.read.1
      rw [addGoS, if_pos hne] at e
      simp only [hp] at e
      have H2 : Shape (h.setSize f.x (h.size f.x + 1)) hd (plug k (Fr.fill { f with s := f.s + 1 } t)) ∧ f.x ≠ 0 := by
        rcases f with ⟨side, c, s, x, sib⟩
        cases side
        · have := Shape.read (k := k) (h := h) (x := x) H
          rw [this.2.2.1]
          exact ⟨Shape.resize (k := k) H (s + 1), this.2.2.2.2.2.1⟩
        · have := Shape.read (k := k) (h := h) (x := x) H
          rw [this.2.2.1]
          exact ⟨Shape.resize (k := k) H (s + 1), this.2.2.2.2.2.1⟩
      obtain ⟨H2, hfx⟩ := H2
      have er := fill_root { f with s := f.s + 1 } t
      obtain ⟨c', e', rfl⟩ := tick_inv e
      have := ih (t := Fr.fill { f with s := f.s + 1 } t) (N := N) (r := r) (c := c') H2 (by rw [er]; exact hfx) (by rw [er]; exact e')
      simp [this]

theorem augRemoveS_spec {hd : Id} (k : Ctx) : ∀ {h : Heap} {t : T} {N : Nat} {r : Heap} {c : Nat}, Shape h hd (plug k t) → t.root ≠ 0 →
    augRemoveS (h.parent hd) N h t.root = some (r, c) → c = k.length := by
  induction k with
  | nil =>
    intro h t N r c H hr e
    cases N with
    | zero => cases e
    | succ N =>
      have := (H.root_iff (k := [])).2 rfl
      rw [augRemoveS, if_neg (by rw [this]; simp)] at e
      cases e; rfl
  | cons f k ih =>
    intro h t N r c H hr e
    cases N with
    | zero => cases e
    | succ N =>
      have hne : t.root ≠ h.parent hd := fun e => by
        have := (H.root_iff).1 e; cases this
      have hp : h.parent t.root = f.x := by
        cases t with
        | nil => exact absurd rfl hr
        | node c s l x r => exact H.read.1
      rw [augRemoveS, if_pos hne] at e
      simp only [hp] at e
      have H2 : Shape (h.setSize f.x (h.size f.x - 1)) hd (plug k (Fr.fill { f with s := f.s - 1 } t)) ∧ f.x ≠ 0 := by
        rcases f with ⟨side, c, s, x, sib⟩
        cases side
        · have := Shape.read (k := k) (h := h) (x := x) H
          rw [this.2.2.1]
          exact ⟨Shape.resize (k := k) H (s - 1), this.2.2.2.2.2.1⟩
        · have := Shape.read (k := k) (h := h) (x := x) H
          rw [this.2.2.1]
          exact ⟨Shape.resize (k := k) H (s - 1), this.2.2.2.2.2.1⟩
      obtain ⟨H2, hfx⟩ := H2
      have er := fill_root { f with s := f.s - 1 } t
      obtain ⟨c', e', rfl⟩ := tick_inv e
      have := ih (t := Fr.fill { f with s := f.s - 1 } t) (N := N) (r := r) (c := c') H2 (by rw [er]; exact hfx) (by rw [er]; exact e')
      simp [this]

theorem linkR_eq (n : Nat) (h : Heap) (x : Id) (side : Side) (position hd : Id) :
    linkR n h x side position hd =
      match augAddS n (linkLinks h x side position hd) x ((linkLinks h x side position hd).parent hd) with
      | none => none
      | some (h, a) => more a (rebalanceS n h hd x) := rfl

/-- Linking at a place found by `link_point`, with the rounds of the counters. -/
theorem linkR_at {h : Heap} {hd x pos : Id} {side : Side} {u v : List Id} {N : Nat} (hp : PointAt h hd side pos u v)
    (hx : x ∉ hd :: (u ++ v)) (hx0 : x ≠ 0) {h' : Heap} {f : Nat} (e : linkS N h x side pos hd = some (h', f)) :
    ∃ a, linkR N h x side pos hd = some (h', a + f) ∧ a ≤ 2 * lg (u ++ v).length := by
  obtain ⟨k, R, hb, hs, rfl, rfl, rfl, rfl⟩ := hp
  have hi : (plug k .nil).ids = ctxL k ++ ctxR k := by rw [ids_plug]; simp [T.ids]
  rw [← hi] at hx
  obtain ⟨a1, -, -, -, -, -⟩ := linkLinks_shape R hx hx0
  rw [linkS_eq] at e
  rw [linkR_eq]
  generalize linkLinks h x (ctxSide k) (ctxPar hd k) hd = h1 at a1 e
  have H2 := a1.resize 1
  cases e1 : augAddS N h1 x (h1.parent hd) with
  | none =>
    have := augAddS_fst N h1 x (h1.parent hd)
    rw [e1] at this
    rw [← this] at e; cases e
  | some o =>
    obtain ⟨h2, a⟩ := o
    have := augAddS_fst N h1 x (h1.parent hd)
    rw [e1] at this
    rw [← this] at e
    simp only [Option.map_some] at e
    have hc : a = k.length := addGoS_spec k H2 (by exact hx0) (N := N) e1
    refine ⟨a, by simp only [e, more_some], ?_⟩
    have h1 := ctx_height k .nil
    have h2 := rb_height hb
    rw [hi] at h2
    unfold lg; omega

theorem chooseS_mem {h : Heap} {hd z y x : Id} {xs : List Id} {N w : Nat} (hr : Rep h hd xs) (hz : z ∈ xs) (hN : xs.length ≤ N)
    (e : chooseExtractS N h z = some ((y, x), w)) : y ∈ xs := by
  obtain ⟨t, R, hb, hs, rfl⟩ := hr
  obtain ⟨k, c, s, l, r, rfl⟩ := exists_zip (x := z) t hz
  have hread := R.shape.read
  have hzz := shape_plug.1 R.shape
  have hr0 : 0 ∉ r.ids := by have := hzz.nz; simp only [T.ids, List.mem_cons, List.mem_append, not_or] at this; tauto
  unfold chooseExtractS at e
  split at e
  · cases e; exact hz
  · split at e
    · cases e; exact hz
    · rename_i q
      rw [hread.2.2.2.2.1, root_zero hr0] at q
      have hlen : r.ids.length ≤ N := by
        refine Nat.le_trans ?_ hN
        simp only [ids_plug, T.ids, List.length_append, List.length_cons]; omega
      obtain ⟨k1, cy, sy, y', ry, hr', -, emin⟩ := minimumS_spec (N := N) r hzz.at'.2.2.2.2.2.2 hr0 q hlen
      rw [hread.2.2.2.2.1, emin] at e
      cases e
      rw [ids_plug, T.ids, hr', ids_plug]
      simp [T.ids]

/-- Unlinking, with the rounds of the counters. -/
theorem extractR_at {h : Heap} {hd z : Id} {xs : List Id} {N : Nat} (hr : Rep h hd xs) (hz : z ∈ xs) (hN : xs.length ≤ N) {h' : Heap} {r : Rounds}
    (e : extractS N h hd z = some (h', r)) :
    ∃ a, extractR N h hd z = some (h', r.walk + r.fix + a) ∧ a ≤ 2 * lg xs.length := by
  unfold extractS at e
  unfold extractR
  cases e1 : chooseExtractS N h z with
  | none => rw [e1] at e; cases e
  | some o =>
    obtain ⟨⟨y, x⟩, w⟩ := o
    have hy := chooseS_mem hr hz hN e1
    rw [e1] at e
    simp only at e ⊢
    have ef := augRemoveS_fst (h.parent hd) N h y
    cases e2 : augRemoveS (h.parent hd) N h y with
    | none => rw [e2] at ef; rw [← ef] at e; cases e
    | some o =>
      obtain ⟨h1, a⟩ := o
      have ha : a ≤ 2 * lg xs.length := by
        obtain ⟨t, R, hb, hs, rfl⟩ := hr
        obtain ⟨k, c, s, l, r, rfl⟩ := exists_zip (x := y) t hy
        have hread := R.shape.read
        have := augRemoveS_spec k (t := .node c s l y r) R.shape (by exact hread.2.2.2.2.2.1) (N := N) e2
        have h1 := ctx_height k (.node c s l y r)
        have h2 := rb_height hb
        unfold lg; omega
      refine ⟨a, ?_, ha⟩
      rw [e2] at ef
      rw [← ef] at e
      simp only [Option.map_some] at e ⊢
      generalize (if y ≠ z then some (replaceBySucc h1 hd z y x, 0) else spliceOutS N h1 hd z x) = o at e ⊢
      rcases o with _ | ⟨⟨h2, xp⟩, w'⟩
      · cases e
      · simp only at e ⊢
        split at e
        · rename_i q
          rw [if_pos q]
          generalize extractFixS hd N h2 x xp = o3 at e ⊢
          rcases o3 with _ | ⟨⟨h3, x3⟩, f⟩
          · cases e
          · cases e
            simp only [Option.some.injEq, Prod.mk.injEq, true_and]; omega
        · rename_i q
          rw [if_neg q]
          cases e
          simp only [Option.some.injEq, Prod.mk.injEq, true_and]; omega

/-- Where `restore` links. -/
theorem restore_point {h : Heap} {hd : Id} {u v : List Id} {n : Nat} (hr : Rep h hd (u ++ v)) (hN : (u ++ v).length + 3 ≤ n) :
    ∃ side pos w, PointAt h hd side pos u v ∧
      (∀ x, restoreS n h x (hdOr hd v) hd = (linkS n h x side pos hd).map (fun (h, f) => (h, ⟨w, f⟩))) ∧
      (∀ x, restoreR n h x (hdOr hd v) hd = more w (linkR n h x side pos hd)) := by
  have more0 : ∀ o : Option (Heap × Nat), o = more 0 o := by intro o; rcases o with _ | ⟨a, c⟩ <;> simp
  have hnz := rep_nz hr
  have hnd := rep_nodup hr
  have hd0 : hd ≠ 0 := fun e => hnz (by simp [e])
  cases v with
  | nil =>
    have e : hdOr hd [] = hd := rfl
    rw [e]
    rw [List.append_nil] at hr hN
    rcases List.eq_nil_or_concat' u with rfl | ⟨w, z, rfl⟩
    · have q : h.left hd = 0 ∨ h.left hd = hd := Or.inr (by rw [rep_first hr]; rfl)
      refine ⟨.left, hd, 0, pointAt_empty hr, fun x => ?_, fun x => ?_⟩
      · unfold restoreS; rw [if_pos q]
      · unfold restoreR; rw [if_pos q]; exact more0 _
    · have hf := rep_first hr
      have hne : ¬ (h.left hd = 0 ∨ h.left hd = hd) := by
        rw [hf]
        rintro (q | q)
        · apply hnz
          cases w with
          | nil => have : z = 0 := q; subst this; simp
          | cons b w => have : b = 0 := q; subst this; simp
        · have hm : hd ∉ w ++ [z] := by have := (List.nodup_cons.1 (rep_nodup hr)).1; exact this
          apply hm
          cases w with
          | nil => have : z = hd := q; subst this; simp
          | cons b w => have : b = hd := q; subst this; simp
      have hp := pointAt_right (v := []) (by simpa using hr) (last_right hr)
      have ed := decrementS_end (N := n) hr (by simp)
      rw [List.getLastD_concat] at ed
      refine ⟨.right, z, 0, hp, fun x => ?_, fun x => ?_⟩
      · unfold restoreS; rw [if_neg hne, ed]
      · unfold restoreR; rw [if_neg hne, ed]
  | cons p v =>
    have e : hdOr hd (p :: v) = p := rfl
    rw [e]
    by_cases hp : h.left p = 0
    · refine ⟨.left, p, 0, pointAt_left hr hp, fun x => ?_, fun x => ?_⟩
      · unfold restoreS; rw [if_pos (Or.inl hp)]
      · unfold restoreR; rw [if_pos (Or.inl hp)]; exact more0 _
    · have hne : ¬ (h.left p = 0 ∨ h.left p = hd) := by
        rintro (q | q)
        · exact hp q
        · obtain ⟨t, R, hb, hs, hi⟩ := hr
          obtain ⟨k, c, s, l, r, rfl⟩ := exists_zip (x := p) t (by rw [hi]; simp)
          rw [R.shape.read.2.2.2.1] at q hp
          have hm := root_mem hp
          have := (List.nodup_cons.1 (shape_plug.1 R.shape).nodup).1
          apply this
          rw [← q]; simp [T.ids, hm]
      have hu : u ≠ [] := by rintro rfl; exact hp (first_left hr)
      obtain ⟨w, e1, hw⟩ := decrementS_le hr hu hN
      rcases List.eq_nil_or_concat' u with rfl | ⟨y, z, rfl⟩
      · exact absurd rfl hu
      · rw [List.getLastD_concat] at e1
        have e2 : (y ++ [z]) ++ p :: v = y ++ z :: p :: v := by simp
        have hr' := hr
        rw [e2] at hr'
        have hz : h.right z = 0 := by
          by_contra hz
          exact hp (neighbours hr' hz)
        refine ⟨.right, z, w, pointAt_right hr' hz, fun x => ?_, fun x => ?_⟩
        · unfold restoreS; rw [if_neg hne, e1]
        · unfold restoreR; rw [if_neg hne, e1]

variable {K : Type} {lt : K → K → Bool} {u : Bool} {hd : Id} {xs : List Id} {n : Nat}

theorem relinkRk_at (sw : StrictWeak lt) {key : Id → K} {h : Heap} {x : Id} {k : K} {r : Rounds} {c cnt : Nat} {a b : List Id}
    {o1 : Rounds → Option (Idx K × Rounds)} {o2 : Nat → Option (Idx K × Nat)} (hr : Rep h hd (a ++ b)) (ho : OrderedBy lt u key (a ++ b))
    (hn : (a ++ b).length + 4 ≤ n) (hx : x ∉ hd :: (a ++ b)) (hx0 : x ≠ 0) {B : Nat}
    (hoo : ∀ w s' r', o1 (r.add ⟨w, 0⟩) = some (s', r') → ∃ a', o2 (c + w) = some (s', r'.walk + r'.fix + a') ∧ a' ≤ B) (hB : 2 * lg (a ++ b).length + (c - (r.walk + r.fix)) ≤ B)
    (hc : r.walk + r.fix ≤ c) {s' : Idx K} {r' : Rounds}
    (e : relink lt u n hd key h cnt x k r o1 = some (s', r')) :
    ∃ a', relinkRk lt u n hd key h cnt x k c o2 = some (s', r'.walk + r'.fix + a') ∧ a' ≤ B := by
  unfold relink at e
  unfold relinkRk
  obtain ⟨p, w, e1, hw, q⟩ := pointS_spec sw (k := k) (hint := none) hr ho (n := n) (by omega) (by simp)
  rw [e1] at e ⊢
  rcases q with ⟨side, pos, a', b', rfl, e2, hp, hf⟩ | ⟨q, rfl, -⟩
  · simp only at e ⊢
    cases e3 : linkS n h x side pos hd with
    | none => rw [e3] at e; cases e
    | some o =>
      obtain ⟨h', f⟩ := o
      rw [e2] at hx hB
      obtain ⟨d, e4, hd'⟩ := linkR_at hp hx hx0 e3
      rw [e3] at e
      cases e
      simp only [e4]
      refine ⟨(c - (r.walk + r.fix)) + d, ?_, by omega⟩
      simp only [Rounds.add, Option.some.injEq, Prod.mk.injEq, true_and]; omega
  · exact hoo w s' r' e

/-- The rounds of an operation of a ranked index are those of the same operation of an ordered index, and those of the counters. -/
theorem actR_at (sw : StrictWeak lt) {s s' : Idx K} {a : Act K} {r : Rounds} (hr : Rep s.h hd xs) (ho : OrderedBy lt u s.key xs) (hn : xs.length + 4 ≤ n)
    (hl : a.Legal hd xs) (e : act lt u n hd s a = some (s', r)) :
    ∃ d, actR lt u n hd s a = some (s', r.walk + r.fix + d) ∧ d ≤ 4 * lg xs.length := by
  cases a with
  | insert x k hint =>
    obtain ⟨hx0, hx, hh⟩ := hl
    have ho' : OrderedBy lt u (upd s.key x k) xs := ho.congr (fun z hz => upd_other _ _ (fun e => hx (by rw [← e]; simp [hz])))
    obtain ⟨p, w, e1, hw, q⟩ := pointS_spec sw (k := k) hr ho' (n := n) (by omega) hh
    simp only [act, actR, e1] at e ⊢
    rcases q with ⟨side, pos, a, b, rfl, rfl, hp, hf⟩ | ⟨q, rfl, -⟩
    · simp only at e ⊢
      cases e3 : linkS n s.h x side pos hd with
      | none => rw [e3] at e; cases e
      | some o =>
        obtain ⟨h', f⟩ := o
        obtain ⟨d, e4, hd'⟩ := linkR_at hp hx hx0 e3
        rw [e3] at e
        cases e
        simp only [e4]
        exact ⟨d, by simp only [Option.some.injEq, Prod.mk.injEq, true_and]; omega, by omega⟩
    · cases e
      exact ⟨0, rfl, Nat.zero_le _⟩
  | erase x =>
    simp only [act, actR] at e ⊢
    cases e1 : incrementS s.h n x with
    | none => rw [e1] at e; cases e
    | some o =>
      obtain ⟨y, w⟩ := o
      rw [e1] at e
      simp only at e ⊢
      cases e2 : extractS n s.h hd x with
      | none => rw [e2] at e; cases e
      | some o =>
        obtain ⟨h', r'⟩ := o
        obtain ⟨d, e3, hd'⟩ := extractR_at hr (show x ∈ xs from hl) (by omega) e2
        rw [e2] at e
        cases e
        simp only [e3, Rounds.add]
        exact ⟨d, by simp only [Option.some.injEq, Prod.mk.injEq, true_and]; omega, by omega⟩
  | replace x k =>
    obtain ⟨a, b, rfl, hm, hx0, hxh⟩ := holds_mem hr (show x ∈ xs from hl)
    have hab : (a ++ b).Sublist (a ++ x :: b) := (List.sublist_cons_self x b).append_left a
    have hL := lg_le (a := a) (b := b) (x := x)
    have ho' : OrderedBy lt u (upd s.key x k) (a ++ b) := (ho.sub hab).congr (fun z hz => upd_other _ _ (fun e => hm (e ▸ hz)))
    obtain ⟨i, w, e1, hw, hi⟩ := inPlaceS_spec sw (k := k) hr ho' (n := n) (by omega)
    simp only [act, actR, e1] at e ⊢
    cases i with
    | true => cases e; exact ⟨0, rfl, Nat.zero_le _⟩
    | false =>
      simp only at e ⊢
      obtain ⟨w', e2, hw'⟩ := incrementS_le hr (N := n) (by omega)
      obtain ⟨P, hP⟩ := hr.pot
      obtain ⟨h', w2, f, P', e3, r2, c1, c2, c3, -⟩ := extractP_at hP (N := n) (by omega)
      obtain ⟨d, e4, hd'⟩ := extractR_at hr (show x ∈ a ++ x :: b from by simp) (by omega) e3
      simp only [e2, e3, e4] at e ⊢
      have hx : x ∉ hd :: (a ++ b) := by
        simp only [List.mem_cons, not_or]; exact ⟨hxh, hm⟩
      refine relinkRk_at sw r2.rep ho' (by simp only [List.length_append, List.length_cons] at hn ⊢; omega) hx hx0 ?_ ?_ ?_ e
      · intro w3 s3 r3 e5
        obtain ⟨side, pos, w4, hp, E1, E2⟩ := restore_point r2.rep (n := n) (by simp only [List.length_append, List.length_cons] at hn ⊢; omega)
        rw [E1] at e5
        rw [E2]
        cases e6 : linkS n h' x side pos hd with
        | none => rw [e6] at e5; cases e5
        | some o =>
          obtain ⟨h6, f6⟩ := o
          obtain ⟨d6, e7, hd6⟩ := linkR_at hp hx hx0 e6
          rw [e6] at e5
          cases e5
          simp only [e7, more_some, Option.map_some, Rounds.add]
          refine ⟨d + d6, ?_, by omega⟩
          simp only [Option.some.injEq, Prod.mk.injEq, true_and]; omega
      · simp only [Rounds.add]; omega
      · simp only [Rounds.add]; omega
  | modify x k =>
    obtain ⟨a, b, rfl, hm, hx0, hxh⟩ := holds_mem hr (show x ∈ xs from hl)
    have hab : (a ++ b).Sublist (a ++ x :: b) := (List.sublist_cons_self x b).append_left a
    have hL := lg_le (a := a) (b := b) (x := x)
    have ho' : OrderedBy lt u (upd s.key x k) (a ++ b) := (ho.sub hab).congr (fun z hz => upd_other _ _ (fun e => hm (e ▸ hz)))
    obtain ⟨i, w, e1, hw, hi⟩ := inPlaceS_spec sw (k := k) hr ho' (n := n) (by omega)
    simp only [act, actR, e1] at e ⊢
    cases i with
    | true => cases e; exact ⟨0, rfl, Nat.zero_le _⟩
    | false =>
      simp only at e ⊢
      obtain ⟨P, hP⟩ := hr.pot
      obtain ⟨h', w2, f, P', e3, r2, c1, c2, c3, -⟩ := extractP_at hP (N := n) (by omega)
      obtain ⟨d, e4, hd'⟩ := extractR_at hr (show x ∈ a ++ x :: b from by simp) (by omega) e3
      simp only [e3, e4] at e ⊢
      have hx : x ∉ hd :: (a ++ b) := by
        simp only [List.mem_cons, not_or]; exact ⟨hxh, hm⟩
      refine relinkRk_at sw r2.rep ho' (by simp only [List.length_append, List.length_cons] at hn ⊢; omega) hx hx0 ?_ ?_ ?_ e
      · intro w3 s3 r3 e5
        cases e5
        refine ⟨d, ?_, by omega⟩
        simp only [Rounds.add, Option.some.injEq, Prod.mk.injEq, true_and]; omega
      · simp only [Rounds.add]; omega
      · simp only [Rounds.add]; omega

end MI.Ord
