import Verif.Ord.Extract4
import Verif.Ord.Search
import Verif.Spec.Order
/-! Lookups, iterator steps and ranks on represented trees (helper lemmas). -/
namespace MI.Ord
open MI

theorem split_node {l r u v : List Id} {x : Id} (e : l ++ x :: r = u ++ v) :
    (∃ v', l = u ++ v' ∧ v = v' ++ x :: r) ∨ (∃ u', r = u' ++ v ∧ u = l ++ x :: u') := by
  rcases List.append_eq_append_iff.1 e with ⟨a, h1, h2⟩ | ⟨c, h1, h2⟩
  · cases a with
    | nil => left; exact ⟨[], by simpa using h1.symm, by simpa using h2.symm⟩
    | cons a as =>
      simp only [List.cons_append, List.cons.injEq] at h2
      right; exact ⟨as, h2.2, by rw [h1, h2.1]⟩
  · left; exact ⟨c, h1, h2⟩

theorem hdOr_append (y : Id) (u v : List Id) : hdOr y (u ++ v) = hdOr (hdOr y v) u := by
  cases u <;> rfl

theorem height_le (t : T) : t.height ≤ t.ids.length := by
  induction t with
  | nil => simp [T.height]
  | node c s l x r ihl ihr => simp only [T.height, T.ids, List.length_append, List.length_cons]; omega

theorem boundLoop_spec {q : Id → Bool} {h : Heap} (t : T) : ∀ {p y : Id} {n : Nat} {u v : List Id}, At h p t → 0 ∉ t.ids →
    t.height + 1 ≤ n → t.ids = u ++ v → (∀ a ∈ u, q a = false) → (∀ a ∈ v, q a = true) →
    boundLoop q h n t.root y = some (hdOr y v) := by
  induction t with
  | nil =>
    intro p y n u v _ _ hn e _ _
    cases n with
    | zero => omega
    | succ n =>
      have : v = [] := by have := e.symm; simp [T.ids] at this; exact this.2
      subst this; rfl
  | node c s l x r ihl ihr =>
    intro p y n u v ha h0 hn e hu hv
    obtain ⟨_, _, _, hl, hr, al, ar⟩ := ha
    cases n with
    | zero => omega
    | succ n =>
      simp only [T.ids, List.mem_append, List.mem_cons, not_or] at h0
      simp only [T.height] at hn
      have hx0 : x ≠ 0 := fun h => h0.2.1 h.symm
      rw [root_node, boundLoop, if_neg hx0]
      rcases split_node e with ⟨v', e1, rfl⟩ | ⟨u', e1, rfl⟩
      · rw [if_pos (hv x (by simp)), hl, ihl al h0.1 (by omega) e1 hu (fun a ha => hv a (by simp [ha])), hdOr_append]; rfl
      · rw [if_neg (by rw [hu x (by simp)]; simp), hr, ihr ar h0.2.2 (by omega) e1 (fun a ha => hu a (by simp [ha])) hv]

/-- A predicate that, once true along a list, stays true, splits the list. -/
theorem mono_split {q : Id → Bool} (xs : List Id) (hq : xs.Pairwise (fun a b => q a = true → q b = true)) :
    ∃ u v, xs = u ++ v ∧ (∀ a ∈ u, q a = false) ∧ (∀ a ∈ v, q a = true) := by
  induction xs with
  | nil => exact ⟨[], [], rfl, by simp, by simp⟩
  | cons a xs ih =>
    rw [List.pairwise_cons] at hq
    obtain ⟨u, v, e, hu, hv⟩ := ih hq.2
    by_cases h : q a = true
    · exact ⟨[], a :: xs, rfl, by simp, fun b hb => by
        rcases List.mem_cons.1 hb with rfl | hb
        · exact h
        · exact hq.1 b hb h⟩
    · refine ⟨a :: u, v, by rw [e]; rfl, fun b hb => ?_, hv⟩
      rcases List.mem_cons.1 hb with rfl | hb
      · simpa using h
      · exact hu b hb

theorem rangeLoop_spec {b a lo up : Id → Bool} {h : Heap} (t : T) : ∀ {p y : Id} {n : Nat} {u m v : List Id}, At h p t → 0 ∉ t.ids →
    t.height + 2 ≤ n → t.ids = u ++ (m ++ v) → (∀ x ∈ u, b x = true ∧ lo x = false) →
    (∀ x ∈ m, b x = false ∧ a x = false ∧ lo x = true ∧ up x = false) → (∀ x ∈ v, b x = false ∧ a x = true ∧ up x = true) →
    rangeLoop b a lo up h n t.root y = some (hdOr y (m ++ v), hdOr y v) := by
  induction t with
  | nil =>
    intro p y n u m v _ _ hn e _ _ _
    cases n with
    | zero => omega
    | succ n =>
      have h2 := e.symm
      simp only [T.ids, List.append_eq_nil_iff] at h2
      obtain ⟨_, rfl, rfl⟩ := h2
      rfl
  | node c s l x r ihl ihr =>
    intro p y n u m v ha h0 hn e hu hm hv
    obtain ⟨_, _, _, hl, hr, al, ar⟩ := ha
    cases n with
    | zero => omega
    | succ n =>
      simp only [T.ids, List.mem_append, List.mem_cons, not_or] at h0
      simp only [T.height] at hn
      have hx0 : x ≠ 0 := fun h => h0.2.1 h.symm
      rw [root_node, rangeLoop, if_neg hx0]
      rcases split_node e with ⟨v', e1, e2⟩ | ⟨u', e1, rfl⟩
      · rcases split_node e2.symm with ⟨w, rfl, rfl⟩ | ⟨w, e3, rfl⟩
        · -- x after the range
          have hx := hv x (by simp)
          rw [if_neg (by simp [hx.1]), if_pos hx.2.1, hl, ihl al h0.1 (by omega) e1 hu hm (fun z hz => hv z (by simp [hz]))]
          rw [← List.append_assoc m w, hdOr_append y (m ++ w), hdOr_append y w]; rfl
        · -- x in the range
          have hx := hm x (by simp)
          rw [if_neg (by simp [hx.1]), if_neg (by simp [hx.2.1]), hl, hr,
            boundLoop_spec l al h0.1 (by omega) e1 (fun z hz => (hu z hz).2) (fun z hz => (hm z (by simp [hz])).2.2.1),
            boundLoop_spec r ar h0.2.2 (by omega) e3 (fun z hz => (hm z (by simp [hz])).2.2.2) (fun z hz => (hv z hz).2.2)]
          simp only [List.append_assoc, List.cons_append]
          rw [hdOr_append y v']; rfl
      · have hx := hu x (by simp)
        rw [if_pos hx.1, hr, ihr ar h0.2.2 (by omega) e1 (fun z hz => hu z (by simp [hz])) hm hv]

/-! ## Iterator steps -/

theorem climbRight_spec {h : Heap} {hd : Id} (k : Ctx) : ∀ {t : T} {N : Nat}, RepT h hd (plug k t) → t ≠ .nil →
    k.length + 2 ≤ N → ∃ x y, climbRight h N t.root (ctxPar hd k) = some (x, y) ∧
      (if h.right x ≠ y then y else x) = hdOr hd (ctxR k) := by
  induction k with
  | nil =>
    intro t N R ht hN
    have hz := shape_plug.1 R.shape
    obtain ⟨N, rfl⟩ : ∃ M, N = M + 2 := ⟨N - 2, by simp at hN; omega⟩
    have h0 : 0 ∉ t.ids := by have := hz.nz; simp [ctxL, ctxR] at this; tauto
    have hroot : h.parent hd = t.root := R.shape.root
    cases t with
    | nil => exact absurd rfl ht
    | node c s l x r =>
      have hrd := Shape.read (k := []) R.shape
      rw [root_node] at *
      have hpar : ctxPar hd [] = hd := rfl
      rw [hpar, climbRight]
      by_cases e : x = h.right hd
      · rw [if_pos e, climbRight]
        have : hd ≠ h.right (h.parent hd) := by
          rw [hroot, hrd.2.2.2.2.1]
          intro e2
          by_cases q : r.root = 0
          · have := hz.nz; rw [q] at e2; rw [e2] at this; simp at this
          · have := (List.nodup_cons.1 hz.nodup).1
            apply this; rw [e2]; have := root_mem q; simp [T.ids, this]
        rw [if_neg this]
        refine ⟨_, _, rfl, ?_⟩
        rw [hroot, if_neg (by simp [e])]; rfl
      · rw [if_neg e]
        refine ⟨_, _, rfl, ?_⟩
        have hx : h.right x ≠ hd := by
          rw [hrd.2.2.2.2.1]
          intro e2
          by_cases q : r.root = 0
          · have := hz.nz; rw [q] at e2; rw [e2] at this; simp at this
          · have := (List.nodup_cons.1 hz.nodup).1
            apply this; rw [← e2]; have := root_mem q; simp [T.ids, this]
        rw [if_pos hx]; rfl
  | cons f k ih =>
    intro t N R ht hN
    rcases f with ⟨side, c, s, x, sib⟩
    have hz := shape_plug.1 R.shape
    obtain ⟨N, rfl⟩ : ∃ M, N = M + 1 := ⟨N - 1, by simp at hN; omega⟩
    have hpar : ctxPar hd (⟨side, c, s, x, sib⟩ :: k) = x := rfl
    rw [hpar, climbRight]
    have h0 : 0 ∉ t.ids := by have := hz.nz; simp only [List.mem_cons, List.mem_append, not_or] at this; tauto
    have ht0 : t.root ≠ 0 := by rw [ne_eq, root_zero h0]; exact ht
    have htm := root_mem ht0
    cases side with
    | right =>
      have R' : RepT h hd (plug k (.node c s sib x t)) := R
      have hrd := R'.shape.read
      rw [if_pos hrd.2.2.2.2.1.symm, hrd.1]
      exact ih R' (by simp) (by simp at hN ⊢; omega)
    | left =>
      have R' : RepT h hd (plug k (.node c s t x sib)) := R
      have hrd := R'.shape.read
      have hn := hz.nodup
      simp only [ctxL, ctxR] at hn
      have hsib : h.right x ≠ t.root := by
        rw [hrd.2.2.2.2.1]; intro e
        by_cases q : sib.root = 0
        · rw [q] at e; exact ht0 e.symm
        · have hs := root_mem q
          rw [e] at hs
          simp only [List.nodup_cons, List.nodup_append, List.mem_append, List.mem_cons] at hn
          grind
      rw [if_neg (Ne.symm hsib)]
      refine ⟨_, _, rfl, ?_⟩
      have : h.right t.root ≠ x := by
        cases t with
        | nil => exact absurd rfl ht
        | node c' s' l' x' r' =>
          have hr2 := Shape.read (k := ⟨.left, c, s, x, sib⟩ :: k) R.shape
          rw [root_node, hr2.2.2.2.2.1]
          intro e
          by_cases q : r'.root = 0
          · rw [q] at e; exact hrd.2.2.2.2.2.1 e.symm
          · have hs := root_mem q
            rw [e] at hs
            simp only [T.ids, List.nodup_cons, List.nodup_append, List.mem_append, List.mem_cons] at hn
            grind
      rw [if_pos this]; rfl

theorem increment_spec {h : Heap} {hd x : Id} {u v : List Id} {N : Nat} (hr : Rep h hd (u ++ x :: v))
    (hN : (u ++ x :: v).length + 3 ≤ N) : increment h N x = some (hdOr hd v) := by
  obtain ⟨t, R, hb, hs, hi⟩ := hr
  obtain ⟨k, c, s, l, r, rfl⟩ := exists_zip (x := x) t (by rw [hi]; simp)
  have hn : (u ++ x :: v).Nodup := by rw [← hi]; exact (List.nodup_cons.1 R.shape.nodup).2
  have hi' : u ++ x :: v = (ctxL k ++ l.ids) ++ x :: (r.ids ++ ctxR k) := by rw [← hi, ids_plug]; simp [T.ids]
  obtain ⟨rfl, rfl⟩ := split_unique hn hi'
  have hz := shape_plug.1 R.shape
  have hrd := R.shape.read
  have hr0 : 0 ∉ r.ids := by have := hz.nz; simp only [T.ids, List.mem_cons, List.mem_append, not_or] at this; tauto
  unfold increment
  simp only [List.length_append, List.length_cons] at hN
  by_cases q : r = .nil
  · subst q
    rw [if_neg (by rw [hrd.2.2.2.2.1]; simp [root_nil]), hrd.1]
    have hk := ctx_length k
    simp only [ctxIds, List.length_append] at hk
    obtain ⟨a, b, e1, e2⟩ := climbRight_spec (N := N) k R (by simp) (by omega)
    have e1' : climbRight h N x (ctxPar hd k) = some (a, b) := e1
    rw [e1']
    simp only [T.ids, List.nil_append]
    rw [e2]
  · rw [if_pos (by rw [hrd.2.2.2.2.1, ne_eq, root_zero hr0]; exact q), hrd.2.2.2.2.1,
      minimum_head hz.at'.2.2.2.2.2.2 hr0 q (by omega) (hdOr hd (ctxR k)), ← hdOr_append]


theorem climbLeft_spec {h : Heap} {hd : Id} (k : Ctx) : ∀ {t : T} {N : Nat}, RepT h hd (plug k t) → t ≠ .nil → ctxL k ≠ [] →
    k.length ≤ N → climbLeft h N t.root (ctxPar hd k) = some ((ctxL k).getLastD hd) := by
  induction k with
  | nil => intro t N _ _ h; exact absurd rfl h
  | cons f k ih =>
    intro t N R ht hL hN
    rcases f with ⟨side, c, s, x, sib⟩
    have hz := shape_plug.1 R.shape
    obtain ⟨N, rfl⟩ : ∃ M, N = M + 1 := ⟨N - 1, by simp at hN; omega⟩
    have hpar : ctxPar hd (⟨side, c, s, x, sib⟩ :: k) = x := rfl
    rw [hpar, climbLeft]
    have h0 : 0 ∉ t.ids := by have := hz.nz; simp only [List.mem_cons, List.mem_append, not_or] at this; tauto
    have ht0 : t.root ≠ 0 := by rw [ne_eq, root_zero h0]; exact ht
    have htm := root_mem ht0
    cases side with
    | left =>
      have R' : RepT h hd (plug k (.node c s t x sib)) := R
      have hrd := R'.shape.read
      rw [if_pos hrd.2.2.2.1.symm, hrd.1]
      exact ih R' (by simp) hL (by simp at hN ⊢; omega)
    | right =>
      have R' : RepT h hd (plug k (.node c s sib x t)) := R
      have hrd := R'.shape.read
      have hn := hz.nodup
      simp only [ctxL, ctxR] at hn
      have hsib : h.left x ≠ t.root := by
        rw [hrd.2.2.2.1]; intro e
        by_cases q : sib.root = 0
        · rw [q] at e; exact ht0 e.symm
        · have hs := root_mem q
          rw [e] at hs
          simp only [List.nodup_cons, List.nodup_append, List.mem_append, List.mem_cons] at hn
          grind
      rw [if_neg (Ne.symm hsib)]
      simp only [ctxL, List.getLastD_concat]

theorem decrement_end {h : Heap} {hd : Id} {xs : List Id} {N : Nat} (hr : Rep h hd xs) (hx : xs ≠ []) :
    decrement h N hd = some (xs.getLastD hd) := by
  obtain ⟨t, R, hb, hs, rfl⟩ := hr
  unfold decrement
  rw [if_pos, R.last]
  refine ⟨R.color, ?_⟩
  cases t with
  | nil => exact absurd rfl hx
  | node c s l x r => rw [R.shape.root, root_node]; exact (Shape.read (k := []) R.shape).1

theorem decrement_spec {h : Heap} {hd x : Id} {u v : List Id} {N : Nat} (hr : Rep h hd (u ++ x :: v)) (hu : u ≠ [])
    (hN : (u ++ x :: v).length + 3 ≤ N) : decrement h N x = some (u.getLastD hd) := by
  obtain ⟨t, R, hb, hs, hi⟩ := hr
  obtain ⟨k, c, s, l, r, rfl⟩ := exists_zip (x := x) t (by rw [hi]; simp)
  have hn : (u ++ x :: v).Nodup := by rw [← hi]; exact (List.nodup_cons.1 R.shape.nodup).2
  have hi' : u ++ x :: v = (ctxL k ++ l.ids) ++ x :: (r.ids ++ ctxR k) := by rw [← hi, ids_plug]; simp [T.ids]
  obtain ⟨rfl, rfl⟩ := split_unique hn hi'
  have hz := shape_plug.1 R.shape
  have hrd := R.shape.read
  have hl0 : 0 ∉ l.ids := by have := hz.nz; simp only [T.ids, List.mem_cons, List.mem_append, not_or] at this; tauto
  unfold decrement
  simp only [List.length_append, List.length_cons] at hN
  have hnh : ¬ (h.color x = .red ∧ h.parent (h.parent x) = x) := by
    rintro ⟨hc, hp⟩
    rw [hrd.1] at hp
    rw [hrd.2.1] at hc
    subst hc
    cases k with
    | nil => exact absurd hb.1 (by simp [plug, T.black])
    | cons f k =>
      rcases f with ⟨side, fc, fs, fx, sib⟩
      have hp2 : h.parent fx = ctxPar hd k := by
        cases side
        · exact (Shape.read (k := k) (x := fx) R.shape).1
        · exact (Shape.read (k := k) (x := fx) R.shape).1
      have hp' : h.parent fx = x := hp
      rw [hp2] at hp'
      have hn2 := hz.nodup
      rcases ctxPar_mem (hd := hd) k with e | e
      · rw [e] at hp'; exact hrd.2.2.2.2.2.2 hp'.symm
      · rw [hp'] at e
        have e' := (ctxIds_cons (f := ⟨side, fc, fs, fx, sib⟩) x).2 (Or.inr (Or.inr e))
        simp only [ctxIds, List.mem_append] at e'
        simp only [T.ids, List.nodup_cons, List.nodup_append, List.mem_append, List.mem_cons] at hn2
        grind
  rw [if_neg hnh]
  by_cases q : l = .nil
  · subst q
    rw [if_neg (by rw [hrd.2.2.2.1]; simp [root_nil]), hrd.1]
    have hk := ctx_length k
    simp only [ctxIds, List.length_append] at hk
    have := climbLeft_spec (N := N) k R (by simp) (by simpa [T.ids] using hu) (by omega)
    simp only [T.ids, List.append_nil]
    exact this
  · rw [if_pos (by rw [hrd.2.2.2.1, ne_eq, root_zero hl0]; exact q), hrd.2.2.2.1,
      maximum_last hz.at'.2.2.2.2.2.1 hl0 q (by omega) hd]
    have : l.ids ≠ [] := by cases l with
      | nil => exact absurd rfl q
      | node => simp [T.ids]
    rcases List.eq_nil_or_concat' l.ids with q' | ⟨a, b, q'⟩
    · exact absurd q' this
    · rw [q', ← List.append_assoc, List.getLastD_concat, List.getLastD_concat]

/-! ## Linking at list positions -/

theorem rep_nodup {h : Heap} {hd : Id} {xs : List Id} (hr : Rep h hd xs) : (hd :: xs).Nodup := by
  obtain ⟨t, R, _, _, rfl⟩ := hr; exact R.shape.nodup

theorem rep_nz {h : Heap} {hd : Id} {xs : List Id} (hr : Rep h hd xs) : 0 ∉ hd :: xs := by
  obtain ⟨t, R, _, _, rfl⟩ := hr; exact R.shape.nz

theorem rep_first {h : Heap} {hd : Id} {xs : List Id} (hr : Rep h hd xs) : h.left hd = hdOr hd xs := by
  obtain ⟨t, R, _, _, rfl⟩ := hr; exact R.first

theorem rep_last {h : Heap} {hd : Id} {xs : List Id} (hr : Rep h hd xs) : h.right hd = xs.getLastD hd := by
  obtain ⟨t, R, _, _, rfl⟩ := hr; exact R.last

theorem rep_root {h : Heap} {hd : Id} {xs : List Id} (hr : Rep h hd xs) : h.parent hd = 0 ↔ xs = [] := by
  obtain ⟨t, R, _, _, rfl⟩ := hr
  have h0 : 0 ∉ t.ids := fun e => R.shape.nz (by simp [e])
  rw [R.shape.root, root_zero h0]
  cases t <;> simp [T.ids]

/-- Where a link point leads: linking any new node there puts it between `u` and `v`. -/
def PointAt (h : Heap) (hd : Id) (side : Side) (pos : Id) (u v : List Id) : Prop :=
  ∃ k : Ctx, RepT h hd (plug k .nil) ∧ RBTree (plug k .nil) ∧ (plug k .nil).Sized ∧ ctxSide k = side ∧ ctxPar hd k = pos ∧
    ctxL k = u ∧ ctxR k = v

theorem link_at {h : Heap} {hd x pos : Id} {side : Side} {u v : List Id} {N : Nat} (hp : PointAt h hd side pos u v)
    (hx : x ∉ hd :: (u ++ v)) (hx0 : x ≠ 0) (hN : (u ++ v).length + 3 ≤ N) :
    ∃ h', link N h x side pos hd = some h' ∧ Rep h' hd (u ++ x :: v) ∧ Frame h h' (hd :: x :: (u ++ v)) := by
  obtain ⟨k, R, hb, hs, rfl, rfl, rfl, rfl⟩ := hp
  have hi : (plug k .nil).ids = ctxL k ++ ctxR k := by rw [ids_plug]; simp [T.ids]
  rw [← hi] at hx
  have hk := ctx_length k
  simp only [ctxIds] at hk
  obtain ⟨h', a, b, c⟩ := link_spec (N := N) R hb hs hx hx0 (by omega)
  rw [hi] at c
  exact ⟨h', a, b, c⟩

theorem pointAt_left {h : Heap} {hd p : Id} {u v : List Id} (hr : Rep h hd (u ++ p :: v)) (hl : h.left p = 0) :
    PointAt h hd .left p u (p :: v) := by
  obtain ⟨t, R, hb, hs, hi⟩ := hr
  obtain ⟨k, c, s, l, r, rfl⟩ := exists_zip (x := p) t (by rw [hi]; simp)
  have hn : (u ++ p :: v).Nodup := by rw [← hi]; exact (List.nodup_cons.1 R.shape.nodup).2
  have hi' : u ++ p :: v = (ctxL k ++ l.ids) ++ p :: (r.ids ++ ctxR k) := by rw [← hi, ids_plug]; simp [T.ids]
  obtain ⟨rfl, rfl⟩ := split_unique hn hi'
  have hz := shape_plug.1 R.shape
  have hrd := R.shape.read
  have hl0 : 0 ∉ l.ids := by have := hz.nz; simp only [T.ids, List.mem_cons, List.mem_append, not_or] at this; tauto
  rw [hrd.2.2.2.1, root_zero hl0] at hl
  subst hl
  exact ⟨⟨.left, c, s, p, r⟩ :: k, R, hb, hs, rfl, rfl, by simp [ctxL, T.ids], by simp [ctxR]⟩

theorem pointAt_right {h : Heap} {hd p : Id} {u v : List Id} (hr : Rep h hd (u ++ p :: v)) (hl : h.right p = 0) :
    PointAt h hd .right p (u ++ [p]) v := by
  obtain ⟨t, R, hb, hs, hi⟩ := hr
  obtain ⟨k, c, s, l, r, rfl⟩ := exists_zip (x := p) t (by rw [hi]; simp)
  have hn : (u ++ p :: v).Nodup := by rw [← hi]; exact (List.nodup_cons.1 R.shape.nodup).2
  have hi' : u ++ p :: v = (ctxL k ++ l.ids) ++ p :: (r.ids ++ ctxR k) := by rw [← hi, ids_plug]; simp [T.ids]
  obtain ⟨rfl, rfl⟩ := split_unique hn hi'
  have hz := shape_plug.1 R.shape
  have hrd := R.shape.read
  have hl0 : 0 ∉ r.ids := by have := hz.nz; simp only [T.ids, List.mem_cons, List.mem_append, not_or] at this; tauto
  rw [hrd.2.2.2.2.1, root_zero hl0] at hl
  subst hl
  exact ⟨⟨.right, c, s, p, l⟩ :: k, R, hb, hs, rfl, rfl, by simp [ctxL], by simp [ctxR, T.ids]⟩

theorem pointAt_empty {h : Heap} {hd : Id} (hr : Rep h hd []) : PointAt h hd .left hd [] [] := by
  obtain ⟨t, R, hb, hs, hi⟩ := hr
  have : t = .nil := by cases t <;> simp [T.ids] at hi ⊢
  subst this
  exact ⟨[], R, hb, hs, rfl, rfl, rfl, rfl⟩

theorem first_left {h : Heap} {hd p : Id} {v : List Id} (hr : Rep h hd (p :: v)) : h.left p = 0 := by
  obtain ⟨t, R, hb, hs, hi⟩ := hr
  obtain ⟨k, c, s, l, r, rfl⟩ := exists_zip (x := p) t (by rw [hi]; simp)
  have hn : ([] ++ p :: v).Nodup := by rw [List.nil_append, ← hi]; exact (List.nodup_cons.1 R.shape.nodup).2
  have hi' : [] ++ p :: v = (ctxL k ++ l.ids) ++ p :: (r.ids ++ ctxR k) := by rw [List.nil_append, ← hi, ids_plug]; simp [T.ids]
  obtain ⟨e, rfl⟩ := split_unique hn hi'
  have hl : l.ids = [] := (List.append_eq_nil_iff.1 e.symm).2
  rw [R.shape.read.2.2.2.1]
  cases l with
  | nil => rfl
  | node => simp [T.ids] at hl

theorem last_right {h : Heap} {hd p : Id} {u : List Id} (hr : Rep h hd (u ++ [p])) : h.right p = 0 := by
  obtain ⟨t, R, hb, hs, hi⟩ := hr
  obtain ⟨k, c, s, l, r, rfl⟩ := exists_zip (x := p) t (by rw [hi]; simp)
  have hn : (u ++ p :: []).Nodup := by rw [← hi]; exact (List.nodup_cons.1 R.shape.nodup).2
  have hi' : u ++ p :: [] = (ctxL k ++ l.ids) ++ p :: (r.ids ++ ctxR k) := by rw [← hi, ids_plug]; simp [T.ids]
  obtain ⟨_, e⟩ := split_unique hn hi'
  have hl : r.ids = [] := (List.append_eq_nil_iff.1 e.symm).1
  rw [R.shape.read.2.2.2.2.1]
  cases r with
  | nil => rfl
  | node => simp [T.ids] at hl

/-- Of two neighbours, one has room on the side of the other. -/
theorem neighbours {h : Heap} {hd a b : Id} {u v : List Id} (hr : Rep h hd (u ++ a :: b :: v)) (ha : h.right a ≠ 0) : h.left b = 0 := by
  obtain ⟨t, R, hb, hs, hi⟩ := hr
  obtain ⟨k, c, s, l, r, rfl⟩ := exists_zip (x := a) t (by rw [hi]; simp)
  have hn : (u ++ a :: b :: v).Nodup := by rw [← hi]; exact (List.nodup_cons.1 R.shape.nodup).2
  have hi' : u ++ a :: b :: v = (ctxL k ++ l.ids) ++ a :: (r.ids ++ ctxR k) := by rw [← hi, ids_plug]; simp [T.ids]
  obtain ⟨rfl, e⟩ := split_unique hn hi'
  have hz := shape_plug.1 R.shape
  have hrd := R.shape.read
  have hr0 : 0 ∉ r.ids := by have := hz.nz; simp only [T.ids, List.mem_cons, List.mem_append, not_or] at this; tauto
  rw [hrd.2.2.2.2.1, ne_eq, root_zero hr0] at ha
  obtain ⟨k1, c1, s1, y, r1, rfl, hall, emin⟩ := minimum_spec r hz.at'.2.2.2.2.2.2 hr0 ha (Nat.le_refl _)
  have hy : y = b := by
    rw [ids_plug, allLeft_ctxL hall] at e
    simp [T.ids] at e
    exact e.1.symm
  subst hy
  have HK : Shape h hd (plug (k1 ++ ⟨.right, c, s, a, l⟩ :: k) (.node c1 s1 .nil y r1)) := by
    rw [plug_append]; exact R.shape
  exact HK.read.2.2.2.1

/-- Linking before the element that a position designates is possible on one of two sides. -/
theorem pointAt_between {h : Heap} {hd a : Id} {u v : List Id} (hr : Rep h hd (u ++ a :: v)) :
    (h.right a = 0 → PointAt h hd .right a (u ++ [a]) v) ∧
    (∀ b v', v = b :: v' → h.right a ≠ 0 → PointAt h hd .left b (u ++ [a]) v) := by
  refine ⟨pointAt_right hr, ?_⟩
  rintro b v' rfl h1
  have := neighbours hr h1
  have e : u ++ a :: b :: v' = (u ++ [a]) ++ b :: v' := by simp
  rw [e] at hr
  exact pointAt_left hr this

/-- `restore` puts the node before the remembered position. -/
theorem restore_spec {h : Heap} {hd x : Id} {u v : List Id} {N : Nat} (hr : Rep h hd (u ++ v)) (hx : x ∉ hd :: (u ++ v)) (hx0 : x ≠ 0)
    (hN : (u ++ v).length + 3 ≤ N) :
    ∃ h', restore N h x (hdOr hd v) hd = some h' ∧ Rep h' hd (u ++ x :: v) ∧ Frame h h' (hd :: x :: (u ++ v)) := by
  have hnz := rep_nz hr
  have hnd := rep_nodup hr
  have hd0 : hd ≠ 0 := fun e => hnz (by simp [e])
  unfold restore
  cases v with
  | nil =>
    have e : hdOr hd [] = hd := rfl
    rw [e]
    rw [List.append_nil] at hr
    rcases List.eq_nil_or_concat' u with rfl | ⟨w, z, rfl⟩
    · rw [if_pos (Or.inr (by rw [rep_first hr]; rfl))]
      exact link_at (pointAt_empty hr) hx hx0 hN
    · have hf := rep_first hr
      have hne : ¬ (h.left hd = 0 ∨ h.left hd = hd) := by
        rw [hf]
        rintro (q | q)
        · apply hnz
          cases w with
          | nil => have : z = 0 := q; subst this; simp
          | cons b w => have : b = 0 := q; subst this; simp
        · have hm : hd ∉ w ++ [z] := by have := (List.nodup_cons.1 (rep_nodup hr)).1; exact this
          apply hm
          cases w with
          | nil => have : z = hd := q; subst this; simp
          | cons b w => have : b = hd := q; subst this; simp
      rw [if_neg hne, decrement_end hr (by simp), List.getLastD_concat]
      have := pointAt_right hr (last_right hr)
      simpa using link_at this (by simpa using hx) hx0 (by simpa using hN)
  | cons p v =>
    have e : hdOr hd (p :: v) = p := rfl
    rw [e]
    by_cases hp : h.left p = 0
    · rw [if_pos (Or.inl hp)]
      exact link_at (pointAt_left hr hp) hx hx0 hN
    · have hne : ¬ (h.left p = 0 ∨ h.left p = hd) := by
        rintro (q | q)
        · exact hp q
        · obtain ⟨t, R, hb, hs, hi⟩ := hr
          obtain ⟨k, c, s, l, r, rfl⟩ := exists_zip (x := p) t (by rw [hi]; simp)
          rw [R.shape.read.2.2.2.1] at q hp
          have hm := root_mem hp
          have := (List.nodup_cons.1 (shape_plug.1 R.shape).nodup).1
          apply this
          rw [← q]; simp [T.ids, hm]
      have hu : u ≠ [] := by rintro rfl; exact hp (first_left hr)
      rw [if_neg hne, decrement_spec hr hu (by simpa using hN)]
      rcases List.eq_nil_or_concat' u with rfl | ⟨w, z, rfl⟩
      · exact absurd rfl hu
      · rw [List.getLastD_concat]
        have hz : h.right z = 0 := by
          by_contra hz
          have e : (w ++ [z]) ++ p :: v = w ++ z :: p :: v := by simp
          rw [e] at hr
          exact hp (neighbours hr hz)
        have e2 : (w ++ [z]) ++ p :: v = w ++ z :: p :: v := by simp
        have hr' := hr
        rw [e2] at hr'
        exact link_at (pointAt_right hr' hz) hx hx0 hN

theorem emptyInit_rep (h : Heap) {hd : Id} (h0 : hd ≠ 0) : Rep (emptyInit h hd) hd [] :=
  ⟨.nil, ⟨⟨trivial, by simp [emptyInit, T.root], by simp [T.ids], by simpa [T.ids] using h0.symm⟩, by simp [emptyInit],
    by simp [emptyInit, hdOr, T.ids], by simp [emptyInit, T.ids]⟩, ⟨trivial, 0, rfl⟩, trivial, rfl⟩

/-! ## Link points -/

theorem descend_spec {q : Id → Bool} {h : Heap} {hd : Id} (t : T) : ∀ {k : Ctx} {n : Nat} {u v : List Id},
    At h (ctxPar hd k) t → 0 ∉ t.ids → t.height + 1 ≤ n → (t.ids = u ++ v) → (∀ a ∈ u, q a = false) → (∀ a ∈ v, q a = true) →
    ∃ k', plug k t = plug k' .nil ∧ ctxL k' = ctxL k ++ u ∧ ctxR k' = v ++ ctxR k ∧
      descend q h n t.root (ctxPar hd k) (ctxSide k) = some (ctxPar hd k', ctxSide k') := by
  induction t with
  | nil =>
    intro k n u v _ _ hn e _ _
    have h2 := e.symm
    simp only [T.ids, List.append_eq_nil_iff] at h2
    obtain ⟨rfl, rfl⟩ := h2
    cases n with
    | zero => omega
    | succ n => exact ⟨k, rfl, by simp, by simp, rfl⟩
  | node c s l x r ihl ihr =>
    intro k n u v ha h0 hn e hu hv
    obtain ⟨_, _, _, hl, hr, al, ar⟩ := ha
    cases n with
    | zero => omega
    | succ n =>
      simp only [T.ids, List.mem_append, List.mem_cons, not_or] at h0
      simp only [T.height] at hn
      have hx0 : x ≠ 0 := fun h => h0.2.1 h.symm
      rw [root_node, descend, if_neg hx0]
      rcases split_node e with ⟨v', e1, rfl⟩ | ⟨u', e1, rfl⟩
      · rw [if_pos (hv x (by simp)), hl]
        obtain ⟨k', a, b, c', d⟩ := ihl (k := ⟨.left, c, s, x, r⟩ :: k) al h0.1 (n := n) (by omega) e1 hu (fun a ha => hv a (by simp [ha]))
        exact ⟨k', a, by rw [b]; simp [ctxL], by rw [c']; simp [ctxR], d⟩
      · rw [if_neg (by rw [hu x (by simp)]; simp), hr]
        obtain ⟨k', a, b, c', d⟩ := ihr (k := ⟨.right, c, s, x, l⟩ :: k) ar h0.2.2 (n := n) (by omega) e1 (fun a ha => hu a (by simp [ha])) hv
        exact ⟨k', a, by rw [b]; simp [ctxL], by rw [c']; simp [ctxR], d⟩

/-- The descent finds the link point between the elements where `q` is false and those where it is true. -/
theorem descend_point {q : Id → Bool} {h : Heap} {hd : Id} {n : Nat} {u v : List Id} (hr : Rep h hd (u ++ v))
    (hn : (u ++ v).length + 3 ≤ n) (hu : ∀ a ∈ u, q a = false) (hv : ∀ a ∈ v, q a = true) :
    ∃ pos side, descend q h n (h.parent hd) hd .left = some (pos, side) ∧ PointAt h hd side pos u v ∧
      (side = .left → pos = hdOr hd v) ∧ (side = .right → u ≠ [] ∧ pos = u.getLastD hd) := by
  obtain ⟨t, R, hb, hs, hi⟩ := hr
  obtain ⟨k', e, eL, eR, ed⟩ := descend_spec t (k := []) (hd := hd) (n := n) R.shape.at' (fun e => R.shape.nz (by simp [e]))
    (by have := height_le t; rw [hi] at this; omega) hi hu hv
  rw [R.shape.root]
  simp only [ctxL, ctxR, List.nil_append, List.append_nil, plug] at eL eR e
  subst e
  refine ⟨_, _, ed, ⟨k', R, hb, hs, rfl, rfl, eL, eR⟩, ?_, ?_⟩
  · intro hside
    rw [← eR]
    cases k' with
    | nil => rfl
    | cons f k' =>
      have hf : f.side = .left := hside
      simp [ctxR, hf, ctxPar, hdOr]
  · intro hside
    rw [← eL]
    cases k' with
    | nil => cases hside
    | cons f k' =>
      have hf : f.side = .right := hside
      simp [ctxL, hf, ctxPar]

end MI.Ord
