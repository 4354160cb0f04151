import Verif.Ord.RankLemmas
import Verif.Ord.ActsSpec
/-! Rounds of iterator steps (helper lemmas). -/
namespace MI.Ord
open MI

/-! ## Spines -/

/-- Number of nodes on the way from the root to the last node. -/
def T.rspine : T → Nat
  | .nil => 0
  | .node _ _ _ _ r => r.rspine + 1

/-- Number of nodes on the way from the root to the first node. -/
def T.lspine : T → Nat
  | .nil => 0
  | .node _ _ l _ _ => l.lspine + 1

theorem rspine_le (t : T) : t.rspine ≤ t.height := by
  induction t with
  | nil => simp [T.rspine]
  | node c s l x r ihl ihr => simp only [T.rspine, T.height]; omega

theorem lspine_le (t : T) : t.lspine ≤ t.height := by
  induction t with
  | nil => simp [T.lspine]
  | node c s l x r ihl ihr => simp only [T.lspine, T.height]; omega

theorem rb_rspine {t : T} : ∀ {n : Nat}, t.RB n → n ≤ t.rspine := by
  induction t with
  | nil => intro n h; simp only [T.RB] at h; omega
  | node c s l x r ihl ihr =>
    intro n h
    simp only [T.rspine]
    cases c with
    | red => have := ihr h.2.2.2; omega
    | black =>
      obtain ⟨m, rfl, _, hr⟩ := h
      have := ihr hr; omega

/-- A red-black tree cannot be large without being black-high. -/
theorem rb_size_le {t : T} : ∀ {n : Nat}, t.RB n → t.ids.length + 1 ≤ 2 * 4 ^ n ∧ (t.black → t.ids.length + 1 ≤ 4 ^ n) := by
  induction t with
  | nil => intro n h; simp only [T.RB] at h; subst h; simp [T.ids]
  | node c s l x r ihl ihr =>
    intro n h
    simp only [T.ids, List.length_append, List.length_cons, T.black]
    cases c with
    | red =>
      obtain ⟨bl, br, hl, hr⟩ := h
      have := (ihl hl).2 bl; have := (ihr hr).2 br
      refine ⟨by omega, fun h => by cases h⟩
    | black =>
      obtain ⟨m, rfl, hl, hr⟩ := h
      have := (ihl hl).1; have := (ihr hr).1
      rw [Nat.pow_succ]
      exact ⟨by omega, fun _ => by omega⟩

theorem maximumS_spec {h : Heap} (t : T) : ∀ {p : Id} {N : Nat}, At h p t → 0 ∉ t.ids → t ≠ .nil → t.height ≤ N →
    ∃ y, maximumS h N t.root = some (y, t.rspine - 1) := by
  induction t with
  | nil => intro p N _ _ h; exact absurd rfl h
  | node c s l x r ihl ihr =>
    intro p N ha h0 _ hN
    obtain ⟨_, _, _, hl, hr, al, ar⟩ := ha
    simp only [T.ids, List.mem_append, List.mem_cons, not_or] at h0
    simp only [T.height] at hN
    obtain ⟨N, rfl⟩ : ∃ M, N = M + 1 := ⟨N - 1, by omega⟩
    rw [root_node, maximumS, hr]
    by_cases q : r = .nil
    · subst q
      rw [if_neg (by simp [root_nil])]; exact ⟨x, rfl⟩
    · rw [if_pos (by rw [ne_eq, root_zero h0.2.2]; exact q)]
      obtain ⟨y, e⟩ := ihr ar h0.2.2 q (N := N) (by omega)
      refine ⟨y, ?_⟩
      rw [e, tick_some]
      have : 0 < r.rspine := by cases r with
        | nil => exact absurd rfl q
        | node => simp [T.rspine]
      simp only [T.rspine]
      congr 2; omega

/-! ## Increments -/

/-- Frames entered to the left. -/
def lefts : Ctx → Nat
  | [] => 0
  | f :: k => lefts k + match f.side with
    | .left => 1
    | .right => 0

/-- Frames entered to the right. -/
def rights : Ctx → Nat
  | [] => 0
  | f :: k => rights k + match f.side with
    | .left => 0
    | .right => 1

theorem lefts_rights (k : Ctx) : lefts k + rights k = k.length := by
  induction k with
  | nil => rfl
  | cons f k ih => rcases f with ⟨_ | _, c, s, x, sib⟩ <;> simp only [lefts, rights, List.length_cons] <;> omega

theorem lefts_append (a b : Ctx) : lefts (a ++ b) = lefts a + lefts b := by
  induction a with
  | nil => simp [lefts]
  | cons f k ih => simp only [List.cons_append, lefts, ih]; omega

theorem rights_append (a b : Ctx) : rights (a ++ b) = rights a + rights b := by
  induction a with
  | nil => simp [rights]
  | cons f k ih => simp only [List.cons_append, rights, ih]; omega

theorem allLeft_lefts {k : Ctx} (h : AllLeft k) : lefts k = k.length ∧ rights k = 0 := by
  induction k with
  | nil => exact ⟨rfl, rfl⟩
  | cons f k ih =>
    have h1 := h f (by simp)
    have h2 := ih (fun g hg => h g (by simp [hg]))
    simp only [lefts, rights, h1, List.length_cons, h2.1, h2.2]; simp

theorem lefts_zero {k : Ctx} : lefts k = 0 ↔ ctxR k = [] := by
  induction k with
  | nil => simp [lefts, ctxR]
  | cons f k ih => rcases f with ⟨_ | _, c, s, x, sib⟩ <;> simp [lefts, ctxR, ih]

theorem rights_zero {k : Ctx} : rights k = 0 ↔ ctxL k = [] := by
  induction k with
  | nil => simp [rights, ctxL]
  | cons f k ih => rcases f with ⟨_ | _, c, s, x, sib⟩ <;> simp [rights, ctxL, ih]

theorem rspine_plug {k : Ctx} : ∀ {t : T}, lefts k = 0 → (plug k t).rspine = rights k + t.rspine := by
  induction k with
  | nil => intro t _; simp [plug, rights]
  | cons f k ih =>
    intro t h
    rcases f with ⟨_ | _, c, s, x, sib⟩
    · simp [lefts] at h
    · simp only [lefts, Nat.add_zero] at h
      rw [plug, ih h]
      simp only [Fr.fill, T.rspine, rights]; omega

theorem climbRightS_spec {h : Heap} {hd : Id} (k : Ctx) : ∀ {t : T} {N : Nat}, RepT h hd (plug k t) → t ≠ .nil →
    k.length + 2 ≤ N → ∃ x y w, climbRightS h N t.root (ctxPar hd k) = some ((x, y), w) ∧
      (if h.right x ≠ y then y else x) = hdOr hd (ctxR k) ∧
      ((∃ k' c s l y r, plug k t = plug k' (.node c s l y r) ∧ ctxL k ++ t.ids = ctxL k' ++ l.ids ∧ ctxR k = y :: (r.ids ++ ctxR k') ∧
          w + lefts k + rights k' = 1 + lefts k' + rights k ∧ w ≤ rights k) ∨
        (lefts k = 0 ∧ rights k ≤ w ∧ w ≤ rights k + 1)) := by
  induction k with
  | nil =>
    intro t N R ht hN
    have hz := shape_plug.1 R.shape
    obtain ⟨N, rfl⟩ : ∃ M, N = M + 2 := ⟨N - 2, by simp at hN; omega⟩
    have h0 : 0 ∉ t.ids := by have := hz.nz; simp [ctxL, ctxR] at this; tauto
    have hroot : h.parent hd = t.root := R.shape.root
    cases t with
    | nil => exact absurd rfl ht
    | node c s l x r =>
      have hrd := Shape.read (k := []) R.shape
      rw [root_node] at *
      have hpar : ctxPar hd [] = hd := rfl
      rw [hpar, climbRightS]
      by_cases e : x = h.right hd
      · rw [if_pos e, climbRightS]
        have : hd ≠ h.right (h.parent hd) := by
          rw [hroot, hrd.2.2.2.2.1]
          intro e2
          by_cases q : r.root = 0
          · have := hz.nz; rw [q] at e2; rw [e2] at this; simp at this
          · have := (List.nodup_cons.1 hz.nodup).1
            apply this; rw [e2]; have := root_mem q; simp [T.ids, this]
        rw [if_neg this]
        refine ⟨_, _, _, rfl, ?_, Or.inr ⟨rfl, by simp [rights], by simp [rights]⟩⟩
        rw [hroot, if_neg (by simp [e])]; rfl
      · rw [if_neg e]
        refine ⟨_, _, _, rfl, ?_, Or.inr ⟨rfl, by simp [rights], by simp [rights]⟩⟩
        have hx : h.right x ≠ hd := by
          rw [hrd.2.2.2.2.1]
          intro e2
          by_cases q : r.root = 0
          · have := hz.nz; rw [q] at e2; rw [e2] at this; simp at this
          · have := (List.nodup_cons.1 hz.nodup).1
            apply this; rw [← e2]; have := root_mem q; simp [T.ids, this]
        rw [if_pos hx]; rfl
  | cons f k ih =>
    intro t N R ht hN
    rcases f with ⟨side, c, s, x, sib⟩
    have hz := shape_plug.1 R.shape
    obtain ⟨N, rfl⟩ : ∃ M, N = M + 1 := ⟨N - 1, by simp at hN; omega⟩
    have hpar : ctxPar hd (⟨side, c, s, x, sib⟩ :: k) = x := rfl
    rw [hpar, climbRightS]
    have h0 : 0 ∉ t.ids := by have := hz.nz; simp only [List.mem_cons, List.mem_append, not_or] at this; tauto
    have ht0 : t.root ≠ 0 := by rw [ne_eq, root_zero h0]; exact ht
    have htm := root_mem ht0
    cases side with
    | right =>
      have R' : RepT h hd (plug k (.node c s sib x t)) := R
      have hrd := R'.shape.read
      rw [if_pos hrd.2.2.2.2.1.symm, hrd.1]
      obtain ⟨a, b, w, e1, e2, e3⟩ := ih R' (by simp) (N := N) (by simp at hN ⊢; omega)
      have e1' : climbRightS h N x (ctxPar hd k) = some ((a, b), w) := e1
      rw [e1', tick_some]
      refine ⟨a, b, w + 1, rfl, e2, ?_⟩
      rcases e3 with ⟨k', c', s', l', y', r', q1, q2, q3, q4, q5⟩ | ⟨q1, q2, q3⟩
      · left
        refine ⟨k', c', s', l', y', r', q1, ?_, q3, ?_⟩
        · rw [← q2]; simp [ctxL, T.ids]
        · simp only [lefts, rights]; exact ⟨by omega, by omega⟩
      · right; simp only [lefts, rights]; omega
    | left =>
      have R' : RepT h hd (plug k (.node c s t x sib)) := R
      have hrd := R'.shape.read
      have hn := hz.nodup
      simp only [ctxL, ctxR] at hn
      have hsib : h.right x ≠ t.root := by
        rw [hrd.2.2.2.2.1]; intro e
        by_cases q : sib.root = 0
        · rw [q] at e; exact ht0 e.symm
        · have hs := root_mem q
          rw [e] at hs
          simp only [List.nodup_cons, List.nodup_append, List.mem_append, List.mem_cons] at hn
          grind
      rw [if_neg (Ne.symm hsib)]
      refine ⟨_, _, _, rfl, ?_, Or.inl ⟨k, c, s, t, x, sib, rfl, rfl, by simp [ctxR], by simp only [lefts, rights]; exact ⟨by omega, by omega⟩⟩⟩
      have : h.right t.root ≠ x := by
        cases t with
        | nil => exact absurd rfl ht
        | node c' s' l' x' r' =>
          have hr2 := Shape.read (k := ⟨.left, c, s, x, sib⟩ :: k) R.shape
          rw [root_node, hr2.2.2.2.2.1]
          intro e
          by_cases q : r'.root = 0
          · rw [q] at e; exact hrd.2.2.2.2.2.1 e.symm
          · have hs := root_mem q
            rw [e] at hs
            simp only [T.ids, List.nodup_cons, List.nodup_append, List.mem_append, List.mem_cons] at hn
            grind
      rw [if_pos this]; rfl

/-- `++it`: its rounds are told by the numbers of left and right turns on the ways to the two nodes. -/
theorem inc_zip {h : Heap} {hd x : Id} {k : Ctx} {c : Color} {s : Nat} {l r : T} {N : Nat} (R : RepT h hd (plug k (.node c s l x r)))
    (hN : (plug k (.node c s l x r)).ids.length + 3 ≤ N) :
    (∃ k' c' s' l' y r' w, incrementS h N x = some (y, w) ∧ plug k (.node c s l x r) = plug k' (.node c' s' l' y r') ∧
        ctxL k' ++ l'.ids = ctxL k ++ l.ids ++ [x] ∧ w + lefts k + rights k' = 1 + lefts k' + rights k ∧
        ((r = .nil ∧ w ≤ rights k) ∨ w + 1 ≤ r.height)) ∨
      (∃ w, incrementS h N x = some (hd, w) ∧ r = .nil ∧ lefts k = 0 ∧ rights k ≤ w ∧ w ≤ rights k + 1) := by
  have hz := shape_plug.1 R.shape
  have hrd := R.shape.read
  have hr0 : 0 ∉ r.ids := by have := hz.nz; simp only [T.ids, List.mem_cons, List.mem_append, not_or] at this; tauto
  have hlen : (plug k (.node c s l x r)).ids.length = (ctxL k).length + (l.ids.length + 1 + r.ids.length) + (ctxR k).length := by
    rw [ids_plug]; simp [T.ids]; omega
  have hk := ctx_length k
  simp only [ctxIds, List.length_append] at hk
  unfold incrementS
  by_cases q : r = .nil
  · subst q
    rw [if_neg (by rw [hrd.2.2.2.2.1]; simp [root_nil]), hrd.1]
    obtain ⟨a, b, w, e1, e2, e3⟩ := climbRightS_spec (N := N) k R (by simp) (by omega)
    have e1' : climbRightS h N x (ctxPar hd k) = some ((a, b), w) := e1
    rw [e1']
    dsimp only
    rw [e2]
    rcases e3 with ⟨k', c', s', l', y', r', q1, q2, q3, q4, q5⟩ | ⟨q1, q2, q3⟩
    · left
      refine ⟨k', c', s', l', y', r', w, by rw [q3]; rfl, q1, ?_, q4, Or.inl ⟨rfl, q5⟩⟩
      rw [← q2]; simp [T.ids]
    · right
      exact ⟨w, by rw [lefts_zero.1 q1]; rfl, rfl, q1, q2, q3⟩
  · left
    obtain ⟨k1, c1, s1, y, r1, e1, e2, e3⟩ := minimumS_spec r hz.at'.2.2.2.2.2.2 hr0 q (N := N) (by omega)
    rw [if_pos (by rw [hrd.2.2.2.2.1, ne_eq, root_zero hr0]; exact q), hrd.2.2.2.2.1, e3]
    refine ⟨k1 ++ ⟨.right, c, s, x, l⟩ :: k, c1, s1, .nil, y, r1, k1.length, rfl, ?_, ?_, ?_, ?_⟩
    · rw [plug_append, ← e1]; rfl
    · rw [ctxL_append, allLeft_ctxL e2]; simp [ctxL, T.ids]
    · rw [lefts_append, rights_append, (allLeft_lefts e2).1, (allLeft_lefts e2).2]
      simp only [lefts, rights]; omega
    · right
      have := ctx_height k1 (.node c1 s1 .nil y r1)
      rw [← e1] at this
      simp only [T.height] at this
      omega

theorem advance_zip {h : Heap} {hd : Id} {N : Nat} : ∀ (m : Nat) {x : Id} {k : Ctx} {c : Color} {s : Nat} {l r : T},
    RepT h hd (plug k (.node c s l x r)) → (plug k (.node c s l x r)).ids.length + 3 ≤ N → m ≤ (r.ids ++ ctxR k).length →
    ∃ k' c' s' l' y r' w, advanceS h N m x = some (y, w) ∧ plug k (.node c s l x r) = plug k' (.node c' s' l' y r') ∧
      (ctxL k' ++ l'.ids).length = (ctxL k ++ l.ids).length + m ∧ w + lefts k + rights k' = m + lefts k' + rights k := by
  intro m
  induction m with
  | zero => intro x k c s l r _ _ _; exact ⟨k, c, s, l, x, r, 0, rfl, rfl, rfl, by omega⟩
  | succ m ih =>
    intro x k c s l r R hN hm
    rcases inc_zip R hN with ⟨k', c', s', l', y, r', w, e1, e2, e3, e4, e5⟩ | ⟨w, e1, rfl, q, _⟩
    · have e3l := congrArg List.length e3
      have e2l := congrArg (fun t => t.ids.length) e2
      simp only [ids_plug, T.ids, List.length_append, List.length_cons, List.length_nil] at e3l e2l hm
      rw [e2] at R hN
      obtain ⟨k2, c2, s2, l2, y2, r2, w2, f1, f2, f3, f4⟩ := ih R hN (by simp only [List.length_append]; omega)
      refine ⟨k2, c2, s2, l2, y2, r2, w + w2, by simp only [advanceS, e1, f1]; rfl, e2.trans f2, ?_, by omega⟩
      rw [f3, e3]; simp; omega
    · simp [T.ids, lefts_zero.1 q] at hm

theorem zip_at {h : Heap} {hd x : Id} {u v : List Id} (hr : Rep h hd (u ++ x :: v)) :
    ∃ k c s l r, RepT h hd (plug k (.node c s l x r)) ∧ RBTree (plug k (.node c s l x r)) ∧ (plug k (.node c s l x r)).ids = u ++ x :: v ∧
      u = ctxL k ++ l.ids ∧ v = r.ids ++ ctxR k := by
  obtain ⟨t, R, hb, hs, hi⟩ := hr
  obtain ⟨k, c, s, l, r, rfl⟩ := exists_zip (x := x) t (by rw [hi]; simp)
  have hn : (u ++ x :: v).Nodup := by rw [← hi]; exact (List.nodup_cons.1 R.shape.nodup).2
  have hi' : u ++ x :: v = (ctxL k ++ l.ids) ++ x :: (r.ids ++ ctxR k) := by rw [← hi, ids_plug]; simp [T.ids]
  obtain ⟨e1, e2⟩ := split_unique hn hi'
  exact ⟨k, c, s, l, r, R, hb, hi, e1, e2⟩

theorem zip_height {k : Ctx} {c : Color} {s : Nat} {l r : T} {x : Id} (hb : RBTree (plug k (.node c s l x r))) {n : Nat}
    (hn : (plug k (.node c s l x r)).ids.length = n) : lefts k + rights k + 1 ≤ 2 * Nat.log2 (n + 1) := by
  have h1 := ctx_height k (.node c s l x r)
  have h2 := rb_height hb
  have h3 := lefts_rights k
  rw [hn] at h2
  simp only [T.height] at h1
  omega

/-- One `++it` takes a logarithmic number of rounds. -/
theorem incrementS_le {h : Heap} {hd x : Id} {u v : List Id} {N : Nat} (hr : Rep h hd (u ++ x :: v)) (hN : (u ++ x :: v).length + 3 ≤ N) :
    ∃ w, incrementS h N x = some (hdOr hd v, w) ∧ w ≤ 2 * Nat.log2 ((u ++ x :: v).length + 1) := by
  have hi := increment_spec hr hN
  obtain ⟨k, c, s, l, r, R, hb, hi', rfl, rfl⟩ := zip_at hr
  have hh := zip_height hb rfl
  rw [← hi'] at hN ⊢
  rw [← incrementS_fst] at hi
  rcases inc_zip R hN with ⟨k', c', s', l', y, r', w, e1, e2, e3, e4, e5⟩ | ⟨w, e1, rfl, q, _⟩
  · rw [e1] at hi ⊢
    simp only [Option.map_some, Option.some.injEq] at hi
    subst hi
    refine ⟨w, rfl, ?_⟩
    rcases e5 with ⟨rfl, q⟩ | q
    · omega
    · have h1 := ctx_height k (.node c s l x r)
      have h2 := rb_height hb
      simp only [T.height] at h1
      omega
  · rw [e1] at hi ⊢
    rw [lefts_zero.1 q]
    exact ⟨w, rfl, by omega⟩

/-- `++begin()` takes at most one. -/
theorem incrementS_first {h : Heap} {hd x : Id} {v : List Id} {N : Nat} (hr : Rep h hd (x :: v)) (hN : (x :: v).length + 3 ≤ N) :
    ∃ w, incrementS h N x = some (hdOr hd v, w) ∧ w ≤ 1 := by
  have hi := increment_spec (u := []) hr hN
  obtain ⟨k, c, s, l, r, R, hb, hi', e, rfl⟩ := zip_at (u := []) hr
  obtain ⟨k0, l0⟩ := List.append_eq_nil_iff.1 e.symm
  have l0 : l = .nil := by cases l with
    | nil => rfl
    | node => simp [T.ids] at l0
  subst l0
  rw [List.nil_append] at hi'
  rw [← hi'] at hN
  rw [← incrementS_fst] at hi
  have hk := rights_zero.2 k0
  rcases inc_zip R hN with ⟨k', c', s', l', y, r', w, e1, e2, e3, e4, e5⟩ | ⟨w, e1, rfl, q, q1, q2⟩
  · rw [e1] at hi ⊢
    simp only [Option.map_some, Option.some.injEq] at hi
    subst hi
    refine ⟨w, rfl, ?_⟩
    rcases e5 with ⟨rfl, q⟩ | q
    · omega
    · have : r.height ≤ 1 := rb_leaf hb (Or.inl ⟨rfl, rfl⟩)
      omega
  · rw [e1]
    rw [lefts_zero.1 q]
    exact ⟨w, rfl, by omega⟩

/-- `++it` from the last element climbs from there to the root. -/
theorem incrementS_last {h : Heap} {hd x : Id} {u : List Id} {N b : Nat} (hr : Rep h hd (u ++ [x])) (hN : (u ++ [x]).length + 3 ≤ N)
    (hb : 4 ^ b ≤ (u ++ [x]).length) : ∃ w, incrementS h N x = some (hd, w) ∧ b ≤ w := by
  have hi := increment_spec hr hN
  obtain ⟨k, c, s, l, r, R, hrb, hi', rfl, e⟩ := zip_at hr
  obtain ⟨r0, k0⟩ := List.append_eq_nil_iff.1 e.symm
  rw [← hi'] at hN hb
  rw [← incrementS_fst] at hi
  rcases inc_zip R hN with ⟨k', c', s', l', y, r', w, e1, e2, e3, e4, e5⟩ | ⟨w, e1, rfl, q, q1, q2⟩
  · exfalso
    have e2l := congrArg T.ids e2
    have e3l := congrArg List.length e3
    rw [hi'] at e2l
    have e2l := congrArg List.length e2l
    simp only [ids_plug, T.ids, List.length_append, List.length_cons, List.length_nil] at e2l e3l
    omega
  · refine ⟨w, e1, ?_⟩
    obtain ⟨hbl, n, hn⟩ := hrb
    have h1 := (rb_size_le hn).2 hbl
    have h2 := rb_rspine hn
    rw [rspine_plug q] at h2
    simp only [T.rspine] at h2
    have : b < n := by
      by_contra hlt
      have := Nat.pow_le_pow_right (n := 4) (by omega) (Nat.le_of_not_lt hlt)
      omega
    omega

/-! ## Decrements -/

theorem climbLeftS_spec {h : Heap} {hd : Id} (k : Ctx) : ∀ {t : T} {N : Nat}, RepT h hd (plug k t) → t ≠ .nil → ctxL k ≠ [] →
    k.length ≤ N → ∃ y w, climbLeftS h N t.root (ctxPar hd k) = some (y, w) ∧ w < k.length := by
  induction k with
  | nil => intro t N _ _ h; exact absurd rfl h
  | cons f k ih =>
    intro t N R ht hL hN
    rcases f with ⟨side, c, s, x, sib⟩
    have hz := shape_plug.1 R.shape
    obtain ⟨N, rfl⟩ : ∃ M, N = M + 1 := ⟨N - 1, by simp at hN; omega⟩
    have hpar : ctxPar hd (⟨side, c, s, x, sib⟩ :: k) = x := rfl
    rw [hpar, climbLeftS]
    have h0 : 0 ∉ t.ids := by have := hz.nz; simp only [List.mem_cons, List.mem_append, not_or] at this; tauto
    have ht0 : t.root ≠ 0 := by rw [ne_eq, root_zero h0]; exact ht
    have htm := root_mem ht0
    cases side with
    | left =>
      have R' : RepT h hd (plug k (.node c s t x sib)) := R
      have hrd := R'.shape.read
      rw [if_pos hrd.2.2.2.1.symm, hrd.1]
      obtain ⟨y, w, e, q⟩ := ih R' (by simp) hL (N := N) (by simp at hN ⊢; omega)
      have e' : climbLeftS h N x (ctxPar hd k) = some (y, w) := e
      rw [e', tick_some]
      exact ⟨y, w + 1, rfl, by simp only [List.length_cons]; omega⟩
    | right =>
      have R' : RepT h hd (plug k (.node c s sib x t)) := R
      have hrd := R'.shape.read
      have hn := hz.nodup
      simp only [ctxL, ctxR] at hn
      have hsib : h.left x ≠ t.root := by
        rw [hrd.2.2.2.1]; intro e
        by_cases q : sib.root = 0
        · rw [q] at e; exact ht0 e.symm
        · have hs := root_mem q
          rw [e] at hs
          simp only [List.nodup_cons, List.nodup_append, List.mem_append, List.mem_cons] at hn
          grind
      rw [if_neg (Ne.symm hsib)]
      exact ⟨x, 0, rfl, by simp⟩

theorem decrementS_end {h : Heap} {hd : Id} {xs : List Id} {N : Nat} (hr : Rep h hd xs) (hx : xs ≠ []) :
    decrementS h N hd = some (xs.getLastD hd, 0) := by
  obtain ⟨t, R, hb, hs, rfl⟩ := hr
  unfold decrementS
  rw [if_pos, R.last]
  refine ⟨R.color, ?_⟩
  cases t with
  | nil => exact absurd rfl hx
  | node c s l x r => rw [R.shape.root, root_node]; exact (Shape.read (k := []) R.shape).1

theorem not_header {h : Heap} {hd x : Id} {k : Ctx} {c : Color} {s : Nat} {l r : T} (R : RepT h hd (plug k (.node c s l x r)))
    (hb : RBTree (plug k (.node c s l x r))) : ¬ (h.color x = .red ∧ h.parent (h.parent x) = x) := by
  have hz := shape_plug.1 R.shape
  have hrd := R.shape.read
  rintro ⟨hc, hp⟩
  rw [hrd.1] at hp
  rw [hrd.2.1] at hc
  subst hc
  cases k with
  | nil => exact absurd hb.1 (by simp [plug, T.black])
  | cons f k =>
    rcases f with ⟨side, fc, fs, fx, sib⟩
    have hp2 : h.parent fx = ctxPar hd k := by
      cases side
      · exact (Shape.read (k := k) (x := fx) R.shape).1
      · exact (Shape.read (k := k) (x := fx) R.shape).1
    have hp' : h.parent fx = x := hp
    rw [hp2] at hp'
    have hn2 := hz.nodup
    rcases ctxPar_mem (hd := hd) k with e | e
    · rw [e] at hp'; exact hrd.2.2.2.2.2.2 hp'.symm
    · rw [hp'] at e
      have e' := (ctxIds_cons (f := ⟨side, fc, fs, fx, sib⟩) x).2 (Or.inr (Or.inr e))
      simp only [ctxIds, List.mem_append] at e'
      simp only [T.ids, List.nodup_cons, List.nodup_append, List.mem_append, List.mem_cons] at hn2
      grind

/-- One `--it` takes a logarithmic number of rounds. -/
theorem decrementS_le {h : Heap} {hd x : Id} {u v : List Id} {N : Nat} (hr : Rep h hd (u ++ x :: v)) (hu : u ≠ [])
    (hN : (u ++ x :: v).length + 3 ≤ N) :
    ∃ w, decrementS h N x = some (u.getLastD hd, w) ∧ w ≤ 2 * Nat.log2 ((u ++ x :: v).length + 1) := by
  have hi := decrement_spec hr hu hN
  rw [← decrementS_fst] at hi
  obtain ⟨k, c, s, l, r, R, hb, hi', rfl, rfl⟩ := zip_at hr
  have hz := shape_plug.1 R.shape
  have hrd := R.shape.read
  have hl0 : 0 ∉ l.ids := by have := hz.nz; simp only [T.ids, List.mem_cons, List.mem_append, not_or] at this; tauto
  have h1 := ctx_height k (.node c s l x r)
  have h2 := rb_height hb
  simp only [T.height] at h1
  rw [hi'] at h2
  have h3 := log_le (ctxL k ++ l.ids ++ x :: (r.ids ++ ctxR k)).length
  have key : ∃ y w, decrementS h N x = some (y, w) ∧ w ≤ 2 * Nat.log2 ((ctxL k ++ l.ids ++ x :: (r.ids ++ ctxR k)).length + 1) := by
    unfold decrementS
    rw [if_neg (not_header R hb)]
    by_cases q : l = .nil
    · subst q
      rw [if_neg (by rw [hrd.2.2.2.1]; simp [root_nil]), hrd.1]
      obtain ⟨y, w, e, q⟩ := climbLeftS_spec (N := N) k R (by simp) (by simpa [T.ids] using hu) (by omega)
      exact ⟨y, w, e, by omega⟩
    · rw [if_pos (by rw [hrd.2.2.2.1, ne_eq, root_zero hl0]; exact q), hrd.2.2.2.1]
      obtain ⟨y, e⟩ := maximumS_spec l hz.at'.2.2.2.2.2.1 hl0 q (N := N) (by omega)
      have := rspine_le l
      exact ⟨y, _, e, by omega⟩
  obtain ⟨y, w, e, q⟩ := key
  rw [e] at hi
  simp only [Option.map_some, Option.some.injEq] at hi
  subst hi
  exact ⟨w, e, q⟩

/-- Some element, the root, has its predecessor deep below it. -/
theorem decrementS_root {h : Heap} {hd : Id} {xs : List Id} {N b : Nat} (hr : Rep h hd xs) (hN : xs.length + 3 ≤ N) (hb : 4 ^ (b + 2) ≤ xs.length) :
    ∃ u x v w, xs = u ++ x :: v ∧ u ≠ [] ∧ v ≠ [] ∧ decrementS h N x = some (u.getLastD hd, w) ∧ b ≤ w := by
  obtain ⟨t, R, hrb, hs, rfl⟩ := hr
  have hr : Rep h hd t.ids := ⟨t, R, hrb, hs, rfl⟩
  obtain ⟨hbl, n, hn⟩ := id hrb
  have h1 := (rb_size_le hn).2 hbl
  have h2 : b + 2 < n := by
    by_contra hlt
    have := Nat.pow_le_pow_right (n := 4) (by omega) (Nat.le_of_not_lt hlt)
    omega
  cases t with
  | nil => simp only [T.RB] at hn; omega
  | node c s l x r =>
    cases (show c = .black from hbl)
    obtain ⟨m, rfl, hl, hr'⟩ := hn
    have hz := shape_plug (k := []).1 R.shape
    have hrd := Shape.read (k := []) R.shape
    have hl0 : 0 ∉ l.ids := by have := hz.nz; simp only [T.ids, List.mem_cons, List.mem_append, not_or] at this; tauto
    have ne : ∀ t : T, t.RB m → t ≠ .nil := by
      rintro t ht rfl
      simp only [T.RB] at ht; omega
    have nei : ∀ t : T, t.RB m → t.ids ≠ [] := by
      intro t ht
      cases t with
      | nil => exact absurd rfl (ne _ ht)
      | node => simp [T.ids]
    have hd' : ∃ y w, decrementS h N x = some (y, w) ∧ b ≤ w := by
      unfold decrementS
      rw [if_neg (not_header (k := []) R hrb), if_pos (by rw [hrd.2.2.2.1, ne_eq, root_zero hl0]; exact ne _ hl), hrd.2.2.2.1]
      have h4 := height_le l
      simp only [T.ids, List.length_append, List.length_cons] at hN
      obtain ⟨y, e⟩ := maximumS_spec l hz.at'.2.2.2.2.2.1 hl0 (ne _ hl) (N := N) (by omega)
      have := rb_rspine hl
      exact ⟨y, _, e, by omega⟩
    obtain ⟨y, w, e, q⟩ := hd'
    have hi := decrement_spec (u := l.ids) (v := r.ids) hr (nei _ hl) hN
    rw [← decrementS_fst, e] at hi
    simp only [Option.map_some, Option.some.injEq] at hi
    subst hi
    exact ⟨l.ids, x, r.ids, w, rfl, nei _ hl, nei _ hr', e, q⟩

/-! ## Linking -/

theorem linkP_at {h : Heap} {hd x pos : Id} {side : Side} {u v : List Id} {N P : Nat} (hr : RepP h hd (u ++ v) P) (hp : PointAt h hd side pos u v)
    (hx : x ∉ hd :: (u ++ v)) (hx0 : x ≠ 0) (hN : (u ++ v).length + 3 ≤ N) :
    ∃ h' f P', linkS N h x side pos hd = some (h', f) ∧ RepP h' hd (u ++ x :: v) P' ∧ f + P' ≤ P + 5 ∧
      f ≤ 2 * Nat.log2 ((u ++ v).length + 1) + 1 := by
  obtain ⟨k, R, hb, hs, rfl, rfl, rfl, rfl⟩ := hp
  have hi : (plug k .nil).ids = ctxL k ++ ctxR k := by rw [ids_plug]; simp [T.ids]
  rw [← hi] at hx
  have hk := ctx_length k
  simp only [ctxIds] at hk
  obtain ⟨h', f, P', a, b, -, c, d⟩ := linkS_spec (N := N) R hb hs hx hx0 (by omega)
  rw [hr.tree R.shape] at c
  have h1 := ctx_height k .nil
  have h2 := rb_height hb
  rw [hi] at h2
  exact ⟨h', f, P', a, b, c, by omega⟩

theorem extractP_at {h : Heap} {hd z : Id} {u v : List Id} {N P : Nat} (hr : RepP h hd (u ++ z :: v) P) (hN : (u ++ z :: v).length + 3 ≤ N) :
    ∃ h' w f P', extractS N h hd z = some (h', ⟨w, f⟩) ∧ RepP h' hd (u ++ v) P' ∧ f + P' ≤ P + 7 ∧
      w ≤ 2 * Nat.log2 ((u ++ z :: v).length + 1) ∧ f ≤ 2 * Nat.log2 ((u ++ z :: v).length + 1) + 2 ∧ (u = [] ∨ v = [] → w = 0) := by
  have hr' := hr
  obtain ⟨h', w, f, P', e, q1, -, q3, q4, q5⟩ := repP_extract hr hN
  obtain ⟨t, R, hb, hs, hi, -⟩ := hr'
  have h1 := rb_height hb
  rw [hi] at h1
  have h2 := q4 t R.shape
  refine ⟨h', w, f, P', e, q1, q3, by omega, by omega, ?_⟩
  rintro (rfl | rfl)
  · exact q5 (Or.inl (first_left hr.rep))
  · exact q5 (Or.inr (last_right hr.rep))

end MI.Ord
