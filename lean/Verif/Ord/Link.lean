import Verif.Ord.Insert
/-! Linking of a new node (helper lemmas). -/
namespace MI.Ord
open MI

/-- Only `size` fields of nodes in `xs` differ. -/
def SizeOnly (xs : List Id) (h h' : Heap) : Prop :=
  h'.parent = h.parent ∧ h'.left = h.left ∧ h'.right = h.right ∧ h'.color = h.color ∧ ∀ z, z ∉ xs → h'.size z = h.size z

theorem SizeOnly.trans {xs : List Id} {h h' h'' : Heap} (a : SizeOnly xs h h') (b : SizeOnly xs h' h'') : SizeOnly xs h h'' :=
  ⟨b.1.trans a.1, b.2.1.trans a.2.1, b.2.2.1.trans a.2.2.1, b.2.2.2.1.trans a.2.2.2.1,
    fun z hz => (b.2.2.2.2 z hz).trans (a.2.2.2.2 z hz)⟩

theorem SizeOnly.frame {hd : Id} {xs : List Id} {h h' : Heap} (a : SizeOnly xs h h') : Frame h h' (hd :: xs) := by
  intro z hz
  refine ⟨by rw [a.1], by rw [a.2.1], by rw [a.2.2.1], by rw [a.2.2.2.1], a.2.2.2.2 z (fun h => hz (by simp [h]))⟩

theorem Shape.resize {hd : Id} {h : Heap} {k : Ctx} {c : Color} {s : Nat} {l r : T} {x : Id}
    (H : Shape h hd (plug k (.node c s l x r))) (s' : Nat) : Shape (h.setSize x s') hd (plug k (.node c s' l x r)) := by
  rw [shape_plug] at H ⊢
  obtain ⟨⟨a1, a2, a3, a4, a5, a6, a7⟩, b, c, d⟩ := H
  have hn := c
  simp only [T.ids, List.mem_append, List.nodup_cons, List.nodup_append, List.mem_cons] at hn
  have hs : ∀ z, z ≠ x → SameAt h (h.setSize x s') z := by intro z hz; simp [SameAt, upd, hz]
  refine ⟨⟨a1, a2, by simp [upd], a4, a5, ?_, ?_⟩, ?_, c, d⟩
  · refine at_congr _ (fun z hz => hs z ?_) a6
    rintro rfl; grind
  · refine at_congr _ (fun z hz => hs z ?_) a7
    rintro rfl; grind
  · refine atCtx_congr k (fun z hz => hs z ?_) rfl b
    simp only [ctxIds, List.mem_append] at hz
    rintro rfl; grind

/-- Change all sizes along a path. -/
def mapS (g : Nat → Nat) (k : Ctx) : Ctx := k.map (fun f => { f with s := g f.s })

@[simp] theorem mapS_nil (g : Nat → Nat) : mapS g [] = [] := rfl
@[simp] theorem mapS_cons (g : Nat → Nat) (f : Fr) (k : Ctx) : mapS g (f :: k) = { f with s := g f.s } :: mapS g k := rfl
@[simp] theorem mapS_par (g : Nat → Nat) (hd : Id) (k : Ctx) : ctxPar hd (mapS g k) = ctxPar hd k := by cases k <;> rfl
@[simp] theorem mapS_L (g : Nat → Nat) (k : Ctx) : ctxL (mapS g k) = ctxL k := by
  induction k with
  | nil => rfl
  | cons f k ih => simp [ctxL, ih]
@[simp] theorem mapS_R (g : Nat → Nat) (k : Ctx) : ctxR (mapS g k) = ctxR k := by
  induction k with
  | nil => rfl
  | cons f k ih => simp [ctxR, ih]
theorem mapS_CRB (g : Nat → Nat) (k : Ctx) : ∀ n, CRB (mapS g k) n ↔ CRB k n := by
  induction k with
  | nil => intro n; rfl
  | cons f k ih =>
    intro n
    rcases f with ⟨side, c, s, x, sib⟩
    cases c
    · simp only [mapS_cons, CRB, ih]
      have : mustBlack (mapS g k) ↔ mustBlack k := by cases k <;> rfl
      rw [this]
    · simp only [mapS_cons, CRB, ih]
theorem mapS_pot (g : Nat → Nat) (k : Ctx) : ∀ b, ctxPot (mapS g k) b = ctxPot k b := by
  induction k with
  | nil => intro b; rfl
  | cons f k ih => intro b; simp only [mapS_cons, ctxPot, ih]
@[simp] theorem mapS_length (g : Nat → Nat) (k : Ctx) : (mapS g k).length = k.length := by simp [mapS]
@[simp] theorem mapS_append (g : Nat → Nat) (k k' : Ctx) : mapS g (k ++ k') = mapS g k ++ mapS g k' := by simp [mapS]

theorem addGo_spec {hd : Id} (k : Ctx) : ∀ {h : Heap} {t : T} {N : Nat}, Shape h hd (plug k t) → t.root ≠ 0 → k.length < N →
    ∃ h', addGo (h.parent hd) N h t.root = some h' ∧ Shape h' hd (plug (mapS (· + 1) k) t) ∧ SizeOnly (plug k t).ids h h' := by
  induction k with
  | nil =>
    intro h t N H hr hN
    obtain ⟨N, rfl⟩ : ∃ M, N = M + 1 := ⟨N - 1, by simp at hN; omega⟩
    refine ⟨h, ?_, H, rfl, rfl, rfl, rfl, fun _ _ => rfl⟩
    have := (H.root_iff (k := [])).2 rfl
    rw [addGo, if_neg (by rw [this]; simp)]
  | cons f k ih =>
    intro h t N H hr hN
    simp only [List.length_cons] at hN
    obtain ⟨N, rfl⟩ : ∃ M, N = M + 1 := ⟨N - 1, by omega⟩
    have hne : t.root ≠ h.parent hd := fun e => by
      have := (H.root_iff).1 e; cases this
    have hp : h.parent t.root = f.x := by
      cases t with
      | nil => exact absurd rfl hr
      | node c s l x r => exact H.read.1
    rw [addGo, if_pos hne]
    simp only [hp]
    have H2 : Shape (h.setSize f.x (h.size f.x + 1)) hd (plug k (Fr.fill { f with s := f.s + 1 } t)) ∧ f.x ≠ 0 := by
      rcases f with ⟨side, c, s, x, sib⟩
      cases side
      · have := Shape.read (k := k) (h := h) (x := x) H
        rw [this.2.2.1]
        exact ⟨Shape.resize (k := k) H (s + 1), this.2.2.2.2.2.1⟩
      · have := Shape.read (k := k) (h := h) (x := x) H
        rw [this.2.2.1]
        exact ⟨Shape.resize (k := k) H (s + 1), this.2.2.2.2.2.1⟩
    obtain ⟨H2, hfx⟩ := H2
    have e := fill_root { f with s := f.s + 1 } t
    obtain ⟨h', e1, H3, so⟩ := ih H2 (by rw [e]; exact hfx) (N := N) (by omega)
    rw [e] at e1
    refine ⟨h', e1, H3, ?_⟩
    have hids : (plug k (Fr.fill { f with s := f.s + 1 } t)).ids = (plug (f :: k) t).ids := by
      rw [plug, ids_plug, ids_plug]
      rcases f with ⟨side, c, s, x, sib⟩
      cases side <;> rfl
    rw [hids] at so
    refine SizeOnly.trans (h' := h.setSize f.x (h.size f.x + 1)) ⟨rfl, rfl, rfl, rfl, fun z hz => ?_⟩ so
    have : z ≠ f.x := by
      rintro rfl; apply hz
      rw [ids_plug]
      have := (ctxIds_cons (f := f) (k := k) f.x).2 (Or.inl rfl)
      simp only [ctxIds, List.mem_append] at this ⊢
      tauto
    simp [upd, this]

theorem augRemove_spec {hd : Id} (k : Ctx) : ∀ {h : Heap} {t : T} {N : Nat}, Shape h hd (plug k t) → t.root ≠ 0 → k.length < N →
    ∃ h', augRemove (h.parent hd) N h t.root = some h' ∧ Shape h' hd (plug (mapS (· - 1) k) t) ∧ SizeOnly (plug k t).ids h h' := by
  induction k with
  | nil =>
    intro h t N H hr hN
    obtain ⟨N, rfl⟩ : ∃ M, N = M + 1 := ⟨N - 1, by simp at hN; omega⟩
    refine ⟨h, ?_, H, rfl, rfl, rfl, rfl, fun _ _ => rfl⟩
    have := (H.root_iff (k := [])).2 rfl
    rw [augRemove, if_neg (by rw [this]; simp)]
  | cons f k ih =>
    intro h t N H hr hN
    simp only [List.length_cons] at hN
    obtain ⟨N, rfl⟩ : ∃ M, N = M + 1 := ⟨N - 1, by omega⟩
    have hne : t.root ≠ h.parent hd := fun e => by
      have := (H.root_iff).1 e; cases this
    have hp : h.parent t.root = f.x := by
      cases t with
      | nil => exact absurd rfl hr
      | node c s l x r => exact H.read.1
    rw [augRemove, if_pos hne]
    simp only [hp]
    have H2 : Shape (h.setSize f.x (h.size f.x - 1)) hd (plug k (Fr.fill { f with s := f.s - 1 } t)) ∧ f.x ≠ 0 := by
      rcases f with ⟨side, c, s, x, sib⟩
      cases side
      · have := Shape.read (k := k) (h := h) (x := x) H
        rw [this.2.2.1]
        exact ⟨Shape.resize (k := k) H (s - 1), this.2.2.2.2.2.1⟩
      · have := Shape.read (k := k) (h := h) (x := x) H
        rw [this.2.2.1]
        exact ⟨Shape.resize (k := k) H (s - 1), this.2.2.2.2.2.1⟩
    obtain ⟨H2, hfx⟩ := H2
    have e := fill_root { f with s := f.s - 1 } t
    obtain ⟨h', e1, H3, so⟩ := ih H2 (by rw [e]; exact hfx) (N := N) (by omega)
    rw [e] at e1
    refine ⟨h', e1, H3, ?_⟩
    have hids : (plug k (Fr.fill { f with s := f.s - 1 } t)).ids = (plug (f :: k) t).ids := by
      rw [plug, ids_plug, ids_plug]
      rcases f with ⟨side, c, s, x, sib⟩
      cases side <;> rfl
    rw [hids] at so
    refine SizeOnly.trans (h' := h.setSize f.x (h.size f.x - 1)) ⟨rfl, rfl, rfl, rfl, fun z hz => ?_⟩ so
    have : z ≠ f.x := by
      rintro rfl; apply hz
      rw [ids_plug]
      have := (ctxIds_cons (f := f) (k := k) f.x).2 (Or.inl rfl)
      simp only [ctxIds, List.mem_append] at this ⊢
      tauto
    simp [upd, this]

theorem csized_inc (k : Ctx) : ∀ {n}, CSized k n → CSized (mapS (· + 1) k) (n + 1) := by
  induction k with
  | nil => intros; trivial
  | cons f k ih => intro n h; exact ⟨by show f.s + 1 = n + 1 + f.sib.ids.length + 1; have := h.1; omega, h.2.1, ih h.2.2⟩

theorem csized_dec (k : Ctx) : ∀ {n}, CSized k (n + 1) → CSized (mapS (· - 1) k) n := by
  induction k with
  | nil => intros; trivial
  | cons f k ih =>
    intro n h
    refine ⟨by show f.s - 1 = n + f.sib.ids.length + 1; have := h.1; omega, h.2.1, ih ?_⟩
    have : f.s - 1 + 1 = f.s := by have := h.1; omega
    rw [this]; exact h.2.2

/-- The side on which the hole hangs (the header's hole counts as left). -/
def ctxSide : Ctx → Side
  | [] => .left
  | f :: _ => f.side

/-- The assignments of `link` before rebalancing: ord_index_node.hpp:392-407. -/
def linkLinks (h : Heap) (x : Id) (side : Side) (position hd : Id) : Heap :=
  let h :=
    match side with
    | .left =>
      let h := h.setLeft position x
      if position = hd then (h.setParent hd x).setRight hd x
      else if position = h.left hd then h.setLeft hd x
      else h
    | .right =>
      let h := h.setRight position x
      if position = h.right hd then h.setRight hd x else h
  let h := h.setParent x position
  let h := h.setLeft x 0
  h.setRight x 0

theorem link_eq (n : Nat) (h : Heap) (x : Id) (side : Side) (position hd : Id) :
    link n h x side position hd =
      match augAdd n (linkLinks h x side position hd) x ((linkLinks h x side position hd).parent hd) with
      | none => none
      | some h => rebalance n h hd x := rfl

theorem linkS_eq (n : Nat) (h : Heap) (x : Id) (side : Side) (position hd : Id) :
    linkS n h x side position hd =
      match augAdd n (linkLinks h x side position hd) x ((linkLinks h x side position hd).parent hd) with
      | none => none
      | some h => rebalanceS n h hd x := rfl

theorem split_unique {p : Id} {u v u' v' : List Id} (hn : (u ++ p :: v).Nodup) (e : u ++ p :: v = u' ++ p :: v') : u = u' ∧ v = v' := by
  have hn' := hn
  rw [e] at hn'
  induction u generalizing u' with
  | nil =>
    cases u' with
    | nil => simp at e; exact ⟨rfl, e⟩
    | cons a u' =>
      simp only [List.nil_append, List.cons_append, List.cons.injEq] at e
      obtain ⟨rfl, rfl⟩ := e
      simp at hn
  | cons a u ih =>
    cases u' with
    | nil =>
      simp only [List.nil_append, List.cons_append, List.cons.injEq] at e
      obtain ⟨rfl, rfl⟩ := e
      simp at hn
    | cons b u' =>
      simp only [List.cons_append, List.cons.injEq] at e
      obtain ⟨rfl, e⟩ := e
      obtain ⟨rfl, rfl⟩ := ih (List.nodup_cons.1 hn).2 e (List.nodup_cons.1 hn').2
      exact ⟨rfl, rfl⟩

theorem ctx_length (k : Ctx) : k.length ≤ (ctxIds k).length := by
  induction k with
  | nil => simp
  | cons f k ih =>
    simp only [ctxIds, List.length_append] at ih
    rcases f with ⟨side, c, s, x, sib⟩
    cases side <;> simp [ctxIds, ctxL, ctxR] <;> omega

theorem linkLinks_shape {h : Heap} {hd : Id} {k : Ctx} {x : Id} (hr : RepT h hd (plug k .nil)) (hx : x ∉ hd :: (plug k .nil).ids)
    (hx0 : x ≠ 0) :
    let h1 := linkLinks h x (ctxSide k) (ctxPar hd k) hd
    Shape h1 hd (plug k (.node (h.color x) (h.size x) .nil x .nil)) ∧
    h1.left hd = hdOr hd (ctxL k ++ x :: ctxR k) ∧ h1.right hd = (ctxL k ++ x :: ctxR k).getLastD hd ∧
    h1.color = h.color ∧ h1.size = h.size ∧ Frame h h1 (hd :: x :: (plug k .nil).ids) := by
  obtain ⟨hs, hcol, hf, hl⟩ := hr
  have hz := shape_plug.1 hs
  obtain ⟨z1, z2, z3, z4⟩ := hz
  simp only [ids_plug, T.ids, List.append_nil] at z3 z4 hx hf hl
  have hn := z3
  have h0 := z4
  have hxx := hx
  simp only [List.nodup_cons, List.nodup_append, List.mem_append, List.mem_cons, not_or] at hn h0 hxx
  intro h1
  cases k with
  | nil =>
    have hne : hd ≠ x := by grind
    have e1 : h1 = ((((((h.setLeft hd x).setParent hd x).setRight hd x).setParent x hd).setLeft x 0).setRight x 0) := by
      simp [h1, linkLinks, ctxSide, ctxPar]
    refine ⟨⟨?_, ?_, ?_, ?_⟩, ?_, ?_, ?_, ?_, ?_⟩
    · simp [e1, plug, At, root_nil]
    · simp [e1, plug, upd, hne]
    · simpa [plug, T.ids, ctxL, ctxR] using hne
    · simp [plug, T.ids]; exact ⟨h0.1, Ne.symm hx0⟩
    · simp [e1, upd, hne, hdOr, ctxL, ctxR]
    · simp [e1, upd, hne, ctxL, ctxR]
    · rw [e1]; rfl
    · rw [e1]; rfl
    · intro z hzz
      simp only [List.mem_cons, not_or] at hzz
      simp [e1, upd, hzz.1, hzz.2.1]
  | cons f k =>
    rcases f with ⟨side, c, s, p, sib⟩
    have hpm : p ∈ ctxL (⟨side, c, s, p, sib⟩ :: k) ∨ p ∈ ctxR (⟨side, c, s, p, sib⟩ :: k) := by
      have := (ctxIds_cons (f := ⟨side, c, s, p, sib⟩) (k := k) p).2 (Or.inl rfl)
      simpa only [ctxIds, List.mem_append] using this
    have hphd : p ≠ hd := by rintro rfl; grind
    have hpx : p ≠ x := by rintro rfl; grind
    have hxhd : x ≠ hd := by grind
    have hhdx : hd ≠ x := by grind
    -- fields of the result
    have key : ∀ (h1 : Heap), (∀ z, z ≠ hd → z ≠ x → z ≠ p → SameAt h h1 z) → h1.parent hd = h.parent hd →
        h1.parent p = h.parent p ∧ h1.color = h.color ∧ h1.size = h.size →
        (match side with
          | .left => h1.left p = x ∧ h1.right p = h.right p
          | .right => h1.left p = h.left p ∧ h1.right p = x) →
        h1.parent x = p ∧ h1.left x = 0 ∧ h1.right x = 0 →
        Shape h1 hd (plug (⟨side, c, s, p, sib⟩ :: k) (.node (h.color x) (h.size x) .nil x .nil)) ∧
        Frame h h1 (hd :: x :: (plug (⟨side, c, s, p, sib⟩ :: k) .nil).ids) := by
      intro h1 hsame hpar hp hside hxf
      have hctxne : ∀ z ∈ ctxIds (⟨side, c, s, p, sib⟩ :: k), z ≠ hd ∧ z ≠ x := by
        intro z hz
        simp only [ctxIds, List.mem_append] at hz
        constructor
        · rintro rfl; grind
        · rintro rfl; grind
      refine ⟨?_, ?_⟩
      · rw [shape_plug]
        refine ⟨⟨hxf.1, by rw [hp.2.1], by rw [hp.2.2], hxf.2.1, hxf.2.2, trivial, trivial⟩, ?_, ?_, ?_⟩
        · refine atCtx_hole (r := 0) z3 (fun z hz hzp => hsame z (hctxne z hz).1 (hctxne z hz).2 hzp) (fun _ => hpar) ?_ z2
          refine ⟨hp.1, by rw [hp.2.1], by rw [hp.2.2], ?_⟩
          cases side <;> exact hside
        · simp only [T.ids, List.nil_append, List.nodup_cons, List.nodup_append, List.mem_append, List.mem_cons]
          grind
        · simp only [T.ids, List.nil_append, List.mem_append, List.mem_cons]
          grind
      · intro z hz
        simp only [List.mem_cons, not_or, ids_plug, T.ids, List.append_nil, List.mem_append] at hz
        refine hsame z hz.1 hz.2.1 ?_
        rintro rfl
        rcases hpm with h | h
        · exact hz.2.2.1 h
        · exact hz.2.2.2 h
    cases side with
    | left =>
      have hR : ctxR (⟨.left, c, s, p, sib⟩ :: k) = p :: (sib.ids ++ ctxR k) := rfl
      by_cases hL : ctxL (⟨.left, c, s, p, sib⟩ :: k) = []
      · have hfirst : h.left hd = p := by rw [hf, hL, hR]; rfl
        have e1 : h1 = ((((h.setLeft p x).setLeft hd x).setParent x p).setLeft x 0).setRight x 0 := by
          simp [h1, linkLinks, ctxSide, ctxPar, hphd, upd, Ne.symm hphd, hfirst]
        obtain ⟨k1, k2⟩ := key h1 (by intro z q1 q2 q3; simp [e1, SameAt, upd, q1, q2, q3]) (by simp [e1, upd, hhdx])
          (by rw [e1]; exact ⟨by simp [upd, hpx], rfl, rfl⟩) (by simp [e1, upd, hpx, hphd]) (by simp [e1, upd])
        refine ⟨k1, ?_, ?_, by rw [e1]; rfl, by rw [e1]; rfl, k2⟩
        · rw [hL]; simp [e1, upd, hhdx, hdOr]
        · rw [hL, hR]; simp only [e1]; simp [upd, hhdx, hl, hL, hR]
      · have hfirst : h.left hd ≠ p := by
          rw [hf]
          rcases hq : ctxL (⟨.left, c, s, p, sib⟩ :: k) with _ | ⟨a, l⟩
          · exact absurd hq hL
          · simp only [List.cons_append, hdOr, List.headD_cons]
            rintro rfl
            rw [hq, hR] at hn; simp at hn
        have e1 : h1 = (((h.setLeft p x).setParent x p).setLeft x 0).setRight x 0 := by
          simp [h1, linkLinks, ctxSide, ctxPar, hphd, upd, Ne.symm hphd, Ne.symm hfirst]
        obtain ⟨k1, k2⟩ := key h1 (by intro z q1 q2 q3; simp [e1, SameAt, upd, q2, q3]) (by simp [e1, upd, hhdx])
          (by rw [e1]; exact ⟨by simp [upd, hpx], rfl, rfl⟩) (by simp [e1, upd, hpx]) (by simp [e1, upd])
        refine ⟨k1, ?_, ?_, by rw [e1]; rfl, by rw [e1]; rfl, k2⟩
        · rcases hq : ctxL (⟨.left, c, s, p, sib⟩ :: k) with _ | ⟨a, l⟩
          · exact absurd hq hL
          · have : h1.left hd = h.left hd := by simp [e1, upd, hhdx, Ne.symm hphd]
            rw [this, hf, hq]; rfl
        · have : h1.right hd = h.right hd := by simp [e1, upd, hhdx]
          rw [this, hl, hR]; simp [List.getLastD_eq_getLast?]
    | right =>
      have hLe : ctxL (⟨.right, c, s, p, sib⟩ :: k) = ctxL k ++ sib.ids ++ [p] := rfl
      by_cases hR : ctxR (⟨.right, c, s, p, sib⟩ :: k) = []
      · have hlast : h.right hd = p := by rw [hl, hLe, hR]; simp
        have e1 : h1 = ((((h.setRight p x).setRight hd x).setParent x p).setLeft x 0).setRight x 0 := by
          simp [h1, linkLinks, ctxSide, ctxPar, upd, Ne.symm hphd, hlast]
        obtain ⟨k1, k2⟩ := key h1 (by intro z q1 q2 q3; simp [e1, SameAt, upd, q1, q2, q3]) (by simp [e1, upd, hhdx])
          (by rw [e1]; exact ⟨by simp [upd, hpx], rfl, rfl⟩) (by simp [e1, upd, hpx, hphd]) (by simp [e1, upd])
        refine ⟨k1, ?_, ?_, by rw [e1]; rfl, by rw [e1]; rfl, k2⟩
        · have : h1.left hd = h.left hd := by simp [e1, upd, hhdx]
          rw [this, hf, hLe]
          simp only [List.append_assoc]
          rcases ctxL k with _ | ⟨a, l⟩
          · rcases sib.ids with _ | ⟨a, l⟩ <;> rfl
          · rfl
        · rw [hR]; simp [e1, upd, hhdx]
      · have hlast : h.right hd ≠ p := by
          rw [hl]
          rcases List.eq_nil_or_concat' (ctxR (⟨.right, c, s, p, sib⟩ :: k)) with hq | ⟨l, a, hq⟩
          · exact absurd hq hR
          · rw [hq, ← List.append_assoc]
            simp only [List.getLastD_concat]
            rintro rfl
            have := hn.2.2.2 a (by rw [hLe]; simp) a (by rw [hq]; simp)
            exact this rfl
        have e1 : h1 = (((h.setRight p x).setParent x p).setLeft x 0).setRight x 0 := by
          simp [h1, linkLinks, ctxSide, ctxPar, upd, Ne.symm hphd, Ne.symm hlast]
        obtain ⟨k1, k2⟩ := key h1 (by intro z q1 q2 q3; simp [e1, SameAt, upd, q2, q3]) (by simp [e1, upd, hhdx])
          (by rw [e1]; exact ⟨by simp [upd, hpx], rfl, rfl⟩) (by simp [e1, upd, hpx]) (by simp [e1, upd])
        refine ⟨k1, ?_, ?_, by rw [e1]; rfl, by rw [e1]; rfl, k2⟩
        · have : h1.left hd = h.left hd := by simp [e1, upd, hhdx]
          rw [this, hf, hLe]
          simp only [List.append_assoc]
          rcases ctxL k with _ | ⟨a, l⟩
          · rcases sib.ids with _ | ⟨a, l⟩ <;> rfl
          · rfl
        · have : h1.right hd = h.right hd := by simp [e1, upd, hhdx, Ne.symm hphd]
          rw [this, hl]
          rcases List.eq_nil_or_concat' (ctxR (⟨.right, c, s, p, sib⟩ :: k)) with hq | ⟨l, a, hq⟩
          · exact absurd hq hR
          · rw [hq, ← List.append_assoc, ← List.cons_append, ← List.append_assoc, List.getLastD_concat, List.getLastD_concat]

theorem linkS_spec {h : Heap} {hd : Id} {k : Ctx} {x : Id} {N : Nat} (hr : RepT h hd (plug k .nil)) (hb : RBTree (plug k .nil))
    (hz : (plug k .nil).Sized) (hx : x ∉ hd :: (plug k .nil).ids) (hx0 : x ≠ 0) (hN : k.length + 2 ≤ N) :
    ∃ h' f P, linkS N h x (ctxSide k) (ctxPar hd k) hd = some (h', f) ∧ RepP h' hd (ctxL k ++ x :: ctxR k) P ∧
      Frame h h' (hd :: x :: (plug k .nil).ids) ∧ f + P ≤ (plug k .nil).pot + 5 ∧ f ≤ k.length + 1 := by
  obtain ⟨a1, a2, a3, a4, a5, a6⟩ := linkLinks_shape hr hx hx0
  generalize hh1 : linkLinks h x (ctxSide k) (ctxPar hd k) hd = h1 at a1 a2 a3 a4 a5 a6
  have H2 := a1.resize 1
  obtain ⟨h3, e3, H3, so⟩ := addGo_spec k H2 (by exact hx0) (N := N) (by omega)
  have hids : ∀ c s, (plug k (.node c s .nil x .nil)).ids = ctxL k ++ x :: ctxR k := by
    intro c s; rw [ids_plug]; simp [T.ids]
  have hidn : (plug k .nil).ids = ctxL k ++ ctxR k := by rw [ids_plug]; simp [T.ids]
  obtain ⟨n, hc, hn, _⟩ := (rb_plug k .nil).1 hb
  have hz3 : (plug (mapS (· + 1) k) (.node (h.color x) 1 .nil x .nil)).Sized := by
    rw [sized_plug] at hz ⊢
    exact ⟨⟨rfl, trivial, trivial⟩, csized_inc k hz.2⟩
  obtain ⟨h4, t4, f4, e4, S4, hb4, hf4, hk4⟩ := rebalance_spec H3 hz3 (show n = 0 from hn) ((mapS_CRB _ k n).2 hc) (N := N) (by simpa using hN)
  have hi4 : (plug (mapS (· + 1) k) (.node (h.color x) 1 .nil x .nil)).ids = ctxL k ++ x :: ctxR k := by
    rw [ids_plug]; simp [T.ids]
  rw [hi4] at S4
  rw [hids] at so
  have hnd := H3.nodup
  rw [hi4] at hnd
  have hhx : hd ∉ ctxL k ++ x :: ctxR k := (List.nodup_cons.1 hnd).1
  have hhx' : hd ≠ x := by rintro rfl; simp at hhx
  refine ⟨h4, f4, t4.pot, ?_, ⟨t4, ⟨S4.shape, ?_, ?_, ?_⟩, hb4, S4.sized, S4.ids, rfl⟩, ?_, by
    rw [pot_plug, mapS_pot] at hf4; rw [pot_plug]; exact ⟨hf4, by simpa using hk4⟩⟩
  · rw [linkS_eq, hh1]
    have : augAdd N h1 x (h1.parent hd) = some h3 := e3
    rw [this]; exact e4
  · rw [S4.hdr.2.2.1, so.2.2.2.1]
    show h1.color hd = _
    rw [a4, hr.color]
  · rw [S4.hdr.1, so.2.1, S4.ids]; exact a2
  · rw [S4.hdr.2.1, so.2.2.1, S4.ids]; exact a3
  · have hmem : ∀ z ∈ hd :: (ctxL k ++ x :: ctxR k), z ∈ hd :: x :: (plug k .nil).ids := by
      rw [hidn]; intro z; simp only [List.mem_cons, List.mem_append]; tauto
    refine ((a6.trans ?_).trans ((so.frame (hd := hd)).mono hmem)).trans (S4.frame.mono hmem)
    intro z hz
    have : z ≠ x := by rintro rfl; exact hz (by simp)
    simp [upd, this]

theorem link_spec {h : Heap} {hd : Id} {k : Ctx} {x : Id} {N : Nat} (hr : RepT h hd (plug k .nil)) (hb : RBTree (plug k .nil))
    (hz : (plug k .nil).Sized) (hx : x ∉ hd :: (plug k .nil).ids) (hx0 : x ≠ 0) (hN : k.length + 2 ≤ N) :
    ∃ h', link N h x (ctxSide k) (ctxPar hd k) hd = some h' ∧ Rep h' hd (ctxL k ++ x :: ctxR k) ∧
      Frame h h' (hd :: x :: (plug k .nil).ids) := by
  obtain ⟨h', f, P, e, r, fr, -⟩ := linkS_spec hr hb hz hx hx0 hN
  exact ⟨h', by rw [← linkS_fst, e]; rfl, r.rep, fr⟩

end MI.Ord
