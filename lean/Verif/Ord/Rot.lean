import Verif.Ord.Zipper
/-! Rotations (helper lemmas). -/
namespace MI.Ord
open MI

@[simp] theorem sp_parent (h : Heap) (x v : Id) : (h.setParent x v).parent = upd h.parent x v := rfl
@[simp] theorem sp_left (h : Heap) (x v : Id) : (h.setParent x v).left = h.left := rfl
@[simp] theorem sp_right (h : Heap) (x v : Id) : (h.setParent x v).right = h.right := rfl
@[simp] theorem sp_color (h : Heap) (x v : Id) : (h.setParent x v).color = h.color := rfl
@[simp] theorem sp_size (h : Heap) (x v : Id) : (h.setParent x v).size = h.size := rfl
@[simp] theorem sl_parent (h : Heap) (x v : Id) : (h.setLeft x v).parent = h.parent := rfl
@[simp] theorem sl_left (h : Heap) (x v : Id) : (h.setLeft x v).left = upd h.left x v := rfl
@[simp] theorem sl_right (h : Heap) (x v : Id) : (h.setLeft x v).right = h.right := rfl
@[simp] theorem sl_color (h : Heap) (x v : Id) : (h.setLeft x v).color = h.color := rfl
@[simp] theorem sl_size (h : Heap) (x v : Id) : (h.setLeft x v).size = h.size := rfl
@[simp] theorem sr_parent (h : Heap) (x v : Id) : (h.setRight x v).parent = h.parent := rfl
@[simp] theorem sr_left (h : Heap) (x v : Id) : (h.setRight x v).left = h.left := rfl
@[simp] theorem sr_right (h : Heap) (x v : Id) : (h.setRight x v).right = upd h.right x v := rfl
@[simp] theorem sr_color (h : Heap) (x v : Id) : (h.setRight x v).color = h.color := rfl
@[simp] theorem sr_size (h : Heap) (x v : Id) : (h.setRight x v).size = h.size := rfl
@[simp] theorem sc_parent (h : Heap) (x : Id) (v : Color) : (h.setColor x v).parent = h.parent := rfl
@[simp] theorem sc_left (h : Heap) (x : Id) (v : Color) : (h.setColor x v).left = h.left := rfl
@[simp] theorem sc_right (h : Heap) (x : Id) (v : Color) : (h.setColor x v).right = h.right := rfl
@[simp] theorem sc_color (h : Heap) (x : Id) (v : Color) : (h.setColor x v).color = upd h.color x v := rfl
@[simp] theorem sc_size (h : Heap) (x : Id) (v : Color) : (h.setColor x v).size = h.size := rfl
@[simp] theorem ss_parent (h : Heap) (x : Id) (v : Nat) : (h.setSize x v).parent = h.parent := rfl
@[simp] theorem ss_left (h : Heap) (x : Id) (v : Nat) : (h.setSize x v).left = h.left := rfl
@[simp] theorem ss_right (h : Heap) (x : Id) (v : Nat) : (h.setSize x v).right = h.right := rfl
@[simp] theorem ss_color (h : Heap) (x : Id) (v : Nat) : (h.setSize x v).color = h.color := rfl
@[simp] theorem ss_size (h : Heap) (x : Id) (v : Nat) : (h.setSize x v).size = upd h.size x v := rfl

@[simp] theorem root_node (c : Color) (s : Nat) (l : T) (x : Id) (r : T) : (T.node c s l x r).root = x := rfl
@[simp] theorem root_nil : T.nil.root = 0 := rfl

/-- Assignment to the pointer into the hole. -/
def setHole (h : Heap) (hd : Id) (k : Ctx) (y : Id) : Heap :=
  match k with
  | [] => h.setParent hd y
  | f :: _ => match f.side with
    | .left => h.setLeft f.x y
    | .right => h.setRight f.x y

theorem atCtx_root_mem {h : Heap} {hd : Id} (k : Ctx) : ∀ {r : Id}, AtCtx h hd k r → h.parent hd = r ∨ h.parent hd ∈ ctxIds k := by
  induction k with
  | nil => intro r ha; exact Or.inl ha
  | cons f k ih =>
    intro r ha
    right
    rcases ih ha.2.2.2.2.2 with e | e
    · rw [e, ctxIds_cons]; exact Or.inl rfl
    · rw [ctxIds_cons]; exact Or.inr (Or.inr e)

theorem atCtx_cons_root {h : Heap} {hd : Id} {f : Fr} {k : Ctx} {r : Id} (ha : AtCtx h hd (f :: k) r) :
    h.parent hd ∈ ctxIds (f :: k) := by
  rcases atCtx_root_mem k ha.2.2.2.2.2 with e | e
  · rw [e, ctxIds_cons]; exact Or.inl rfl
  · rw [ctxIds_cons]; exact Or.inr (Or.inr e)

theorem relinkL_eq {h : Heap} {hd : Id} {k : Ctx} {r : Id} (y : Id) (ha : AtCtx h hd k r) (hp : h.parent r = ctxPar hd k)
    (hr : r ≠ 0) (hk : r ∉ ctxIds k) : relinkL h hd r y = setHole h hd k y := by
  cases k with
  | nil => have : h.parent hd = r := ha; simp [relinkL, setHole, this]
  | cons f k =>
    have h1 : r ≠ h.parent hd := fun e => hk (e ▸ atCtx_cons_root ha)
    obtain ⟨a1, a2, a3, a4, a5, a6⟩ := ha
    rcases f with ⟨side, c, s, x, sib⟩
    simp only [ctxPar] at hp
    unfold relinkL
    rw [if_neg h1, hp]
    cases side
    · rw [if_pos a4.1.symm]; rfl
    · have : r ≠ h.left x := by
        rw [a4.1]
        rintro rfl
        exact hk (by rw [ctxIds_cons]; exact Or.inr (Or.inl (root_mem hr)))
      rw [if_neg this]; rfl

/-! ### Mirror images -/

/-- Exchange left and right. -/
def Heap.mirror (h : Heap) : Heap := { h with left := h.right, right := h.left }

/-- Exchange left and right. -/
def T.mirror : T → T
  | .nil => .nil
  | .node c s l x r => .node c s r.mirror x l.mirror

def Side.mirror : Side → Side
  | .left => .right
  | .right => .left

def Fr.mirror (f : Fr) : Fr := { f with side := f.side.mirror, sib := f.sib.mirror }

@[simp] theorem mirror_mirror (h : Heap) : h.mirror.mirror = h := rfl
@[simp] theorem T.mirror_mirror (t : T) : t.mirror.mirror = t := by
  induction t with
  | nil => rfl
  | node c s l x r ihl ihr => simp [T.mirror, ihl, ihr]

@[simp] theorem T.mirror_root (t : T) : t.mirror.root = t.root := by cases t <;> rfl
@[simp] theorem T.mirror_sz (t : T) : t.mirror.sz = t.sz := by cases t <;> rfl
@[simp] theorem T.mirror_ids (t : T) : t.mirror.ids = t.ids.reverse := by
  induction t with
  | nil => rfl
  | node c s l x r ihl ihr => simp [T.mirror, T.ids, ihl, ihr]

@[simp] theorem T.mirror_black (t : T) : t.mirror.black ↔ t.black := by cases t <;> rfl

theorem T.mirror_RB (t : T) : ∀ {n}, t.mirror.RB n ↔ t.RB n := by
  induction t with
  | nil => intro n; rfl
  | node c s l x r ihl ihr =>
    intro n
    cases c
    · simp only [T.mirror, T.RB, ihl, ihr, T.mirror_black]; tauto
    · simp only [T.mirror, T.RB, ihl, ihr]
      constructor <;> rintro ⟨m, a, b, c⟩ <;> exact ⟨m, a, c, b⟩

theorem T.mirror_Sized (t : T) : t.mirror.Sized ↔ t.Sized := by
  induction t with
  | nil => rfl
  | node c s l x r ihl ihr =>
    simp only [T.mirror, T.Sized, ihl, ihr, T.mirror_ids, List.length_reverse]
    constructor <;> rintro ⟨a, b, c⟩ <;> exact ⟨by omega, c, b⟩

theorem mirror_RBTree (t : T) : RBTree t.mirror ↔ RBTree t := by
  unfold RBTree
  simp only [T.mirror_black, T.mirror_RB]

theorem plug_mirror (k : Ctx) : ∀ t, (plug k t).mirror = plug (k.map Fr.mirror) t.mirror := by
  induction k with
  | nil => intro t; rfl
  | cons f k ih =>
    intro t
    rcases f with ⟨side, c, s, x, sib⟩
    cases side <;> simp [plug, ih, Fr.fill, Fr.mirror, Side.mirror, T.mirror]

theorem at_mirror {h : Heap} (t : T) : ∀ {p : Id}, At h.mirror p t.mirror ↔ At h p t := by
  induction t with
  | nil => intro p; rfl
  | node c s l x r ihl ihr =>
    intro p
    simp only [T.mirror, At, T.mirror_root, ihl, ihr]
    simp only [Heap.mirror]
    tauto

theorem shape_mirror {h : Heap} {hd : Id} {t : T} : Shape h.mirror hd t.mirror ↔ Shape h hd t := by
  constructor
  · rintro ⟨a, b, c, d⟩
    refine ⟨(at_mirror t).1 a, by have : h.parent hd = _ := b; simpa using this, ?_, ?_⟩
    · simpa [List.nodup_cons] using c
    · simpa using d
  · rintro ⟨a, b, c, d⟩
    refine ⟨(at_mirror t).2 a, by rw [T.mirror_root]; exact b, ?_, ?_⟩
    · simpa [List.nodup_cons] using c
    · simpa using d

theorem frame_mirror {h h' : Heap} {ys : List Id} : Frame h.mirror h'.mirror ys ↔ Frame h h' ys := by
  unfold Frame Heap.mirror
  constructor <;> intro H z hz <;> have := H z hz <;> tauto

theorem relinkR_mirror (h : Heap) (hd x y : Id) : relinkR h hd x y = (relinkL h.mirror hd x y).mirror := by
  unfold relinkR relinkL
  by_cases h1 : x = h.parent hd
  · have h2 : x = h.mirror.parent hd := h1
    rw [if_pos h1, if_pos h2]; rfl
  · have h2 : ¬ x = h.mirror.parent hd := h1
    rw [if_neg h1, if_neg h2]
    by_cases h3 : x = h.right (h.parent x)
    · have h4 : x = h.mirror.left (h.mirror.parent x) := h3
      rw [if_pos h3, if_pos h4]; rfl
    · have h4 : ¬ x = h.mirror.left (h.mirror.parent x) := h3
      rw [if_neg h3, if_neg h4]; rfl

theorem augRotate_mirror (h : Heap) (x y : Id) : augRotate h x y = (augRotate h.mirror x y).mirror := by
  unfold augRotate Heap.mirror Heap.setSize nodeSize
  simp [Nat.add_comm]

theorem rotateRight_mirror (h : Heap) (hd x : Id) : rotateRight h hd x = (rotateLeft h.mirror hd x).mirror := by
  unfold rotateRight rotateLeft
  simp only [relinkR_mirror]
  rw [augRotate_mirror]
  by_cases hr : h.right (h.left x) = 0
  · have e1 : ¬ (h.setLeft x (h.right (h.left x))).right (h.left x) ≠ 0 := by simpa using hr
    have e2 : ¬ (h.mirror.setRight x (h.mirror.left (h.mirror.right x))).left (h.mirror.right x) ≠ 0 := by
      simpa [Heap.mirror] using hr
    rw [if_neg e1, if_neg e2]; rfl
  · have e1 : (h.setLeft x (h.right (h.left x))).right (h.left x) ≠ 0 := by simpa using hr
    have e2 : (h.mirror.setRight x (h.mirror.left (h.mirror.right x))).left (h.mirror.right x) ≠ 0 := by
      simpa [Heap.mirror] using hr
    rw [if_pos e1, if_pos e2]; rfl

theorem rotateLeft_mirror (h : Heap) (hd x : Id) : rotateLeft h hd x = (rotateRight h.mirror hd x).mirror := by
  rw [rotateRight_mirror]; simp

/-! ### Rotation of a represented tree -/

theorem nodeSize_root {h : Heap} {p : Id} {t : T} (ha : At h p t) (h0 : 0 ∉ t.ids) : nodeSize h t.root = t.sz := by
  unfold nodeSize
  cases t with
  | nil => simp [T.root, T.sz]
  | node c s l x r =>
    have : x ≠ 0 := by rintro rfl; exact h0 (by simp [T.ids])
    simp [T.root, T.sz, this, ha.2.2.1]

theorem setHole_same {h : Heap} {hd : Id} {k : Ctx} {y z : Id} (hz : z ≠ ctxPar hd k) : SameAt h (setHole h hd k y) z := by
  cases k with
  | nil => simp only [ctxPar] at hz; simp [setHole, SameAt, upd, hz]
  | cons f k =>
    rcases f with ⟨side, c, s, x, sib⟩
    simp only [ctxPar] at hz
    cases side <;> simp [setHole, SameAt, upd, hz]

theorem rotateLeft_fields {h : Heap} {hd x : Id} {k : Ctx} {c d : Color} {s s2 : Nat} {a b e : T} {y : Id}
    (hz : ZShape h hd k (.node c s a x (.node d s2 b y e))) :
    let h3 := (if b.root ≠ 0 then (h.setRight x b.root).setParent b.root x else h.setRight x b.root).setParent y (ctxPar hd k)
    rotateLeft h hd x = augRotate (((setHole h3 hd k y).setLeft y x).setParent x y) x y := by
  obtain ⟨⟨a1, a2, a3, a4, a5, a6, b1, b2, b3, b4, b5, b6, b7⟩, hc, hn, h0⟩ := hz
  simp only [root_node] at a4 a5 b4 b5 hc
  simp only [T.ids, List.nodup_cons, List.nodup_append, List.mem_append, List.mem_cons, not_or] at hn h0
  have hxy : x ≠ y := by grind
  have hyx : y ≠ x := by grind
  have hbx : b.root ≠ 0 → b.root ≠ x ∧ b.root ≠ y ∧ b.root ∉ ctxIds k ∧ b.root ≠ hd := by
    intro hb
    have := root_mem hb
    refine ⟨?_, ?_, ?_, ?_⟩
    · rintro e; rw [e] at this; grind
    · rintro e; rw [e] at this; grind
    · simp only [ctxIds, List.mem_append]; grind
    · rintro e; rw [e] at this; grind
  intro h3
  have e3 : ∀ z, z ≠ x → z ≠ y → (b.root ≠ 0 → z ≠ b.root) → SameAt h h3 z := by
    intro z z1 z2 z3
    simp only [h3]
    split
    · rename_i hb; simp [SameAt, upd, z1, z2, z3 hb]
    · simp [SameAt, upd, z1, z2]
  have hc3 : AtCtx h3 hd k x := by
    refine atCtx_congr k (fun z hz => e3 z ?_ ?_ ?_) ?_ hc
    · simp only [ctxIds, List.mem_append] at hz; grind
    · simp only [ctxIds, List.mem_append] at hz; grind
    · intro hb e; exact (hbx hb).2.2.1 (e ▸ hz)
    · refine (e3 hd ?_ ?_ ?_).1
      · grind
      · grind
      · intro hb e; exact (hbx hb).2.2.2 e.symm
  have hp3 : h3.parent x = ctxPar hd k := by
    simp only [h3]
    split
    · rename_i hb; simp [upd, hxy, Ne.symm (hbx hb).1, a1]
    · simp [upd, hxy, a1]
  have hrel := relinkL_eq y hc3 hp3 (by grind) (by simp only [ctxIds, List.mem_append]; grind)
  rw [← hrel]
  have hl3 : (if (h.setRight x (h.left y)).left y ≠ 0 then (h.setRight x (h.left y)).setParent ((h.setRight x (h.left y)).left y) x else (h.setRight x (h.left y))) =
      (if b.root ≠ 0 then (h.setRight x b.root).setParent b.root x else h.setRight x b.root) := by
    simp only [sr_left, b4]
  unfold rotateLeft
  simp only [a5, hl3]
  have hp : (if b.root ≠ 0 then (h.setRight x b.root).setParent b.root x else h.setRight x b.root).parent x = ctxPar hd k := by
    split
    · rename_i hb; simp [upd, Ne.symm (hbx hb).1, a1]
    · simp [a1]
  rw [hp]

theorem rotateLeft_shape {h : Heap} {hd x : Id} {k : Ctx} {c d : Color} {s s2 : Nat} {a b e : T} {y : Id}
    (hz : Shape h hd (plug k (.node c s a x (.node d s2 b y e)))) :
    Shape (rotateLeft h hd x) hd (plug k (.node d s (.node c (a.sz + b.sz + 1) a x b) y e)) ∧
      (∀ z, z ≠ x → z ≠ y → (b.root ≠ 0 → z ≠ b.root) → z ≠ ctxPar hd k → SameAt h (rotateLeft h hd x) z) ∧
      ((rotateLeft h hd x).left hd = h.left hd ∧ (rotateLeft h hd x).right hd = h.right hd ∧
        (rotateLeft h hd x).color hd = h.color hd ∧ (rotateLeft h hd x).size hd = h.size hd) := by
  rw [shape_plug] at hz ⊢
  have hf := rotateLeft_fields hz
  simp only at hf
  obtain ⟨⟨a1, a2, a3, a4, a5, a6, b1, b2, b3, b4, b5, b6, b7⟩, hc, hn, h0⟩ := hz
  have hn0 := hn
  have h00 := h0
  simp only [root_node] at a4 a5 b4 b5 hc
  simp only [T.ids, List.nodup_cons, List.nodup_append, List.mem_append, List.mem_cons, not_or] at hn h0
  have hxy : x ≠ y := by grind
  have hyx : y ≠ x := by grind
  have hx0 : x ≠ 0 := by grind
  have hpx : ctxPar hd k ≠ x ∧ ctxPar hd k ≠ y ∧ ctxPar hd k ∉ a.ids ∧ ctxPar hd k ∉ b.ids ∧ ctxPar hd k ∉ e.ids := by
    have : ctxPar hd k = hd ∨ ctxPar hd k ∈ ctxL k ++ ctxR k := by
      cases k with
      | nil => exact Or.inl rfl
      | cons f k => right; have := (ctxIds_cons (f := f) (k := k) f.x).2 (Or.inl rfl); simpa [ctxIds, ctxPar] using this
    simp only [List.mem_append] at this
    grind
  obtain ⟨p1, p2, p3, p4, p5⟩ := hpx
  have hbx : b.root ≠ 0 → b.root ≠ x ∧ b.root ≠ y ∧ b.root ∉ ctxIds k ∧ b.root ≠ hd ∧ b.root ∉ a.ids ∧ b.root ∉ e.ids ∧ b.root ≠ ctxPar hd k := by
    intro hb
    have := root_mem hb
    refine ⟨?_, ?_, ?_, ?_, ?_, ?_, ?_⟩
    · rintro e; rw [e] at this; grind
    · rintro e; rw [e] at this; grind
    · simp only [ctxIds, List.mem_append]; grind
    · rintro e; rw [e] at this; grind
    · grind
    · grind
    · rintro e; rw [e] at this; grind
  generalize hh3 : (if b.root ≠ 0 then (h.setRight x b.root).setParent b.root x else h.setRight x b.root).setParent y (ctxPar hd k) = h3 at hf
  have f3 : ∀ z, z ≠ x → z ≠ y → (b.root ≠ 0 → z ≠ b.root) → SameAt h h3 z := by
    intro z z1 z2 z3
    rw [← hh3]
    split
    · rename_i hb; simp [SameAt, upd, z1, z2, z3 hb]
    · simp [SameAt, upd, z1, z2]
  have h3l : h3.left = h.left := by rw [← hh3]; split <;> rfl
  have h3c : h3.color = h.color := by rw [← hh3]; split <;> rfl
  have h3s : h3.size = h.size := by rw [← hh3]; split <;> rfl
  have h3r : h3.right = upd h.right x b.root := by rw [← hh3]; split <;> rfl
  have h3p : h3.parent = upd (if b.root ≠ 0 then upd h.parent b.root x else h.parent) y (ctxPar hd k) := by rw [← hh3]; split <;> rfl
  generalize hh4 : setHole h3 hd k y = h4 at hf
  have f4 : ∀ z, z ≠ ctxPar hd k → SameAt h3 h4 z := by intro z hz; rw [← hh4]; exact setHole_same hz
  generalize hh5 : (h4.setLeft y x).setParent x y = h5 at hf
  have h5p : h5.parent = upd h4.parent x y := by rw [← hh5]; rfl
  have h5l : h5.left = upd h4.left y x := by rw [← hh5]; rfl
  have h5r : h5.right = h4.right := by rw [← hh5]; rfl
  have h5c : h5.color = h4.color := by rw [← hh5]; rfl
  have h5s : h5.size = h4.size := by rw [← hh5]; rfl
  have f5 : ∀ z, z ≠ x → z ≠ y → SameAt h4 h5 z := by
    intro z z1 z2; simp [SameAt, h5p, h5l, h5r, h5c, h5s, upd, z1, z2]
  have hx4 := f4 x (Ne.symm p1)
  have hy4 := f4 y (Ne.symm p2)
  generalize hh6 : augRotate h5 x y = h6 at hf
  have h6p : h6.parent = h5.parent := by rw [← hh6]; rfl
  have h6l : h6.left = h5.left := by rw [← hh6]; rfl
  have h6r : h6.right = h5.right := by rw [← hh6]; rfl
  have h6c : h6.color = h5.color := by rw [← hh6]; rfl
  have fall : ∀ z, z ≠ x → z ≠ y → (b.root ≠ 0 → z ≠ b.root) → z ≠ ctxPar hd k → SameAt h h6 z := by
    intro z z1 z2 z3 z4
    have := ((f3 z z1 z2 z3).trans (f4 z z4)).trans (f5 z z1 z2)
    refine ⟨by rw [h6p]; exact this.1, by rw [h6l]; exact this.2.1, by rw [h6r]; exact this.2.2.1, by rw [h6c]; exact this.2.2.2.1, ?_⟩
    rw [← this.2.2.2.2, ← hh6]
    simp [augRotate, upd, z1, z2]
  have hl5 : h5.left x = a.root := by rw [h5l, upd_other _ _ hxy, hx4.2.1, h3l, a4]
  have hr5 : h5.right x = b.root := by rw [h5r, hx4.2.2.1, h3r, upd_same]
  have hs5 : ∀ t : T, (∀ z ∈ t.ids, z ≠ x ∧ z ≠ y ∧ z ≠ ctxPar hd k) → ∀ p, At h p t → 0 ∉ t.ids →
      nodeSize (h5.setSize y (h5.size x)) t.root = t.sz := by
    intro t ht p hat ht0
    rw [← nodeSize_root hat ht0]
    unfold nodeSize
    split
    · rename_i hr
      have := ht _ (root_mem hr)
      rw [ss_size, upd_other _ _ this.2.1, h5s, (f4 _ this.2.2).2.2.2.2, h3s]
    · rfl
  have sx : h6.size x = a.sz + b.sz + 1 := by
    rw [← hh6]
    simp only [augRotate, ss_size, upd_same, ss_left, ss_right, hl5, hr5]
    rw [hs5 a (by intro z hz; refine ⟨?_, ?_, ?_⟩ <;> rintro rfl <;> grind) _ a6 (by grind),
      hs5 b (by intro z hz; refine ⟨?_, ?_, ?_⟩ <;> rintro rfl <;> grind) _ b6 (by grind)]
  have sy : h6.size y = s := by
    rw [← hh6]
    simp only [augRotate, ss_size]
    rw [upd_other _ _ hyx, upd_same, h5s, hx4.2.2.2.2, h3s, a3]
  rw [hf]
  refine ⟨⟨⟨?_, ?_, sy, ?_, ?_, ⟨?_, ?_, sx, ?_, ?_, ?_, ?_⟩, ?_⟩, ?_, ?_, ?_⟩, fall, ?_⟩
  · rw [h6p, h5p, upd_other _ _ hyx, hy4.1, h3p, upd_same]
  · rw [h6c, h5c, hy4.2.2.2.1, h3c, b2]
  · rw [h6l, h5l, upd_same]; rfl
  · rw [h6r, h5r, hy4.2.2.1, h3r, upd_other _ _ hyx, b5]
  · rw [h6p, h5p, upd_same]
  · rw [h6c, h5c, hx4.2.2.2.1, h3c, a2]
  · rw [h6l]; exact hl5
  · rw [h6r]; exact hr5
  · refine at_congr a (fun z hz => fall z ?_ ?_ ?_ ?_) a6
    · rintro rfl; grind
    · rintro rfl; grind
    · rintro hb rfl; exact (hbx hb).2.2.2.2.1 hz
    · rintro rfl; exact p3 hz
  · refine at_reparent (by grind) (fun z hz hr => fall z ?_ ?_ (fun _ => hr) ?_) (fun hb => ?_) (by grind) b6
    · rintro rfl; grind
    · rintro rfl; grind
    · rintro rfl; exact p4 hz
    · obtain ⟨q1, q2, q3, q4, q5, q6, q7⟩ := hbx hb
      have g4 := f4 _ q7
      refine ⟨?_, ?_, ?_, ?_, ?_⟩
      · rw [h6p, h5p, upd_other _ _ q1, g4.1, h3p, upd_other _ _ q2, if_pos hb, upd_same]
      · rw [h6l, h5l, upd_other _ _ q2, g4.2.1, h3l]
      · rw [h6r, h5r, g4.2.2.1, h3r, upd_other _ _ q1]
      · rw [h6c, h5c, g4.2.2.2.1, h3c]
      · rw [← hh6]; simp only [augRotate, ss_size]
        rw [upd_other _ _ q1, upd_other _ _ q2, h5s, g4.2.2.2.2, h3s]
  · refine at_congr e (fun z hz => fall z ?_ ?_ ?_ ?_) b7
    · rintro rfl; grind
    · rintro rfl; grind
    · rintro hb rfl; exact (hbx hb).2.2.2.2.2.1 hz
    · rintro rfl; exact p5 hz
  · refine atCtx_hole (by
      simp only [List.nodup_cons, List.nodup_append, List.mem_append]; grind) (fun z hz hp => fall z ?_ ?_ ?_ hp) ?_ ?_ hc
    · rintro rfl; simp only [ctxIds, List.mem_append] at hz; grind
    · rintro rfl; simp only [ctxIds, List.mem_append] at hz; grind
    · rintro hb rfl; exact (hbx hb).2.2.1 hz
    · intro hk
      refine (fall hd (by grind) (by grind) (fun hb e => (hbx hb).2.2.2.1 e.symm) ?_).1
      cases k with
      | nil => exact absurd rfl hk
      | cons f k =>
        have := (ctxIds_cons (f := f) (k := k) f.x).2 (Or.inl rfl)
        simp only [ctxIds, List.mem_append] at this
        simp only [ctxPar]
        rintro rfl; grind
    · have hdx : hd ≠ x := by grind
      cases k with
      | nil =>
        simp only
        rw [h6p, h5p, upd_other _ _ hdx, ← hh4]
        simp [setHole]
      | cons f k =>
        simp only [ctxPar] at p1 p2
        have q3 := (hbx · |>.2.2.2.2.2.2)
        simp only [ctxPar] at q3
        have g3 := f3 f.x p1 p2 (fun hb e => q3 hb e.symm)
        rcases f with ⟨side, fc, fs, fx, sib⟩
        simp only at p1 p2 g3
        have s6 : h6.size fx = h5.size fx := by rw [← hh6]; simp [augRotate, upd, p1, p2]
        cases side
        · simp only
          rw [h6p, h6c, s6, h6l, h6r, h5p, h5c, h5s, h5l, h5r, upd_other _ _ p1, upd_other _ _ p2, ← hh4]
          simp only [setHole, sl_parent, sl_color, sl_size, sl_left, sl_right, upd_same]
          exact ⟨g3.1, g3.2.2.2.1, g3.2.2.2.2, rfl, g3.2.2.1⟩
        · simp only
          rw [h6p, h6c, s6, h6l, h6r, h5p, h5c, h5s, h5l, h5r, upd_other _ _ p1, upd_other _ _ p2, ← hh4]
          simp only [setHole, sr_parent, sr_color, sr_size, sr_left, sr_right, upd_same]
          exact ⟨g3.1, g3.2.2.2.1, g3.2.2.2.2, g3.2.1, rfl⟩
  · simpa [T.ids] using hn0
  · simpa [T.ids] using h00
  · have hdx : hd ≠ x := by grind
    have hdy : hd ≠ y := by grind
    have g3 := f3 hd hdx hdy (fun hb e => (hbx hb).2.2.2.1 e.symm)
    have g4 : h4.left hd = h3.left hd ∧ h4.right hd = h3.right hd ∧ h4.color hd = h3.color hd ∧ h4.size hd = h3.size hd := by
      rw [← hh4]
      cases k with
      | nil => exact ⟨rfl, rfl, rfl, rfl⟩
      | cons f k =>
        have : f.x ≠ hd := by
          have := (ctxIds_cons (f := f) (k := k) f.x).2 (Or.inl rfl)
          simp only [ctxIds, List.mem_append] at this
          rintro rfl; grind
        have := setHole_same (h := h3) (hd := hd) (k := f :: k) (y := y) (z := hd) (by simpa [ctxPar] using Ne.symm this)
        exact ⟨this.2.1, this.2.2.1, this.2.2.2.1, this.2.2.2.2⟩
    have s6 : h6.size hd = h5.size hd := by rw [← hh6]; simp [augRotate, upd, hdx, hdy]
    refine ⟨?_, ?_, ?_, ?_⟩
    · rw [h6l, h5l, upd_other _ _ hdy, g4.1, g3.2.1]
    · rw [h6r, h5r, g4.2.1, g3.2.2.1]
    · rw [h6c, h5c, g4.2.2.1, g3.2.2.2.1]
    · rw [s6, h5s, g4.2.2.2, g3.2.2.2.2]

end MI.Ord
