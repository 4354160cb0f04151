import Verif.Ord.Tree
/-! Zippers over trees, and their representation in the heap (helper lemmas). -/
namespace MI.Ord
open MI

/-- A step of a path: the hole is the `side` child of node `x`, whose other child is `sib`. -/
structure Fr where
  side : Side
  c : Color
  s : Nat
  x : Id
  sib : T

/-- A path, innermost step first. -/
abbrev Ctx := List Fr

/-- Fill the hole of one step. -/
def Fr.fill (f : Fr) (t : T) : T :=
  match f.side with
  | .left => .node f.c f.s t f.x f.sib
  | .right => .node f.c f.s f.sib f.x t

/-- Fill the hole. -/
def plug : Ctx → T → T
  | [], t => t
  | f :: k, t => plug k (f.fill t)

/-- The parent of the hole. -/
def ctxPar (hd : Id) : Ctx → Id
  | [] => hd
  | f :: _ => f.x

/-- Nodes before the hole. -/
def ctxL : Ctx → List Id
  | [] => []
  | f :: k => match f.side with
    | .left => ctxL k
    | .right => ctxL k ++ f.sib.ids ++ [f.x]

/-- Nodes after the hole. -/
def ctxR : Ctx → List Id
  | [] => []
  | f :: k => match f.side with
    | .left => f.x :: (f.sib.ids ++ ctxR k)
    | .right => ctxR k

theorem ids_plug (k : Ctx) : ∀ t : T, (plug k t).ids = ctxL k ++ t.ids ++ ctxR k := by
  induction k with
  | nil => intro t; simp [plug, ctxL, ctxR]
  | cons f k ih =>
    intro t
    rw [plug, ih]
    rcases f with ⟨side, c, s, x, sib⟩
    cases side <;> simp [Fr.fill, T.ids, ctxL, ctxR]

theorem plug_append (k k' : Ctx) : ∀ t, plug (k ++ k') t = plug k' (plug k t) := by
  induction k with
  | nil => intro t; rfl
  | cons f k ih => intro t; simp [plug, ih]

/-- The fields along the path, the pointer into the hole being `r`. -/
def AtCtx (h : Heap) (hd : Id) : Ctx → Id → Prop
  | [], r => h.parent hd = r
  | f :: k, r =>
    h.parent f.x = ctxPar hd k ∧ h.color f.x = f.c ∧ h.size f.x = f.s ∧
      (match f.side with
        | .left => h.left f.x = r ∧ h.right f.x = f.sib.root
        | .right => h.left f.x = f.sib.root ∧ h.right f.x = r) ∧
      At h f.x f.sib ∧ AtCtx h hd k f.x

theorem fill_root (f : Fr) (t : T) : (f.fill t).root = f.x := by
  rcases f with ⟨side, c, s, x, sib⟩
  cases side <;> rfl

theorem at_plug (h : Heap) (hd : Id) (k : Ctx) : ∀ t : T,
    (At h hd (plug k t) ∧ h.parent hd = (plug k t).root) ↔ (At h (ctxPar hd k) t ∧ AtCtx h hd k t.root) := by
  induction k with
  | nil => intro t; exact Iff.rfl
  | cons f k ih =>
    intro t
    rw [plug, ih]
    rcases f with ⟨side, c, s, x, sib⟩
    cases side <;> simp only [Fr.fill, At, AtCtx, ctxPar, T.root] <;> tauto

/-- Agreement of all fields on an identifier. -/
def SameAt (h h' : Heap) (z : Id) : Prop :=
  h'.parent z = h.parent z ∧ h'.left z = h.left z ∧ h'.right z = h.right z ∧ h'.color z = h.color z ∧ h'.size z = h.size z

theorem SameAt.refl (h : Heap) (z : Id) : SameAt h h z := ⟨rfl, rfl, rfl, rfl, rfl⟩

theorem SameAt.trans {h h' h'' : Heap} {z : Id} (a : SameAt h h' z) (b : SameAt h' h'' z) : SameAt h h'' z :=
  ⟨b.1.trans a.1, b.2.1.trans a.2.1, b.2.2.1.trans a.2.2.1, b.2.2.2.1.trans a.2.2.2.1, b.2.2.2.2.trans a.2.2.2.2⟩

theorem Frame.refl (h : Heap) (ys : List Id) : Frame h h ys := fun z _ => SameAt.refl h z

theorem Frame.trans {h h' h'' : Heap} {ys : List Id} (a : Frame h h' ys) (b : Frame h' h'' ys) : Frame h h'' ys :=
  fun z hz => SameAt.trans (a z hz) (b z hz)

theorem Frame.mono {h h' : Heap} {ys zs : List Id} (a : Frame h h' ys) (hs : ∀ z ∈ ys, z ∈ zs) : Frame h h' zs :=
  fun z hz => a z (fun hy => hz (hs z hy))

theorem at_congr {h h' : Heap} (t : T) : ∀ {p : Id}, (∀ z ∈ t.ids, SameAt h h' z) → At h p t → At h' p t := by
  induction t with
  | nil => intros; trivial
  | node c s l x r ihl ihr =>
    intro p hs ha
    obtain ⟨a1, a2, a3, a4, a5, a6, a7⟩ := ha
    have hx := hs x (by simp [T.ids])
    refine ⟨hx.1.trans a1, hx.2.2.2.1.trans a2, hx.2.2.2.2.trans a3, hx.2.1.trans a4, hx.2.2.1.trans a5, ?_, ?_⟩
    · exact ihl (fun z hz => hs z (by simp [T.ids, hz])) a6
    · exact ihr (fun z hz => hs z (by simp [T.ids, hz])) a7

theorem root_mem {t : T} (h : t.root ≠ 0) : t.root ∈ t.ids := by
  cases t with
  | nil => exact absurd rfl h
  | node c s l x r => simp [T.root, T.ids]

theorem root_zero {t : T} (h0 : 0 ∉ t.ids) : t.root = 0 ↔ t = .nil := by
  cases t with
  | nil => simp [T.root]
  | node c s l x r =>
    simp only [T.root, reduceCtorEq, iff_false]
    rintro rfl; exact h0 (by simp [T.ids])

/-- Moving a subtree below another parent. -/
theorem at_reparent {h h' : Heap} {t : T} {p p' : Id} (hn : t.ids.Nodup) (hs : ∀ z ∈ t.ids, z ≠ t.root → SameAt h h' z)
    (hr : t.root ≠ 0 → h'.parent t.root = p' ∧ h'.left t.root = h.left t.root ∧ h'.right t.root = h.right t.root ∧
      h'.color t.root = h.color t.root ∧ h'.size t.root = h.size t.root) (h0 : 0 ∉ t.ids)
    (ha : At h p t) : At h' p' t := by
  cases t with
  | nil => trivial
  | node c s l x r =>
    obtain ⟨a1, a2, a3, a4, a5, a6, a7⟩ := ha
    have hx := hr (by rintro (rfl : x = 0); exact h0 (by simp [T.ids]))
    simp only [T.root] at hx hs
    simp only [T.ids, List.nodup_append, List.nodup_cons, List.mem_cons] at hn
    refine ⟨hx.1, hx.2.2.2.1.trans a2, hx.2.2.2.2.trans a3, hx.2.1.trans a4, hx.2.2.1.trans a5, ?_, ?_⟩
    · refine at_congr _ (fun z hz => hs z (by simp [T.ids, hz]) ?_) a6
      exact hn.2.2 z hz x (Or.inl rfl)
    · refine at_congr _ (fun z hz => hs z (by simp [T.ids, hz]) ?_) a7
      rintro rfl; exact hn.2.1.1 hz

/-- Identifiers on a path (nodes and siblings). -/
def ctxIds (k : Ctx) : List Id := ctxL k ++ ctxR k

theorem ctxIds_cons {f : Fr} {k : Ctx} (z : Id) : z ∈ ctxIds (f :: k) ↔ z = f.x ∨ z ∈ f.sib.ids ∨ z ∈ ctxIds k := by
  rcases f with ⟨side, c, s, x, sib⟩
  cases side <;> simp [ctxIds, ctxL, ctxR] <;> tauto

theorem atCtx_congr {h h' : Heap} {hd : Id} (k : Ctx) : ∀ {r : Id}, (∀ z ∈ ctxIds k, SameAt h h' z) →
    h'.parent hd = h.parent hd → AtCtx h hd k r → AtCtx h' hd k r := by
  induction k with
  | nil => intro r _ hp ha; exact hp.trans ha
  | cons f k ih =>
    intro r hs hp ha
    obtain ⟨a1, a2, a3, a4, a5, a6⟩ := ha
    have hx := hs f.x (by rw [ctxIds_cons]; exact Or.inl rfl)
    refine ⟨hx.1.trans a1, hx.2.2.2.1.trans a2, hx.2.2.2.2.trans a3, ?_, ?_, ?_⟩
    · rcases f with ⟨side, c, s, x, sib⟩
      cases side
      · exact ⟨hx.2.1.trans a4.1, hx.2.2.1.trans a4.2⟩
      · exact ⟨hx.2.1.trans a4.1, hx.2.2.1.trans a4.2⟩
    · exact at_congr _ (fun z hz => hs z (by rw [ctxIds_cons]; exact Or.inr (Or.inl hz))) a5
    · exact ih (fun z hz => hs z (by rw [ctxIds_cons]; exact Or.inr (Or.inr hz))) hp a6

/-- A change of the pointer into the hole. -/
theorem atCtx_hole {h h' : Heap} {hd : Id} {k : Ctx} {r r' : Id} (hk : (hd :: (ctxL k ++ ctxR k)).Nodup)
    (hs : ∀ z ∈ ctxIds k, z ≠ ctxPar hd k → SameAt h h' z)
    (hp : k ≠ [] → h'.parent hd = h.parent hd)
    (hh : match k with
      | [] => h'.parent hd = r'
      | f :: _ => h'.parent f.x = h.parent f.x ∧ h'.color f.x = h.color f.x ∧ h'.size f.x = h.size f.x ∧
        match f.side with
        | .left => h'.left f.x = r' ∧ h'.right f.x = h.right f.x
        | .right => h'.left f.x = h.left f.x ∧ h'.right f.x = r')
    (ha : AtCtx h hd k r) : AtCtx h' hd k r' := by
  cases k with
  | nil => exact hh
  | cons f k =>
    obtain ⟨a1, a2, a3, a4, a5, a6⟩ := ha
    have hn : f.x ∉ f.sib.ids ∧ f.x ∉ ctxIds k := by
      rcases f with ⟨side, c, s, x, sib⟩
      cases side
      · simp only [ctxL, ctxR, List.nodup_cons, List.nodup_append, List.mem_append, List.mem_cons, ctxIds] at hk ⊢
        grind
      · simp only [ctxL, ctxR, List.nodup_cons, List.nodup_append, List.mem_append, List.mem_cons, ctxIds] at hk ⊢
        grind
    refine ⟨hh.1.trans a1, hh.2.1.trans a2, hh.2.2.1.trans a3, ?_, ?_, ?_⟩
    · rcases f with ⟨side, c, s, x, sib⟩
      cases side
      · exact ⟨hh.2.2.2.1, hh.2.2.2.2.trans a4.2⟩
      · exact ⟨hh.2.2.2.1.trans a4.1, hh.2.2.2.2⟩
    · refine at_congr _ (fun z hz => hs z (by rw [ctxIds_cons]; exact Or.inr (Or.inl hz)) ?_) a5
      rintro rfl; exact hn.1 hz
    · refine atCtx_congr _ (fun z hz => hs z (by rw [ctxIds_cons]; exact Or.inr (Or.inr hz)) ?_) (hp (by simp)) a6
      rintro rfl; exact hn.2 hz

/-- Zipper form of `Shape`. -/
structure ZShape (h : Heap) (hd : Id) (k : Ctx) (t : T) : Prop where
  at' : At h (ctxPar hd k) t
  ctx : AtCtx h hd k t.root
  nodup : (hd :: (ctxL k ++ t.ids ++ ctxR k)).Nodup
  nz : 0 ∉ hd :: (ctxL k ++ t.ids ++ ctxR k)

theorem shape_plug {h : Heap} {hd : Id} {k : Ctx} {t : T} : Shape h hd (plug k t) ↔ ZShape h hd k t := by
  constructor
  · rintro ⟨a, b, c, d⟩
    obtain ⟨x, y⟩ := (at_plug h hd k t).1 ⟨a, b⟩
    rw [ids_plug] at c d
    exact ⟨x, y, c, d⟩
  · rintro ⟨a, b, c, d⟩
    obtain ⟨x, y⟩ := (at_plug h hd k t).2 ⟨a, b⟩
    exact ⟨x, y, by rw [ids_plug]; exact c, by rw [ids_plug]; exact d⟩

/-- Every node is at the root of some subtree. -/
theorem exists_zip {x : Id} (t : T) : x ∈ t.ids → ∃ k c s l r, t = plug k (.node c s l x r) := by
  suffices H : ∀ k0, x ∈ t.ids → ∃ k c s l r, plug k0 t = plug k (.node c s l x r) from H []
  induction t with
  | nil => intro _ h; simp [T.ids] at h
  | node c s l y r ihl ihr =>
    intro k0 h
    simp only [T.ids, List.mem_append, List.mem_cons] at h
    rcases h with h | rfl | h
    · obtain ⟨k, c', s', l', r', e⟩ := ihl (⟨.left, c, s, y, r⟩ :: k0) h
      exact ⟨k, c', s', l', r', e⟩
    · exact ⟨k0, c, s, l, r, rfl⟩
    · obtain ⟨k, c', s', l', r', e⟩ := ihr (⟨.right, c, s, y, l⟩ :: k0) h
      exact ⟨k, c', s', l', r', e⟩

end MI.Ord
