import Verif.Ord.Step
/-! A potential of red-black trees that pays for the rounds of rebalancing (helper lemmas). -/
namespace MI.Ord
open MI

/-- The root is red. -/
def T.red : T → Bool
  | .node .red _ _ _ _ => true
  | _ => false

/-- Weight of a node from its colour and which of its children are red: a black node with two red children will be recoloured by
insertions, one with none by removals. -/
def wt : Color → Bool → Bool → Nat
  | .red, _, _ => 0
  | .black, false, false => 1
  | .black, true, true => 2
  | .black, _, _ => 0

/-- The sum of the weights. -/
def T.pot : T → Nat
  | .nil => 0
  | .node c _ l _ r => wt c l.red r.red + l.pot + r.pot

/-- The weights outside the hole, if the tree in the hole is red or not. -/
def ctxPot : Ctx → Bool → Nat
  | [], _ => 0
  | f :: k, b => wt f.c b f.sib.red + f.sib.pot + ctxPot k (decide (f.c = .red))

theorem wt_comm (c : Color) (a b : Bool) : wt c a b = wt c b a := by cases c <;> cases a <;> cases b <;> rfl

theorem wt_le (c : Color) (a b : Bool) : wt c a b ≤ 2 := by cases c <;> cases a <;> cases b <;> decide

theorem red_node (c : Color) (s : Nat) (l : T) (x : Id) (r : T) : (T.node c s l x r).red = decide (c = .red) := by cases c <;> rfl

theorem red_black {t : T} (h : t.black) : t.red = false := by
  cases t with
  | nil => rfl
  | node c s l x r => cases (show c = .black from h); rfl

@[simp] theorem red_nil : T.red .nil = false := rfl
@[simp] theorem pot_nil : T.pot .nil = 0 := rfl

theorem pot_plug (k : Ctx) : ∀ t : T, (plug k t).pot = t.pot + ctxPot k t.red := by
  induction k with
  | nil => intro t; rfl
  | cons f k ih =>
    intro t
    rw [plug, ih]
    rcases f with ⟨side, c, s, x, sib⟩
    cases side
    · simp only [Fr.fill, T.pot, ctxPot, red_node]; omega
    · simp only [Fr.fill, T.pot, ctxPot, red_node, wt_comm c sib.red]; omega

/-- Changing the colour of the root of the tree in the hole changes the weight of one node. -/
theorem ctxPot_le (k : Ctx) (a b : Bool) : ctxPot k a ≤ ctxPot k b + 2 := by
  cases k with
  | nil => simp [ctxPot]
  | cons f k =>
    have := wt_le f.c a f.sib.red
    simp only [ctxPot]; omega

/-- None under a red node or at the root. -/
theorem ctxPot_must {k : Ctx} (h : mustBlack k) (a b : Bool) : ctxPot k a = ctxPot k b := by
  cases k with
  | nil => rfl
  | cons f k => simp only [ctxPot]; rw [show f.c = .red from h]; rfl

theorem mirror_red (t : T) : t.mirror.red = t.red := by
  cases t with
  | nil => rfl
  | node c s l x r => cases c <;> rfl

@[simp] theorem mirror_pot (t : T) : t.mirror.pot = t.pot := by
  induction t with
  | nil => rfl
  | node c s l x r ihl ihr => simp only [T.mirror, T.pot, ihl, ihr, mirror_red, wt_comm c r.red]; omega

/-- The potential is at most twice the number of nodes. -/
theorem pot_le (t : T) : t.pot ≤ 2 * t.ids.length := by
  induction t with
  | nil => simp [T.ids]
  | node c s l x r ihl ihr =>
    have := wt_le c l.red r.red
    simp only [T.pot, T.ids, List.length_append, List.length_cons]; omega

/-- A path is no longer than the tree is high. -/
theorem ctx_height (k : Ctx) : ∀ t : T, k.length + t.height ≤ (plug k t).height := by
  induction k with
  | nil => intro t; simp [plug]
  | cons f k ih =>
    intro t
    rcases f with ⟨side, c, s, x, sib⟩
    cases side with
    | left =>
      have := ih (.node c s t x sib)
      have e : plug (⟨.left, c, s, x, sib⟩ :: k) t = plug k (.node c s t x sib) := rfl
      rw [e]
      simp only [T.height, List.length_cons] at *; omega
    | right =>
      have := ih (.node c s sib x t)
      have e : plug (⟨.right, c, s, x, sib⟩ :: k) t = plug k (.node c s sib x t) := rfl
      rw [e]
      simp only [T.height, List.length_cons] at *; omega

/-- The index with header `hd` holds `xs`, with this potential. -/
def RepP (h : Heap) (hd : Id) (xs : List Id) (P : Nat) : Prop :=
  ∃ t : T, RepT h hd t ∧ RBTree t ∧ t.Sized ∧ t.ids = xs ∧ t.pot = P

theorem RepP.rep {h : Heap} {hd : Id} {xs : List Id} {P : Nat} (r : RepP h hd xs P) : Rep h hd xs := by
  obtain ⟨t, a, b, c, d, -⟩ := r
  exact ⟨t, a, b, c, d⟩

theorem Rep.pot {h : Heap} {hd : Id} {xs : List Id} (r : Rep h hd xs) : ∃ P, RepP h hd xs P := by
  obtain ⟨t, a, b, c, d⟩ := r
  exact ⟨t.pot, t, a, b, c, d, rfl⟩

theorem at_unique {h : Heap} (t : T) : ∀ {t' : T} {p : Id}, At h p t → At h p t' → t.root = t'.root → 0 ∉ t.ids → 0 ∉ t'.ids → t = t' := by
  induction t with
  | nil =>
    intro t' p _ _ e _ h0
    exact ((root_zero h0).1 e.symm).symm
  | node c s l x r ihl ihr =>
    intro t' p a b e h0 h0'
    cases t' with
    | nil => exact absurd ((root_zero h0).1 e) (by simp)
    | node c' s' l' x' r' =>
      have e : x = x' := e
      subst e
      obtain ⟨_, a2, a3, a4, a5, a6, a7⟩ := a
      obtain ⟨_, b2, b3, b4, b5, b6, b7⟩ := b
      simp only [T.ids, List.mem_append, List.mem_cons, not_or] at h0 h0'
      rw [← a2, ← a3, b2, b3, ihl a6 b6 (a4.symm.trans b4) h0.1 h0'.1, ihr a7 b7 (a5.symm.trans b5) h0.2.2 h0'.2.2]

/-- A heap holds one tree below a header. -/
theorem shape_unique {h : Heap} {hd : Id} {t t' : T} (a : Shape h hd t) (b : Shape h hd t') : t = t' :=
  at_unique t a.at' b.at' (a.root.symm.trans b.root) (fun q => a.nz (by simp [q])) (fun q => b.nz (by simp [q]))

theorem RepP.tree {h : Heap} {hd : Id} {xs : List Id} {P : Nat} {t : T} (r : RepP h hd xs P) (s : Shape h hd t) : t.pot = P := by
  obtain ⟨t', a, -, -, -, rfl⟩ := r
  rw [shape_unique s a.shape]

end MI.Ord
