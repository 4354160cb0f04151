import Verif.Cont.CopyModel
import Verif.Ord.History
/-! The copy of an ordered index. -/
namespace MI.Ord
open MI

/-- A tree with other nodes. -/
def T.map (φ : Id → Id) : T → T
  | .nil => .nil
  | .node c s l x r => .node c s (l.map φ) (φ x) (r.map φ)

namespace T
variable {φ : Id → Id}

@[simp] theorem ids_map : ∀ t : T, (t.map φ).ids = t.ids.map φ
  | .nil => rfl
  | .node c s l x r => by simp [map, ids, ids_map l, ids_map r]

theorem root_map (h0 : φ 0 = 0) : ∀ t : T, (t.map φ).root = φ t.root
  | .nil => h0.symm
  | .node c s l x r => rfl

theorem sized_map : ∀ {t : T}, t.Sized → (t.map φ).Sized
  | .nil, _ => trivial
  | .node c s l x r, ⟨h1, h2, h3⟩ => ⟨by simpa using h1, sized_map h2, sized_map h3⟩

theorem black_map : ∀ {t : T}, t.black → (t.map φ).black
  | .nil, _ => trivial
  | .node .black s l x r, _ => rfl

theorem rb_map : ∀ {t : T} {n : Nat}, t.RB n → (t.map φ).RB n
  | .nil, _, h => h
  | .node .red s l x r, n, ⟨h1, h2, h3, h4⟩ => ⟨black_map h1, black_map h2, rb_map h3, rb_map h4⟩
  | .node .black s l x r, n, ⟨m, e, h3, h4⟩ => ⟨m, e, rb_map h3, rb_map h4⟩

theorem rbTree_map {t : T} (h : RBTree t) : RBTree (t.map φ) := by
  obtain ⟨h1, n, h2⟩ := h
  exact ⟨black_map h1, n, rb_map h2⟩

end T

/-- How the links of a tree are related. -/
structure Linked (h : Heap) (x : Id) (D ids : List Id) : Prop where
  par : h.parent x ∈ D
  left : h.left x = 0 ∨ (h.left x ∈ ids ∧ h.parent (h.left x) = x)
  right : h.right x = 0 ∨ (h.right x ∈ ids ∧ h.parent (h.right x) = x ∧ h.left x ≠ h.right x)

theorem Linked.mono {h : Heap} {x : Id} {D D' ids ids' : List Id} (l : Linked h x D ids) (h1 : ∀ y ∈ D, y ∈ D') (h2 : ∀ y ∈ ids, y ∈ ids') :
    Linked h x D' ids' :=
  ⟨h1 _ l.par, l.left.imp id (fun k => ⟨h2 _ k.1, k.2⟩), l.right.imp id (fun k => ⟨h2 _ k.1, k.2⟩)⟩

theorem root_cases (t : T) : t.root = 0 ∨ t.root ∈ t.ids := by
  cases t with
  | nil => exact Or.inl rfl
  | node c s l x r => right; simp [T.root, T.ids]

theorem At.parent_root {h : Heap} {par : Id} {t : T} (a : At h par t) (n : t.root ≠ 0) : h.parent t.root = par := by
  cases t with
  | nil => exact absurd rfl n
  | node c s l x r => exact a.1

theorem At.linked {h : Heap} : ∀ {t : T} {par : Id}, At h par t → t.ids.Nodup → 0 ∉ t.ids → ∀ x ∈ t.ids, Linked h x (par :: t.ids) t.ids
  | .nil, _, _, _, _, _, hx => nomatch hx
  | .node c s l y r, par, ⟨a1, a2, a3, a4, a5, a6, a7⟩, nd, nz, x, hx => by
    simp only [T.ids] at nd nz hx ⊢
    rw [List.nodup_append] at nd
    obtain ⟨n1, n2, n3⟩ := nd
    have n4 := List.nodup_cons.1 n2
    simp only [List.mem_append, List.mem_cons, not_or] at nz
    rcases List.mem_append.1 hx with k | k
    · exact (At.linked a6 n1 nz.1 x k).mono (by intro z; simp; tauto) (by intro z; simp; tauto)
    · rcases List.mem_cons.1 k with rfl | k
      · refine ⟨by rw [a1]; simp, ?_, ?_⟩
        · rw [a4]
          rcases root_cases l with e | e
          · exact Or.inl e
          · right
            refine ⟨by simp [e], a6.parent_root (fun q => nz.1 (q ▸ e))⟩
        · rw [a5, a4]
          rcases root_cases r with e | e
          · exact Or.inl e
          · right
            refine ⟨by simp [e], a7.parent_root (fun q => nz.2.2 (q ▸ e)), fun q => ?_⟩
            rcases root_cases l with e2 | e2
            · rw [e2] at q; exact nz.2.2 (q ▸ e)
            · exact n3 _ e2 _ (List.mem_cons_of_mem _ e) q
      · exact (At.linked a7 n4.2 nz.2.2 x k).mono (by intro z; simp; tauto) (by intro z; simp; tauto)

/-- The fields of a node of the copy are the translations of those of the original. -/
structure OkNode (φ : Id → Id) (h c : Heap) (y : Id) : Prop where
  parent : c.parent (φ y) = φ (h.parent y)
  color : c.color (φ y) = h.color y
  size : c.size (φ y) = h.size y
  left : c.left (φ y) = φ (h.left y)
  right : c.right (φ y) = φ (h.right y)

theorem At.copy {φ : Id → Id} {h c : Heap} (h0 : φ 0 = 0) : ∀ {t : T} {par : Id}, At h par t → (∀ x ∈ t.ids, OkNode φ h c x) → At c (φ par) (t.map φ)
  | .nil, _, _, _ => trivial
  | .node cl s l y r, par, ⟨a1, a2, a3, a4, a5, a6, a7⟩, ok => by
    have o := ok y (by simp [T.ids])
    exact ⟨by rw [o.parent, a1], by rw [o.color, a2], by rw [o.size, a3], by rw [o.left, a4, T.root_map h0], by rw [o.right, a5, T.root_map h0],
      At.copy h0 a6 (fun x hx => ok x (by simp [T.ids, hx])), At.copy h0 a7 (fun x hx => ok x (by simp [T.ids, hx]))⟩

section
variable {φ : Id → Id} {h c : Heap} {f : Id → Option Id} {D ids : List Id}

theorem upd_ok {β : Type _} (inj : ∀ y ∈ D, ∀ z ∈ D, φ y = φ z → y = z) {g : Id → β} {v : Id → β} {y z : Id} (hy : y ∈ D) (hz : z ∈ D)
    (e : g (φ y) = v y) : upd g (φ z) (v z) (φ y) = v y := by
  by_cases k : φ y = φ z
  · obtain rfl := inj y hy z hz k
    exact upd_same _ _ _
  · rw [upd_other _ _ k, e]

/-- What was right stays right. -/
structure Keeps (φ : Id → Id) (h c c' : Heap) (D : List Id) : Prop where
  parent : ∀ y ∈ D, c.parent (φ y) = φ (h.parent y) → c'.parent (φ y) = φ (h.parent y)
  color : ∀ y ∈ D, c.color (φ y) = h.color y → c'.color (φ y) = h.color y
  size : ∀ y ∈ D, c.size (φ y) = h.size y → c'.size (φ y) = h.size y
  left : ∀ y ∈ D, c.left (φ y) = φ (h.left y) → c'.left (φ y) = φ (h.left y)
  right : ∀ y ∈ D, c.right (φ y) = φ (h.right y) → c'.right (φ y) = φ (h.right y)

theorem Keeps.refl : Keeps φ h c c D := ⟨fun _ _ k => k, fun _ _ k => k, fun _ _ k => k, fun _ _ k => k, fun _ _ k => k⟩

theorem Keeps.trans {c' c'' : Heap} (k : Keeps φ h c c' D) (l : Keeps φ h c' c'' D) : Keeps φ h c c'' D :=
  ⟨fun y hy e => l.parent y hy (k.parent y hy e), fun y hy e => l.color y hy (k.color y hy e), fun y hy e => l.size y hy (k.size y hy e),
    fun y hy e => l.left y hy (k.left y hy e), fun y hy e => l.right y hy (k.right y hy e)⟩

variable (inj : ∀ y ∈ D, ∀ z ∈ D, φ y = φ z → y = z)
include inj

theorem keeps_parent {z : Id} {v : Id} (hz : z ∈ D) (e : v = φ (h.parent z)) : Keeps φ h c (c.setParent (φ z) v) D :=
  e ▸ { Keeps.refl with parent := fun _ hy e => upd_ok (v := fun y => φ (h.parent y)) inj hy hz e }
theorem keeps_color {z : Id} (hz : z ∈ D) : Keeps φ h c (c.setColor (φ z) (h.color z)) D :=
  { Keeps.refl with color := fun _ hy e => upd_ok (v := h.color) inj hy hz e }
theorem keeps_size {z : Id} (hz : z ∈ D) : Keeps φ h c (c.setSize (φ z) (h.size z)) D :=
  { Keeps.refl with size := fun _ hy e => upd_ok (v := h.size) inj hy hz e }
theorem keeps_left {z : Id} {v : Id} (hz : z ∈ D) (e : v = φ (h.left z)) : Keeps φ h c (c.setLeft (φ z) v) D :=
  e ▸ { Keeps.refl with left := fun _ hy e => upd_ok (v := fun y => φ (h.left y)) inj hy hz e }
theorem keeps_right {z : Id} {v : Id} (hz : z ∈ D) (e : v = φ (h.right z)) : Keeps φ h c (c.setRight (φ z) v) D :=
  e ▸ { Keeps.refl with right := fun _ hy e => upd_ok (v := fun y => φ (h.right y)) inj hy hz e }

variable (h0 : φ 0 = 0) (hf : ∀ x ∈ D, f x = some (φ x)) (z0 : 0 ∉ D) (hD : ∀ x ∈ ids, x ∈ D)
include h0 hf z0 hD

/-- What one round of the loop does. -/
theorem copyEntry_spec {x : Id} (hx : x ∈ ids) (lk : Linked h x D ids) : ∃ c', copyEntry f h c x (φ x) = some c' ∧ Keeps φ h c c' D ∧
    (c'.parent (φ x) = φ (h.parent x) ∧ c'.color (φ x) = h.color x ∧ c'.size (φ x) = h.size x) ∧
    (h.left x = 0 → c'.left (φ x) = φ (h.left x)) ∧ (h.right x = 0 → c'.right (φ x) = φ (h.right x)) ∧
    (h.left (h.parent x) = x → c'.left (φ (h.parent x)) = φ x) ∧
    (h.left (h.parent x) ≠ x → h.right (h.parent x) = x → c'.right (φ (h.parent x)) = φ x) := by
  have xD := hD x hx
  have p0 : h.parent x ≠ 0 := fun q => z0 (q ▸ lk.par)
  have e := hf _ lk.par
  -- first part
  obtain ⟨c1, d1, d2, d3, d4⟩ : ∃ c1, c1 = (c.setColor (φ x) (h.color x)).setSize (φ x) (h.size x) ∧ Keeps φ h c c1 D ∧ c1.color (φ x) = h.color x ∧
      c1.size (φ x) = h.size x :=
    ⟨_, rfl, (keeps_color inj xD).trans (keeps_size inj xD), upd_same _ _ _, upd_same _ _ _⟩
  have e2 := keeps_parent (h := h) (c := c1) inj xD rfl
  obtain ⟨c2, f1, f2, f3, f4, f5⟩ : ∃ c2, (if h.left (h.parent x) = x then some ((c1.setParent (φ x) (φ (h.parent x))).setLeft (φ (h.parent x)) (φ x))
      else if h.right (h.parent x) = x then some ((c1.setParent (φ x) (φ (h.parent x))).setRight (φ (h.parent x)) (φ x))
      else some (c1.setParent (φ x) (φ (h.parent x)))) = some c2 ∧ Keeps φ h c1 c2 D ∧ c2.parent (φ x) = φ (h.parent x) ∧
      (h.left (h.parent x) = x → c2.left (φ (h.parent x)) = φ x) ∧
      (h.left (h.parent x) ≠ x → h.right (h.parent x) = x → c2.right (φ (h.parent x)) = φ x) := by
    by_cases l1 : h.left (h.parent x) = x
    · exact ⟨_, if_pos l1, e2.trans (keeps_left inj lk.par (by rw [l1])), upd_same _ _ _, fun _ => upd_same _ _ _, fun q => absurd l1 q⟩
    · by_cases r1 : h.right (h.parent x) = x
      · exact ⟨_, by rw [if_neg l1, if_pos r1], e2.trans (keeps_right inj lk.par (by rw [r1])), upd_same _ _ _, fun q => absurd q l1, fun _ _ => upd_same _ _ _⟩
      · exact ⟨_, by rw [if_neg l1, if_neg r1], e2, upd_same _ _ _, fun q => absurd q l1, fun _ q => absurd q r1⟩
  obtain ⟨c3, g1, g2, g3⟩ : ∃ c3, c3 = (if h.left x = 0 then c2.setLeft (φ x) 0 else c2) ∧ Keeps φ h c2 c3 D ∧ (h.left x = 0 → c3.left (φ x) = φ (h.left x)) := by
    by_cases l0 : h.left x = 0
    · exact ⟨_, rfl, by rw [if_pos l0]; exact keeps_left inj xD (by rw [l0, h0]), fun _ => by rw [if_pos l0, l0, h0]; exact upd_same _ _ _⟩
    · exact ⟨_, rfl, by rw [if_neg l0]; exact Keeps.refl, fun q => absurd q l0⟩
  obtain ⟨c4, i1, i2, i3⟩ : ∃ c4, c4 = (if h.right x = 0 then c3.setRight (φ x) 0 else c3) ∧ Keeps φ h c3 c4 D ∧ (h.right x = 0 → c4.right (φ x) = φ (h.right x)) := by
    by_cases l0 : h.right x = 0
    · exact ⟨_, rfl, by rw [if_pos l0]; exact keeps_right inj xD (by rw [l0, h0]), fun _ => by rw [if_pos l0, l0, h0]; exact upd_same _ _ _⟩
    · exact ⟨_, rfl, by rw [if_neg l0]; exact Keeps.refl, fun q => absurd q l0⟩
  have tl := g2.trans i2
  refine ⟨c4, ?_, d2.trans (f2.trans tl), ⟨tl.parent x xD f3, tl.color x xD (f2.color x xD d3), tl.size x xD (f2.size x xD d4)⟩,
    fun q => i2.left x xD (g3 q), i3, fun q => ?_, fun q r => ?_⟩
  · simp only [copyEntry, if_neg p0, e]
    rw [← d1, f1]
    simp only []
    rw [← g1, ← i1]
  · have := tl.left _ lk.par (by rw [q]; exact f4 q)
    rw [this, q]
  · have := tl.right _ lk.par (by rw [r]; exact f5 q r)
    rw [this, r]

theorem copyEntries_spec (lk : ∀ x ∈ ids, Linked h x D ids) : ∀ {l : List Id} {c : Heap}, (∀ x ∈ l, x ∈ ids) →
    ∃ c', copyEntries f h (l.map fun x => (x, φ x)) c = some c' ∧ Keeps φ h c c' D ∧ ∀ x ∈ l,
      (c'.parent (φ x) = φ (h.parent x) ∧ c'.color (φ x) = h.color x ∧ c'.size (φ x) = h.size x) ∧
      (h.left x = 0 → c'.left (φ x) = φ (h.left x)) ∧ (h.right x = 0 → c'.right (φ x) = φ (h.right x)) ∧
      (h.left (h.parent x) = x → c'.left (φ (h.parent x)) = φ x) ∧
      (h.left (h.parent x) ≠ x → h.right (h.parent x) = x → c'.right (φ (h.parent x)) = φ x)
  | [], c, _ => ⟨c, rfl, Keeps.refl, fun _ k => nomatch k⟩
  | x :: l, c, hl => by
    have xi := hl x (by simp)
    have xD := hD x xi
    have pD := (lk x xi).par
    obtain ⟨c1, a1, a2, a3, a4, a5, a6, a7⟩ := copyEntry_spec (c := c) inj h0 hf z0 hD xi (lk x xi)
    obtain ⟨c2, b1, b2, b3⟩ := copyEntries_spec lk (l := l) (c := c1) (fun y hy => hl y (by simp [hy]))
    refine ⟨c2, by simp only [List.map_cons, copyEntries, a1, b1], a2.trans b2, ?_⟩
    intro y hy
    rcases List.mem_cons.1 hy with rfl | hy
    · refine ⟨⟨b2.parent y xD a3.1, b2.color y xD a3.2.1, b2.size y xD a3.2.2⟩, fun q => b2.left y xD (a4 q), fun q => b2.right y xD (a5 q), fun q => ?_, fun q r => ?_⟩
      · rw [b2.left _ pD (by rw [a6 q, q]), q]
      · rw [b2.right _ pD (by rw [a7 q r, r]), r]
    · exact b3 y hy

end

/-- The copy of an ordered index holds the clones in the same order, whatever the order of the entries of the map. -/
theorem copy_spec {φ : Id → Id} {f : Id → Option Id} {h c : Heap} {hd : Id} {xs l : List Id} (w : Rep h hd xs) (h0 : φ 0 = 0)
    (hf : ∀ x ∈ hd :: xs, f x = some (φ x)) (nd : ((hd :: xs).map φ).Nodup) (nz : 0 ∉ (hd :: xs).map φ) (hl : l.Perm xs) :
    ∃ c', copy f (l.map fun x => (x, φ x)) h hd c (φ hd) = some c' ∧ Rep c' (φ hd) (xs.map φ) := by
  obtain ⟨t, ⟨sh, cl, fi, la⟩, rb, sz, rfl⟩ := w
  have inj : ∀ y ∈ hd :: t.ids, ∀ z ∈ hd :: t.ids, φ y = φ z → y = z := fun y hy z hz e => List.inj_on_of_nodup_map nd hy hz e
  cases ht : t with
  | nil =>
    subst ht
    refine ⟨_, by simp only [copy, sh.root, T.root, if_true]; rfl, ?_⟩
    exact emptyInit_rep c (fun q => nz (by simp [q]))
  | node k s lt x r =>
    have xm : x ∈ t.ids := by simp [ht, T.ids]
    have rx : h.parent hd = x := by rw [sh.root, ht]; rfl
    have x0 : x ≠ 0 := fun q => sh.nz (by rw [← q]; simp [xm])
    have ne : t.ids ≠ [] := fun q => by rw [q] at xm; exact nomatch xm
    have lm : h.left hd ∈ hd :: t.ids := by
      rw [fi]
      cases e : t.ids with
      | nil => exact absurd e ne
      | cons y r => simp [hdOr]
    have rm : h.right hd ∈ hd :: t.ids := by
      rw [la]
      rcases List.eq_nil_or_concat' t.ids with e | ⟨u, z, e⟩
      · exact absurd e ne
      · rw [e, List.getLastD_concat]; simp
    have lk := sh.at'.linked (List.nodup_cons.1 sh.nodup).2 (fun q => sh.nz (by simp [q]))
    obtain ⟨c0, z1, z2, z3, z4, z5⟩ : ∃ c0, c0 = ((((c.setColor (φ hd) (h.color hd)).setSize (φ hd) (h.size hd)).setParent (φ hd) (φ (h.parent hd))).setLeft (φ hd) (φ (h.left hd))).setRight
        (φ hd) (φ (h.right hd)) ∧ c0.parent (φ hd) = φ (h.parent hd) ∧ c0.color (φ hd) = h.color hd ∧ c0.left (φ hd) = φ (h.left hd) ∧ c0.right (φ hd) = φ (h.right hd) :=
      ⟨_, rfl, upd_same _ _ _, upd_same _ _ _, upd_same _ _ _, upd_same _ _ _⟩
    obtain ⟨c1, k1, k2, k3⟩ := copyEntries_spec inj h0 hf sh.nz (fun y hy => List.mem_cons_of_mem _ hy) lk (l := l) (c := c0) (fun y hy => hl.mem_iff.1 hy)
    rw [← ht]
    have hdm : hd ∈ hd :: t.ids := by simp
    have all : ∀ y ∈ t.ids, OkNode φ h c1 y := by
      intro y hy
      obtain ⟨⟨o1, o2, o3⟩, o4, o5, -, -⟩ := k3 y (hl.mem_iff.2 hy)
      have lky := lk y hy
      refine ⟨o1, o2, o3, ?_, ?_⟩
      · rcases lky.left with q | ⟨q1, q2⟩
        · exact o4 q
        · obtain ⟨-, -, -, o, -⟩ := k3 _ (hl.mem_iff.2 q1)
          rw [q2] at o
          exact o rfl
      · rcases lky.right with q | ⟨q1, q2, q3⟩
        · exact o5 q
        · obtain ⟨-, -, -, -, o⟩ := k3 _ (hl.mem_iff.2 q1)
          rw [q2] at o
          exact o q3 rfl
    refine ⟨c1, ?_, t.map φ, ⟨⟨sh.at'.copy h0 all, ?_, by simpa using nd, by simpa using nz⟩, ?_, ?_, ?_⟩, T.rbTree_map rb, T.sized_map sz, by simp⟩
    · rw [rx] at z1
      simp only [copy, rx, if_neg x0, hf x (by simp [xm]), hf _ lm, hf _ rm]
      rw [← z1]
      exact k1
    · rw [k2.parent hd hdm z2, sh.root, T.root_map h0]
    · rw [k2.color hd hdm z3, cl]
    · rw [k2.left hd hdm z4, fi]
      cases e : t.ids with
      | nil => exact absurd e ne
      | cons y r => simp [hdOr, e]
    · rw [k2.right hd hdm z5, la]
      rcases List.eq_nil_or_concat' t.ids with e | ⟨u, z, e⟩
      · exact absurd e ne
      · simp [e]

end MI.Ord
