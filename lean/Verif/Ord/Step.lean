import Verif.Ord.Rot
/-! Tree transformations as steps on represented trees (helper lemmas). -/
namespace MI.Ord
open MI

/-- `h` holds the tree `t` with nodes `xs` and exact sizes, and differs from `h0` only in the links of the nodes and in the
root pointer. -/
structure St (h0 : Heap) (hd : Id) (xs : List Id) (h : Heap) (t : T) : Prop where
  shape : Shape h hd t
  ids : t.ids = xs
  sized : t.Sized
  frame : Frame h0 h (hd :: xs)
  hdr : h.left hd = h0.left hd ∧ h.right hd = h0.right hd ∧ h.color hd = h0.color hd ∧ h.size hd = h0.size hd

theorem St.start {h : Heap} {hd : Id} {t : T} (hs : Shape h hd t) (hz : t.Sized) : St h hd t.ids h t :=
  ⟨hs, rfl, hz, Frame.refl _ _, rfl, rfl, rfl, rfl⟩

theorem St.mirror {h0 : Heap} {hd : Id} {xs : List Id} {h : Heap} {t : T} (H : St h0 hd xs h t) :
    St h0.mirror hd xs.reverse h.mirror t.mirror := by
  obtain ⟨a, b, c, d, e1, e2, e3, e4⟩ := H
  refine ⟨shape_mirror.2 a, by rw [T.mirror_ids, b], (T.mirror_Sized t).2 c, ?_, e2, e1, e3, e4⟩
  rw [frame_mirror]
  exact d.mono (by simp)

theorem St.mirror_iff {h0 : Heap} {hd : Id} {xs : List Id} {h : Heap} {t : T} :
    St h0.mirror hd xs.reverse h.mirror t.mirror ↔ St h0 hd xs h t :=
  ⟨fun H => by simpa using H.mirror, St.mirror⟩

/-- Sizes along a path whose hole holds `n` nodes. -/
def CSized : Ctx → Nat → Prop
  | [], _ => True
  | f :: k, n => f.s = n + f.sib.ids.length + 1 ∧ f.sib.Sized ∧ CSized k f.s

theorem sized_plug (k : Ctx) : ∀ t : T, (plug k t).Sized ↔ t.Sized ∧ CSized k t.ids.length := by
  induction k with
  | nil => intro t; simp [plug, CSized]
  | cons f k ih =>
    intro t
    rw [plug, ih]
    rcases f with ⟨side, c, s, x, sib⟩
    cases side
    · simp only [Fr.fill, T.Sized, CSized, T.ids, List.length_append, List.length_cons]
      constructor
      · rintro ⟨⟨a, b, c⟩, d⟩
        have e : t.ids.length + (sib.ids.length + 1) = s := by omega
        rw [e] at d
        exact ⟨b, by omega, c, d⟩
      · rintro ⟨b, a, c, d⟩
        have e : t.ids.length + (sib.ids.length + 1) = s := by omega
        rw [e]
        exact ⟨⟨by omega, b, c⟩, d⟩
    · simp only [Fr.fill, T.Sized, CSized, T.ids, List.length_append, List.length_cons]
      constructor
      · rintro ⟨⟨a, b, c⟩, d⟩
        have e : sib.ids.length + (t.ids.length + 1) = s := by omega
        rw [e] at d
        exact ⟨c, by omega, b, d⟩
      · rintro ⟨b, a, c, d⟩
        have e : sib.ids.length + (t.ids.length + 1) = s := by omega
        rw [e]
        exact ⟨⟨by omega, c, b⟩, d⟩

theorem sz_eq {t : T} (h : t.Sized) : t.sz = t.ids.length := by
  cases t with
  | nil => rfl
  | node c s l x r => simp [T.sz, T.ids, h.1]; omega

/-- Fields of the node in focus. -/
theorem Shape.read {hd : Id} {h : Heap} {k : Ctx} {c : Color} {s : Nat} {l r : T} {x : Id}
    (H : Shape h hd (plug k (.node c s l x r))) :
    h.parent x = ctxPar hd k ∧ h.color x = c ∧ h.size x = s ∧ h.left x = l.root ∧ h.right x = r.root ∧ x ≠ 0 ∧ x ≠ hd := by
  obtain ⟨⟨a1, a2, a3, a4, a5, a6, a7⟩, b, c, d⟩ := shape_plug.1 H
  refine ⟨a1, a2, a3, a4, a5, ?_, ?_⟩
  · rintro rfl; exact d (by simp [T.ids])
  · rintro rfl; simp [T.ids] at c

theorem St.read {h0 : Heap} {hd : Id} {xs : List Id} {h : Heap} {k : Ctx} {c : Color} {s : Nat} {l r : T} {x : Id}
    (H : St h0 hd xs h (plug k (.node c s l x r))) :
    h.parent x = ctxPar hd k ∧ h.color x = c ∧ h.size x = s ∧ h.left x = l.root ∧ h.right x = r.root ∧ x ≠ 0 ∧ x ≠ hd :=
  H.shape.read

theorem ctxPar_mem {hd : Id} (k : Ctx) : ctxPar hd k = hd ∨ ctxPar hd k ∈ ctxIds k := by
  cases k with
  | nil => exact Or.inl rfl
  | cons f k => right; exact (ctxIds_cons (f := f) (k := k) f.x).2 (Or.inl rfl)

theorem Shape.root_iff {hd : Id} {h : Heap} {k : Ctx} {t : T} (H : Shape h hd (plug k t)) : t.root = h.parent hd ↔ k = [] := by
  have hz := shape_plug.1 H
  constructor
  · intro e
    cases k with
    | nil => rfl
    | cons f k =>
      exfalso
      have hm := atCtx_cons_root hz.ctx
      rw [← e] at hm
      by_cases h0 : t.root = 0
      · rw [h0] at hm
        have := hz.nz
        simp only [ctxIds, List.mem_append, List.mem_cons, not_or] at hm this
        tauto
      · have hn := hz.nodup
        have := root_mem h0
        simp only [ctxIds, List.mem_append, List.nodup_cons, List.nodup_append] at hm hn
        grind
  · rintro rfl
    exact H.root.symm

theorem St.ne_of_mem {h0 : Heap} {hd : Id} {xs : List Id} {h : Heap} {k : Ctx} {t : T} (H : St h0 hd xs h (plug k t))
    {x y : Id} (hx : x ∈ t.ids) (hy : y ∈ ctxIds k) : x ≠ y := by
  have hn := (shape_plug.1 H.shape).nodup
  simp only [ctxIds, List.mem_append, List.nodup_cons, List.nodup_append] at hy hn
  grind

theorem Shape.recolor {hd : Id} {h : Heap} {k : Ctx} {c : Color} {s : Nat} {l r : T} {x : Id}
    (H : Shape h hd (plug k (.node c s l x r))) (c' : Color) : Shape (h.setColor x c') hd (plug k (.node c' s l x r)) := by
  rw [shape_plug] at H ⊢
  obtain ⟨⟨a1, a2, a3, a4, a5, a6, a7⟩, b, c, d⟩ := H
  have hn := c
  simp only [T.ids, List.mem_append, List.nodup_cons, List.nodup_append, List.mem_cons] at hn
  have hs : ∀ z, z ≠ x → SameAt h (h.setColor x c') z := by intro z hz; simp [SameAt, upd, hz]
  refine ⟨⟨a1, by simp [upd], a3, a4, a5, ?_, ?_⟩, ?_, c, d⟩
  · refine at_congr _ (fun z hz => hs z ?_) a6
    rintro rfl; grind
  · refine at_congr _ (fun z hz => hs z ?_) a7
    rintro rfl; grind
  · refine atCtx_congr k (fun z hz => hs z ?_) rfl b
    simp only [ctxIds, List.mem_append] at hz
    rintro rfl; grind

theorem St.recolor {h0 : Heap} {hd : Id} {xs : List Id} {h : Heap} {k : Ctx} {c : Color} {s : Nat} {l r : T} {x : Id}
    (H : St h0 hd xs h (plug k (.node c s l x r))) (c' : Color) : St h0 hd xs (h.setColor x c') (plug k (.node c' s l x r)) := by
  have hr := H.read
  refine ⟨H.shape.recolor c', ?_, ?_, ?_, ?_⟩
  · rw [← H.ids, ids_plug, ids_plug]; rfl
  · have := H.sized
    rw [sized_plug] at this ⊢
    exact this
  · refine H.frame.trans (fun z hz => ?_)
    have : z ≠ x := by
      rintro rfl; apply hz; rw [← H.ids, ids_plug]; simp [T.ids]
    simp [upd, this]
  · have : hd ≠ x := Ne.symm hr.2.2.2.2.2.2
    simpa [upd, this] using H.hdr

theorem St.rotL {h0 : Heap} {hd : Id} {xs : List Id} {h : Heap} {k : Ctx} {c d : Color} {s s2 : Nat} {a b e : T} {x y : Id}
    (H : St h0 hd xs h (plug k (.node c s a x (.node d s2 b y e)))) :
    ∃ s', St h0 hd xs (rotateLeft h hd x) (plug k (.node d s (.node c s' a x b) y e)) := by
  obtain ⟨r1, r2, r3⟩ := rotateLeft_shape H.shape
  have hi : (plug k (.node d s (.node c (a.sz + b.sz + 1) a x b) y e)).ids = xs := by
    rw [← H.ids, ids_plug, ids_plug]; simp [T.ids]
  refine ⟨a.sz + b.sz + 1, r1, hi, ?_, ?_, ?_⟩
  · have hz := H.sized
    rw [sized_plug] at hz ⊢
    simp only [T.Sized, T.ids, List.length_append, List.length_cons] at hz ⊢
    obtain ⟨⟨q1, q2, q3, q4, q5⟩, q6⟩ := hz
    refine ⟨⟨by omega, ⟨by rw [sz_eq q2, sz_eq q4], q2, q4⟩, q5⟩, ?_⟩
    have : a.ids.length + (b.ids.length + 1) + (e.ids.length + 1) = a.ids.length + (b.ids.length + (e.ids.length + 1) + 1) := by omega
    rw [show a.ids.length + (b.ids.length + 1) + (e.ids.length + 1) = a.ids.length + (b.ids.length + (e.ids.length + 1) + 1) by omega]
    exact q6
  · refine H.frame.trans (fun z hz => ?_)
    have hall : ∀ w, w ∈ (plug k (T.node c s a x (.node d s2 b y e))).ids → z ≠ w := by
      rintro w hw rfl; apply hz; rw [← H.ids]; simp [hw]
    refine r2 z ?_ ?_ (fun hb => ?_) ?_
    · apply hall; rw [ids_plug]; simp [T.ids]
    · apply hall; rw [ids_plug]; simp [T.ids]
    · apply hall; rw [ids_plug]; have := root_mem hb; simp [T.ids, this]
    · rcases ctxPar_mem (hd := hd) k with e | e
      · rw [e]; rintro rfl; exact hz (by simp)
      · apply hall; rw [ids_plug]; simp only [ctxIds, List.mem_append] at e ⊢; tauto
  · obtain ⟨e1, e2, e3, e4⟩ := H.hdr
    exact ⟨r3.1.trans e1, r3.2.1.trans e2, r3.2.2.1.trans e3, r3.2.2.2.trans e4⟩

@[simp] theorem Fr.mirror_mirror (f : Fr) : f.mirror.mirror = f := by
  rcases f with ⟨side, c, s, x, sib⟩
  cases side <;> simp [Fr.mirror, Side.mirror]

@[simp] theorem Fr.map_mirror (k : Ctx) : List.map (Fr.mirror ∘ Fr.mirror) k = k := by
  induction k with
  | nil => rfl
  | cons f k ih => rw [List.map_cons, ih]; simp

theorem St.rotR {h0 : Heap} {hd : Id} {xs : List Id} {h : Heap} {k : Ctx} {c d : Color} {s s2 : Nat} {a b e : T} {x y : Id}
    (H : St h0 hd xs h (plug k (.node c s (.node d s2 e y b) x a))) :
    ∃ s', St h0 hd xs (rotateRight h hd x) (plug k (.node d s e y (.node c s' b x a))) := by
  have H' := H.mirror
  rw [plug_mirror] at H'
  simp only [T.mirror] at H'
  obtain ⟨s', H''⟩ := H'.rotL
  refine ⟨s', ?_⟩
  have H3 := H''.mirror
  rw [← rotateRight_mirror, plug_mirror] at H3
  simpa [T.mirror] using H3

/-! ### Red-black conditions along a path -/

/-- The hole must be filled with a black-rooted tree. -/
def mustBlack : Ctx → Prop
  | [] => True
  | f :: _ => f.c = .red

/-- The path obeys the red-black conditions when the hole has black height `n`, except that the hole may be red. -/
def CRB : Ctx → Nat → Prop
  | [], _ => True
  | ⟨_, .red, _, _, sib⟩ :: k, n => sib.black ∧ sib.RB n ∧ CRB k n ∧ ¬ mustBlack k
  | ⟨_, .black, _, _, sib⟩ :: k, n => sib.RB n ∧ CRB k (n + 1)

theorem rb_plug (k : Ctx) : ∀ t : T, RBTree (plug k t) ↔ ∃ n, CRB k n ∧ t.RB n ∧ (mustBlack k → t.black) := by
  induction k with
  | nil =>
    intro t
    simp only [plug, CRB, mustBlack, RBTree]
    constructor
    · rintro ⟨a, n, b⟩; exact ⟨n, trivial, b, fun _ => a⟩
    · rintro ⟨n, _, b, a⟩; exact ⟨a trivial, n, b⟩
  | cons f k ih =>
    intro t
    rw [plug, ih]
    rcases f with ⟨side, c, s, x, sib⟩
    cases c
    · cases side <;> simp only [Fr.fill, T.RB, CRB, mustBlack, T.black]
      · constructor
        · rintro ⟨n, a, ⟨b, c, d, e⟩, f⟩
          exact ⟨n, ⟨c, e, a, fun hm => by cases f hm⟩, d, fun _ => b⟩
        · rintro ⟨n, ⟨c, e, a, f⟩, d, b⟩
          exact ⟨n, a, ⟨b (by trivial), c, d, e⟩, fun hm => absurd hm f⟩
      · constructor
        · rintro ⟨n, a, ⟨b, c, d, e⟩, f⟩
          exact ⟨n, ⟨b, d, a, fun hm => by cases f hm⟩, e, fun _ => c⟩
        · rintro ⟨n, ⟨c, e, a, f⟩, d, b⟩
          exact ⟨n, a, ⟨c, b (by trivial), e, d⟩, fun hm => absurd hm f⟩
    · cases side <;> simp only [Fr.fill, T.RB, CRB, mustBlack, T.black]
      · constructor
        · rintro ⟨n, a, ⟨m, rfl, d, e⟩, f⟩
          exact ⟨m, ⟨e, a⟩, d, fun hm => by cases hm⟩
        · rintro ⟨n, ⟨e, a⟩, d, b⟩
          exact ⟨n + 1, a, ⟨n, rfl, d, e⟩, fun _ => by trivial⟩
      · constructor
        · rintro ⟨n, a, ⟨m, rfl, d, e⟩, f⟩
          exact ⟨m, ⟨d, a⟩, e, fun hm => by cases hm⟩
        · rintro ⟨n, ⟨e, a⟩, d, b⟩
          exact ⟨n + 1, a, ⟨n, rfl, e, d⟩, fun _ => by trivial⟩

end MI.Ord
