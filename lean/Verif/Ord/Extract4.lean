import Verif.Ord.Extract3
/-! Removal of a node: the complete operation (helper lemmas). -/
namespace MI.Ord
open MI

/-- The end of `extract`: rebalancing when a black node has left the tree. -/
def finish (n : Nat) (h : Heap) (hd z x xp : Id) (w : Nat) : Option (Heap × Rounds) :=
  if h.color z ≠ .red then
    match extractFixS hd n h x xp with
    | none => none
    | some ((h, x), f) => some (if x ≠ 0 then h.setColor x .black else h, ⟨w, f⟩)
  else some (h, ⟨w, 0⟩)

theorem extract_eq (n : Nat) (h : Heap) (hd z : Id) : extractS n h hd z =
    match chooseExtractS n h z with
    | none => none
    | some ((y, x), w) =>
      match augRemove (h.parent hd) n h y with
      | none => none
      | some h =>
        match (if y ≠ z then some (replaceBySucc h hd z y x, 0) else spliceOutS n h hd z x) with
        | none => none
        | some ((h, xp), w') => finish n h hd z x xp (w + w') := rfl

theorem finish_spec {h : Heap} {hd z : Id} {K : Ctx} {ch : T} {N n w : Nat}
    (S : Shape h hd (plug K ch)) (hs : (plug K ch).Sized) (hc : h.color hd = .red)
    (hf : h.left hd = hdOr hd (plug K ch).ids) (hl : h.right hd = (plug K ch).ids.getLastD hd)
    (hK : CRB K n) (hcz : (h.color z = .red ∧ ch.RB n ∧ ch.black) ∨ (h.color z = .black ∧ ∃ m, n = m + 1 ∧ ch.RB m))
    (hN : K.length + 2 ≤ N) :
    ∃ h' f P, finish N h hd z ch.root (ctxPar hd K) w = some (h', ⟨w, f⟩) ∧ RepP h' hd (plug K ch).ids P ∧
      Frame h h' (hd :: (plug K ch).ids) ∧ f + P ≤ (plug K ch).pot + 5 ∧ f ≤ K.length + 2 := by
  unfold finish
  rcases hcz with ⟨hz, hch, hb⟩ | ⟨hz, m, rfl, hch⟩
  · rw [if_neg (by simp [hz])]
    exact ⟨h, 0, _, rfl, ⟨_, ⟨S, hc, hf, hl⟩, (rb_plug K ch).2 ⟨n, hK, hch, fun _ => hb⟩, hs, rfl, rfl⟩, Frame.refl _ _, by omega, by omega⟩
  · rw [if_pos (by simp [hz])]
    obtain ⟨h', x', f, e, t', S', hb', hp, -⟩ := extractFix_spec (K.length + 1) K (N := K.length + 2) (Or.inl (by omega)) (St.start S hs) (rb_wrb hch) hK (Nat.le_refl _)
    obtain ⟨hfk, e⟩ := extractFixS_bound hd e
    have e := e N hN
    rw [e]
    refine ⟨_, f, _, rfl, ⟨t', ⟨S'.shape, ?_, ?_, ?_⟩, hb', S'.sized, S'.ids, rfl⟩, S'.frame, hp, hfk⟩
    · exact S'.hdr.2.2.1.trans hc
    · exact S'.hdr.1.trans (by rw [hf, S'.ids])
    · exact S'.hdr.2.1.trans (by rw [hl, S'.ids])

theorem crb_rename {sd : Side} {c : Color} {s s' : Nat} {z y : Id} {l : T} {k : Ctx} (k1 : Ctx) : ∀ n,
    CRB (k1 ++ ⟨sd, c, s, z, l⟩ :: k) n ↔ CRB (k1 ++ ⟨sd, c, s', y, l⟩ :: k) n := by
  induction k1 with
  | nil => intro n; cases c <;> exact Iff.rfl
  | cons f k1 ih =>
    intro n
    rcases f with ⟨side, fc, fs, fx, sib⟩
    have hm : mustBlack (k1 ++ ⟨sd, c, s, z, l⟩ :: k) ↔ mustBlack (k1 ++ ⟨sd, c, s', y, l⟩ :: k) := by
      cases k1 <;> exact Iff.rfl
    cases fc
    · simp only [List.cons_append, CRB, ih, hm]
    · simp only [List.cons_append, CRB, ih]

theorem csized_rename {sd : Side} {c : Color} {s : Nat} {z y : Id} {l : T} {k : Ctx} (k1 : Ctx) : ∀ n,
    CSized (k1 ++ ⟨sd, c, s, z, l⟩ :: k) n ↔ CSized (k1 ++ ⟨sd, c, s, y, l⟩ :: k) n := by
  induction k1 with
  | nil => intro n; exact Iff.rfl
  | cons f k1 ih => intro n; simp only [List.cons_append, CSized, ih]

theorem pot_rename {sd : Side} {c : Color} {s s' : Nat} {z y : Id} {l : T} {k : Ctx} (k1 : Ctx) : ∀ b,
    ctxPot (k1 ++ ⟨sd, c, s, z, l⟩ :: k) b = ctxPot (k1 ++ ⟨sd, c, s', y, l⟩ :: k) b := by
  induction k1 with
  | nil => intro b; rfl
  | cons f k1 ih => intro b; simp only [List.cons_append, ctxPot, ih]

/-- A node that leaves with at most one child takes its weight with it. -/
theorem pot_hole {K : Ctx} {cy : Color} {sy : Nat} {l r ch : T} {y : Id} (hch : (l = .nil ∧ ch = r) ∨ (r = .nil ∧ ch = l)) :
    (plug K ch).pot ≤ (plug K (.node cy sy l y r)).pot + 2 := by
  rw [pot_plug, pot_plug]
  have := ctxPot_le K ch.red (T.node cy sy l y r).red
  have : ch.pot ≤ (T.node cy sy l y r).pot := by
    rcases hch with ⟨rfl, rfl⟩ | ⟨rfl, rfl⟩ <;> simp only [T.pot] <;> omega
  omega

/-- A node with a missing child has at most a leaf as its other child. -/
theorem rb_leaf {K : Ctx} {cy : Color} {sy : Nat} {l r ch : T} {y : Id} (hb : RBTree (plug K (.node cy sy l y r)))
    (hch : (l = .nil ∧ ch = r) ∨ (r = .nil ∧ ch = l)) : ch.height ≤ 1 := by
  obtain ⟨n, h1, h2, _⟩ := (rb_plug K _).1 hb
  have key : ∀ t : T, t.RB 0 → t.height ≤ 1 := by
    intro t ht
    cases t with
    | nil => simp [T.height]
    | node c s a x b =>
      cases c with
      | black => obtain ⟨m, e, -⟩ := ht; cases e
      | red =>
        obtain ⟨ha, hb, ha', hb'⟩ := ht
        have : ∀ u : T, u.black → u.RB 0 → u = .nil := by
          intro u hu hu'
          cases u with
          | nil => rfl
          | node c s a x b => cases (show c = .black from hu); obtain ⟨m, e, -⟩ := hu'; cases e
        rw [this a ha ha', this b hb hb']; simp [T.height]
  apply key
  cases cy with
  | red =>
    obtain ⟨a, b, c, d⟩ := h2
    rcases hch with ⟨rfl, rfl⟩ | ⟨rfl, rfl⟩
    · rwa [show n = 0 from c] at d
    · rwa [show n = 0 from d] at c
  | black =>
    obtain ⟨m, rfl, c, d⟩ := h2
    rcases hch with ⟨rfl, rfl⟩ | ⟨rfl, rfl⟩
    · rwa [show m = 0 from c] at d
    · rwa [show m = 0 from d] at c

/-- What the colour of the node that leaves and its only child satisfy. -/
theorem rb_hole {K : Ctx} {cy : Color} {sy : Nat} {l r ch : T} {y : Id} (hb : RBTree (plug K (.node cy sy l y r)))
    (hch : (l = .nil ∧ ch = r) ∨ (r = .nil ∧ ch = l)) :
    ∃ n, CRB K n ∧ ((cy = .red ∧ ch.RB n ∧ ch.black) ∨ (cy = .black ∧ ∃ m, n = m + 1 ∧ ch.RB m)) := by
  obtain ⟨n, h1, h2, _⟩ := (rb_plug K _).1 hb
  refine ⟨n, h1, ?_⟩
  cases cy with
  | red =>
    obtain ⟨a, b, c, d⟩ := h2
    rcases hch with ⟨_, rfl⟩ | ⟨_, rfl⟩
    · exact Or.inl ⟨rfl, d, b⟩
    · exact Or.inl ⟨rfl, c, a⟩
  | black =>
    obtain ⟨m, rfl, a, b⟩ := h2
    rcases hch with ⟨_, rfl⟩ | ⟨_, rfl⟩
    · exact Or.inr ⟨rfl, m, rfl, b⟩
    · exact Or.inr ⟨rfl, m, rfl, a⟩

theorem extract_splice {h : Heap} {hd : Id} {k : Ctx} {c : Color} {s : Nat} {l r ch : T} {z : Id} {N : Nat}
    (hr : RepT h hd (plug k (.node c s l z r))) (hb : RBTree (plug k (.node c s l z r)))
    (hs : (plug k (.node c s l z r)).Sized) (hch : (l = .nil ∧ ch = r) ∨ (r = .nil ∧ l ≠ .nil ∧ ch = l))
    (hN : (plug k (.node c s l z r)).ids.length + 3 ≤ N) :
    ∃ h' f P, extractS N h hd z = some (h', ⟨0, f⟩) ∧ RepP h' hd (plug k ch).ids P ∧ Frame h h' (hd :: (plug k (.node c s l z r)).ids) ∧
      f + P ≤ (plug k (.node c s l z r)).pot + 7 ∧ f ≤ k.length + 2 := by
  have hread := hr.shape.read
  have hzz := shape_plug.1 hr.shape
  have hl0 : 0 ∉ l.ids := by have := hzz.nz; simp only [T.ids, List.mem_cons, List.mem_append, not_or] at this; tauto
  have hr0 : 0 ∉ r.ids := by have := hzz.nz; simp only [T.ids, List.mem_cons, List.mem_append, not_or] at this; tauto
  have hch' : (l = .nil ∧ ch = r) ∨ (r = .nil ∧ ch = l) := by tauto
  have e1 : chooseExtractS N h z = some ((z, ch.root), 0) := by
    unfold chooseExtractS
    rcases hch with ⟨rfl, rfl⟩ | ⟨rfl, hl, rfl⟩
    · rw [if_pos (by rw [hread.2.2.2.1]; rfl), hread.2.2.2.2.1]
    · rw [if_neg (by rw [hread.2.2.2.1, root_zero hl0]; exact hl), if_pos (by rw [hread.2.2.2.2.1]; rfl), hread.2.2.2.1]
  have hklen : k.length ≤ (plug k (.node c s l z r)).ids.length := by
    have := ctx_length k
    rw [ids_plug]; simp only [ctxIds, List.length_append] at this ⊢; omega
  obtain ⟨h1, e2, S1, so⟩ := augRemove_spec k hr.shape (by exact hread.2.2.2.2.2.1) (N := N) (by omega)
  have hids : ∀ k' t, (plug (mapS (· - 1) k') t).ids = (plug k' t).ids := by intro k' t; simp [ids_plug]
  have f1 := hr.first
  have l1 := hr.last
  obtain ⟨h2, e3, S2, c2, f2, l2, fr2⟩ := spliceOut_spec (N := N) S1 hch (by rw [so.2.1, hids, f1]) (by rw [so.2.2.1, hids, l1])
    (by rw [hids]; omega)
  rw [mapS_par] at e3
  have e3' : spliceOutS N h1 hd z ch.root = some ((h2, ctxPar hd k), 0) := by
    have q := spliceOutS_fst N h1 hd z ch.root
    rw [e3] at q
    cases hq : spliceOutS N h1 hd z ch.root with
    | none => rw [hq] at q; cases q
    | some o =>
      obtain ⟨o, w⟩ := o
      rw [hq] at q
      have := spliceOutS_walk S1 hch (rb_leaf hb hch') hq
      subst this
      simp only [Option.map_some, Option.some.injEq] at q
      rw [q]
  rw [hids] at f2 l2 fr2
  obtain ⟨n, hC, hcz⟩ := rb_hole hb hch'
  have hsz : (plug (mapS (· - 1) k) ch).Sized := by
    rw [sized_plug] at hs ⊢
    refine ⟨?_, csized_dec k ?_⟩
    · rcases hch' with ⟨_, rfl⟩ | ⟨_, rfl⟩
      · exact hs.1.2.2
      · exact hs.1.2.1
    · have : (T.node c s l z r).ids.length = ch.ids.length + 1 := by
        rcases hch' with ⟨rfl, rfl⟩ | ⟨rfl, rfl⟩ <;> simp [T.ids]
      rw [← this]; exact hs.2
  have hcol : h2.color = h.color := by rw [c2, so.2.2.2.1]
  obtain ⟨h3, f3, P3, e4, R3, fr3, hp3, hk3⟩ := finish_spec (N := N) (z := z) (w := 0) S2 hsz (by rw [hcol, hr.color]) (by rw [hids]; exact f2) (by rw [hids]; exact l2)
    ((mapS_CRB _ k n).2 hC) (by rw [hcol, hread.2.1]; exact hcz) (by simp; omega)
  rw [mapS_par] at e4
  rw [hids] at R3 fr3
  refine ⟨h3, f3, P3, ?_, R3, ?_, ?_⟩
  rotate_left 2
  · have := pot_hole (K := k) (cy := c) (sy := s) (y := z) hch'
    rw [pot_plug, mapS_pot, ← pot_plug] at hp3
    rw [mapS_length] at hk3
    exact ⟨by omega, hk3⟩
  · rw [extract_eq, e1]
    simp only
    have : augRemove (h.parent hd) N h z = some h1 := e2
    rw [this]
    simp only
    rw [if_neg (by simp), e3']
    exact e4
  · refine ((so.frame (hd := hd)).trans fr2).trans (fr3.mono ?_)
    intro w
    rcases hch' with ⟨rfl, rfl⟩ | ⟨rfl, rfl⟩ <;> (simp only [ids_plug, T.ids, List.mem_cons, List.mem_append]; tauto)

theorem extract_succ {h : Heap} {hd : Id} {k : Ctx} {c : Color} {s : Nat} {l r : T} {z : Id} {N : Nat}
    (hr : RepT h hd (plug k (.node c s l z r))) (hb : RBTree (plug k (.node c s l z r)))
    (hs : (plug k (.node c s l z r)).Sized) (hl : l ≠ .nil) (hrn : r ≠ .nil)
    (hN : (plug k (.node c s l z r)).ids.length + 3 ≤ N) :
    ∃ h' w f P, extractS N h hd z = some (h', ⟨w, f⟩) ∧ RepP h' hd (ctxL k ++ (l.ids ++ r.ids) ++ ctxR k) P ∧
      Frame h h' (hd :: (plug k (.node c s l z r)).ids) ∧ f + P ≤ (plug k (.node c s l z r)).pot + 7 ∧ w + 1 ≤ r.height ∧ f ≤ k.length + r.height + 2 := by
  have hread := hr.shape.read
  have hzz := shape_plug.1 hr.shape
  have hl0 : 0 ∉ l.ids := by have := hzz.nz; simp only [T.ids, List.mem_cons, List.mem_append, not_or] at this; tauto
  have hr0 : 0 ∉ r.ids := by have := hzz.nz; simp only [T.ids, List.mem_cons, List.mem_append, not_or] at this; tauto
  have hrlen : r.ids.length ≤ N := by
    have : (plug k (.node c s l z r)).ids.length = (ctxL k).length + (l.ids.length + (r.ids.length + 1)) + (ctxR k).length := by
      rw [ids_plug]; simp [T.ids]; omega
    omega
  obtain ⟨k1, cy, sy, y, ry, rfl, hall, emin⟩ := minimumS_spec (N := N) r hzz.at'.2.2.2.2.2.2 hr0 hrn hrlen
  have P := succPre hr.shape hl
  have HK : Shape h hd (plug (k1 ++ ⟨.right, c, s, z, l⟩ :: k) (.node cy sy .nil y ry)) := by
    rw [plug_append]; exact hr.shape
  have e1 : chooseExtractS N h z = some ((y, ry.root), k1.length) := by
    unfold chooseExtractS
    rw [if_neg (by rw [hread.2.2.2.1, root_zero hl0]; exact hl), if_neg (by rw [hread.2.2.2.2.1, root_zero hr0]; exact hrn),
      hread.2.2.2.2.1, emin]
    simp only
    rw [P.hy.2.2.2.2.1]
  have hKlen : (k1 ++ ⟨.right, c, s, z, l⟩ :: k).length ≤ (plug k (.node c s l z (plug k1 (.node cy sy .nil y ry)))).ids.length := by
    have h1 := ctx_length k
    have h2 := ctx_length k1
    simp only [ids_plug, T.ids, ctxIds, List.length_append, List.length_cons] at h1 h2 ⊢; omega
  obtain ⟨h1, e2, S1, so⟩ := augRemove_spec _ HK (by exact P.hy.2.2.2.2.2.1) (N := N) (by omega)
  rw [mapS_append, mapS_cons] at S1
  simp only at S1
  have S1' := S1
  rw [plug_append] at S1'
  obtain ⟨S2, cz, hf2, hl2, hc2, fr2, xp⟩ := replaceBySucc_spec S1' hl (by
    intro f hf
    simp only [mapS, List.mem_map] at hf
    obtain ⟨g, hg, rfl⟩ := hf
    exact hall g hg)
  simp only at S2 cz hf2 hl2 hc2 fr2 xp
  generalize hr2 : replaceBySucc h1 hd z y ry.root = r2 at *
  obtain ⟨h2, xp2⟩ := r2
  simp only at S2 cz hf2 hl2 hc2 fr2 xp
  have S2' : Shape h2 hd (plug (mapS (· - 1) k1 ++ ⟨.right, c, s - 1, y, l⟩ :: mapS (· - 1) k) ry) := by
    rw [plug_append]; exact S2
  have hids2 : (plug (mapS (· - 1) k1 ++ ⟨.right, c, s - 1, y, l⟩ :: mapS (· - 1) k) ry).ids =
      ctxL k ++ (l.ids ++ (plug k1 (.node cy sy .nil y ry)).ids) ++ ctxR k := by
    simp only [ids_plug, ctxL_append, ctxR_append, ctxL, ctxR, mapS_L, mapS_R, T.ids, allLeft_ctxL hall]
    simp
  have hids0 : (plug k (.node c s l z (plug k1 (.node cy sy .nil y ry)))).ids =
      ctxL k ++ (l.ids ++ z :: (plug k1 (.node cy sy .nil y ry)).ids) ++ ctxR k := by
    simp [ids_plug, T.ids]
  have hids1 : (plug (mapS (· - 1) k) (.node c (s - 1) l z (plug (mapS (· - 1) k1) (.node cy sy .nil y ry)))).ids =
      (plug k (.node c s l z (plug k1 (.node cy sy .nil y ry)))).ids := by
    simp [ids_plug, T.ids]
  have hb' : RBTree (plug (k1 ++ ⟨.right, c, s, z, l⟩ :: k) (.node cy sy .nil y ry)) := by rw [plug_append]; exact hb
  have hs' : (plug (k1 ++ ⟨.right, c, s, z, l⟩ :: k) (.node cy sy .nil y ry)).Sized := by rw [plug_append]; exact hs
  obtain ⟨n, hC, hcz⟩ := rb_hole hb' (Or.inl ⟨rfl, rfl⟩)
  have hne : ∀ a b : List Id, l.ids ++ a ≠ [] ∧ (b ≠ [] → b ++ a ≠ []) := by
    intro a b
    refine ⟨?_, fun q => by simp [q]⟩
    cases l with
    | nil => exact absurd rfl hl
    | node => simp [T.ids]
  obtain ⟨h3, f3, P3, e4, R3, fr3, hp3, hk3⟩ := finish_spec (N := N) (n := n) (z := z) (w := k1.length) S2' (by
      rw [sized_plug] at hs' ⊢
      refine ⟨hs'.1.2.2, ?_⟩
      rw [csized_rename (y := z)]
      have := csized_dec (k1 ++ ⟨.right, c, s, z, l⟩ :: k) (n := ry.ids.length) (by simpa [T.ids] using hs'.2)
      rwa [mapS_append, mapS_cons] at this)
    (by rw [hc2, so.2.2.2.1, hr.color])
    (by
      rw [hf2, so.2.1, hr.first, hids2, hids0]
      cases l with
      | nil => exact absurd rfl hl
      | node c' s' l' x' r' => 
        cases hcl : ctxL k ++ l'.ids with
        | nil => 
          have := List.append_eq_nil_iff.1 hcl
          simp [T.ids, hdOr, this.1, this.2]
        | cons a b => simp only [T.ids, ← List.append_assoc, hcl]; rfl)
    (by
      rw [hl2, so.2.2.1, hr.last, hids2, hids0]
      have : (plug k1 (.node cy sy .nil y ry)).ids ≠ [] := by simp [ids_plug, T.ids]
      rcases List.eq_nil_or_concat' (plug k1 (.node cy sy .nil y ry)).ids with q | ⟨u, v, q⟩
      · exact absurd q this
      · rcases List.eq_nil_or_concat' (ctxR k) with q' | ⟨u', v', q'⟩
        · have e1 : ctxL k ++ (l.ids ++ z :: (u ++ [v])) ++ [] = (ctxL k ++ (l.ids ++ z :: u)) ++ [v] := by simp
          have e2 : ctxL k ++ (l.ids ++ (u ++ [v])) ++ [] = (ctxL k ++ (l.ids ++ u)) ++ [v] := by simp
          rw [q, q', e1, e2, List.getLastD_concat, List.getLastD_concat]
        · rw [q', ← List.append_assoc, ← List.append_assoc (_ ++ _) u' [v'], List.getLastD_concat, List.getLastD_concat])
    (by
      have h1 := (mapS_CRB (· - 1) (k1 ++ ⟨.right, c, s, z, l⟩ :: k) n).2 hC
      rw [mapS_append, mapS_cons] at h1
      exact (crb_rename _ n).1 h1)
    (by rw [cz]; exact hcz) (by simp at hKlen ⊢; omega)
  rw [hids2] at R3 fr3
  refine ⟨h3, k1.length, f3, P3, ?_, R3, ?_, ?_, ?_⟩
  rotate_left 2
  · have := pot_hole (K := k1 ++ ⟨.right, c, s, z, l⟩ :: k) (cy := cy) (sy := sy) (y := y) (l := .nil) (r := ry) (Or.inl ⟨rfl, rfl⟩)
    have e : (plug (k1 ++ ⟨.right, c, s, z, l⟩ :: k) (.node cy sy .nil y ry)).pot = (plug k (.node c s l z (plug k1 (.node cy sy .nil y ry)))).pot := by
      rw [plug_append]; rfl
    have e' : (plug (mapS (· - 1) k1 ++ ⟨.right, c, s - 1, y, l⟩ :: mapS (· - 1) k) ry).pot = (plug (k1 ++ ⟨.right, c, s, z, l⟩ :: k) ry).pot := by
      have : mapS (· - 1) k1 ++ ⟨.right, c, s - 1, y, l⟩ :: mapS (· - 1) k = mapS (· - 1) (k1 ++ ⟨.right, c, s, y, l⟩ :: k) := by
        rw [mapS_append, mapS_cons]
      rw [pot_plug, pot_plug, this, mapS_pot, pot_rename]
    omega
  · have := ctx_height k1 (.node cy sy .nil y ry)
    simp only [T.height, List.length_append, List.length_cons, mapS_length] at this hk3 ⊢
    exact ⟨by omega, by omega⟩
  · rw [extract_eq, e1]
    simp only
    have : augRemove (h.parent hd) N h y = some h1 := e2
    rw [this]
    simp only
    rw [if_pos P.yz, hr2]
    simp only
    rw [xp]
    have e5 : ctxPar hd (mapS (· - 1) k1 ++ ⟨.right, c, s - 1, y, l⟩ :: mapS (· - 1) k) = ctxPar y (mapS (· - 1) k1) := by
      cases k1 <;> rfl
    rw [← e5]; exact e4
  · rw [hids1] at fr2
    have hK0 : (plug (k1 ++ ⟨.right, c, s, z, l⟩ :: k) (.node cy sy .nil y ry)).ids =
      (plug k (.node c s l z (plug k1 (.node cy sy .nil y ry)))).ids := by rw [plug_append]; rfl
    rw [hK0] at so
    refine ((so.frame (hd := hd)).trans fr2).trans (fr3.mono ?_)
    intro w
    rw [hids0]
    simp only [List.mem_cons, List.mem_append]; tauto

/-- Removal of an element from an index that holds `u ++ z :: v`, with the numbers of rounds. -/
theorem repP_extract {h : Heap} {hd z : Id} {u v : List Id} {N P : Nat} (hr : RepP h hd (u ++ z :: v) P)
    (hN : (u ++ z :: v).length + 3 ≤ N) :
    ∃ h' w f P', extractS N h hd z = some (h', ⟨w, f⟩) ∧ RepP h' hd (u ++ v) P' ∧ Frame h h' (hd :: (u ++ z :: v)) ∧ f + P' ≤ P + 7 ∧
      (∀ t, Shape h hd t → w ≤ t.height ∧ f ≤ t.height + 2) ∧ (h.left z = 0 ∨ h.right z = 0 → w = 0) := by
  obtain ⟨t, R, hb, hs, hi, hP⟩ := hr
  obtain ⟨k, c, s, l, r, rfl⟩ := exists_zip (x := z) t (by rw [hi]; simp)
  have hn : (u ++ z :: v).Nodup := by rw [← hi]; exact (List.nodup_cons.1 R.shape.nodup).2
  have hi' : u ++ z :: v = (ctxL k ++ l.ids) ++ z :: (r.ids ++ ctxR k) := by rw [← hi, ids_plug]; simp [T.ids]
  obtain ⟨rfl, rfl⟩ := split_unique hn hi'
  rw [← hi] at hN
  have hz0 := (shape_plug.1 R.shape).nz
  have hl0 : 0 ∉ l.ids := by simp only [T.ids, List.mem_cons, List.mem_append, not_or] at hz0; tauto
  have hr0 : 0 ∉ r.ids := by simp only [T.ids, List.mem_cons, List.mem_append, not_or] at hz0; tauto
  by_cases hl : l = .nil
  · subst hl
    obtain ⟨h', f, P', e, q1, q2, q3, q4⟩ := extract_splice R hb hs (Or.inl ⟨rfl, rfl⟩) hN
    rw [hi] at q2
    exact ⟨h', 0, f, P', e, by simpa [ids_plug, T.ids] using q1, q2, by omega, fun t ht => ⟨Nat.zero_le _, by rw [shape_unique ht R.shape]; have := ctx_height k (.node c s .nil z r); omega⟩, fun _ => rfl⟩
  · by_cases hr : r = .nil
    · subst hr
      obtain ⟨h', f, P', e, q1, q2, q3, q4⟩ := extract_splice R hb hs (Or.inr ⟨rfl, hl, rfl⟩) hN
      rw [hi] at q2
      exact ⟨h', 0, f, P', e, by simpa [ids_plug, T.ids] using q1, q2, by omega, fun t ht => ⟨Nat.zero_le _, by rw [shape_unique ht R.shape]; have := ctx_height k (.node c s l z .nil); omega⟩, fun _ => rfl⟩
    · obtain ⟨h', w, f, P', e, q1, q2, q3, q4, q5⟩ := extract_succ R hb hs hl hr hN
      rw [hi] at q2
      refine ⟨h', w, f, P', e, by simpa [ids_plug, T.ids] using q1, q2, by omega, ?_, ?_⟩
      · intro t ht
        rw [shape_unique ht R.shape]
        have := ctx_height k (.node c s l z r)
        simp only [T.height] at this; exact ⟨by omega, by omega⟩
      · rintro (q | q)
        · rw [R.shape.read.2.2.2.1, root_zero hl0] at q; exact absurd q hl
        · rw [R.shape.read.2.2.2.2.1, root_zero hr0] at q; exact absurd q hr

/-- Removal of an element from an index that holds `u ++ z :: v`. -/
theorem rep_extract {h : Heap} {hd z : Id} {u v : List Id} {N : Nat} (hr : Rep h hd (u ++ z :: v))
    (hN : (u ++ z :: v).length + 3 ≤ N) :
    ∃ h', extract N h hd z = some h' ∧ Rep h' hd (u ++ v) ∧ Frame h h' (hd :: (u ++ z :: v)) := by
  obtain ⟨P, hr⟩ := hr.pot
  obtain ⟨h', w, f, P', e, q1, q2, -⟩ := repP_extract hr hN
  exact ⟨h', by rw [← extractS_fst, e]; rfl, q1.rep, q2⟩

end MI.Ord
