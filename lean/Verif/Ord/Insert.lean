import Verif.Ord.Pot
import Verif.Ord.Steps
/-! Rebalancing after an insertion (helper lemmas). -/
namespace MI.Ord
open MI

theorem rebalL_red {h0 : Heap} {hd : Id} {xs : List Id} {h : Heap} {k : Ctx} {sg sp su : Nat} {pl pr ul ur : T} {x p g u : Id}
    (H : St h0 hd xs h (plug k (.node .black sg (.node .red sp pl p pr) g (.node .red su ul u ur)))) (hx : h.parent x = p) :
    ∃ h', rebalanceL h hd x = (h', g) ∧
      St h0 hd xs h' (plug k (.node .red sg (.node .black sp pl p pr) g (.node .black su ul u ur))) := by
  have rg := H.read
  have rp := St.read (k := ⟨.left, .black, sg, g, .node .red su ul u ur⟩ :: k) H
  have ru := St.read (k := ⟨.right, .black, sg, g, .node .red sp pl p pr⟩ :: k) H
  simp only [root_node, ctxPar] at rg rp ru
  have H1 := St.recolor (k := ⟨.left, .black, sg, g, .node .red su ul u ur⟩ :: k) H .black
  have H2 := St.recolor (k := ⟨.right, .black, sg, g, .node .black sp pl p pr⟩ :: k) H1 .black
  have H3 := St.recolor (k := k) H2 .red
  refine ⟨_, ?_, H3⟩
  unfold rebalanceL
  simp only [hx, rp.1, rg.2.2.2.2.1]
  rw [if_pos ⟨ru.2.2.2.2.2.1, ru.2.1⟩]
  simp [hx, rp.1]

theorem not_red {h0 : Heap} {hd : Id} {xs : List Id} {h : Heap} {f : Fr} {k : Ctx} {t : T} (H : St h0 hd xs h (plug (f :: k) t))
    (hb : t.black) : ¬ (t.root ≠ 0 ∧ h.color t.root = .red) := by
  rintro ⟨a, b⟩
  cases t with
  | nil => exact a rfl
  | node c s l x r => rw [root_node, H.read.2.1, show c = .black from hb] at b; cases b

theorem rebalL_out {h0 : Heap} {hd : Id} {xs : List Id} {h : Heap} {k : Ctx} {sg sp s : Nat} {pr u l r : T} {x p g : Id}
    (H : St h0 hd xs h (plug k (.node .black sg (.node .red sp (.node .red s l x r) p pr) g u))) (hu : u.black) :
    ∃ h' s', rebalanceL h hd x = (h', x) ∧ St h0 hd xs h' (plug k (.node .black sg (.node .red s l x r) p (.node .red s' pr g u))) ∧
      h'.parent x = p ∧ h'.color p = .black := by
  have rg := H.read
  have rp := St.read (k := ⟨.left, .black, sg, g, u⟩ :: k) H
  have rx := St.read (k := ⟨.left, .red, sp, p, pr⟩ :: ⟨.left, .black, sg, g, u⟩ :: k) H
  simp only [root_node, ctxPar] at rg rp rx
  have hu' := not_red (k := k) (f := ⟨.right, .black, sg, g, .node .red sp (.node .red s l x r) p pr⟩) H hu
  have H1 := St.recolor (k := ⟨.left, .black, sg, g, u⟩ :: k) H .black
  have H2 := St.recolor (k := k) H1 .red
  obtain ⟨s', H3⟩ := St.rotR (k := k) H2
  have e : rebalanceL h hd x = (rotateRight ((h.setColor p .black).setColor g .red) hd g, x) := by
    unfold rebalanceL
    simp only [rx.1, rp.1, rg.2.2.2.2.1]
    rw [if_neg hu', rp.2.2.2.2.1]
    have hne : ¬ x = pr.root := by
      intro e
      have hm : pr.root ∈ pr.ids := root_mem (by rw [← e]; exact rx.2.2.2.2.2.1)
      exact St.ne_of_mem (k := ⟨.left, .red, sp, p, pr⟩ :: ⟨.left, .black, sg, g, u⟩ :: k) (t := .node .red s l x r) H
        (x := x) (y := pr.root) (by simp [T.ids]) (by rw [ctxIds_cons]; exact Or.inr (Or.inl hm)) e
    rw [if_neg hne]
    simp [rx.1, rp.1]
  refine ⟨_, s', e, H3, ?_, ?_⟩
  · exact (St.read (k := ⟨.left, .black, sg, p, _⟩ :: k) H3).1
  · exact (St.read (k := k) H3).2.1

theorem rebalL_in {h0 : Heap} {hd : Id} {xs : List Id} {h : Heap} {k : Ctx} {sg sp s : Nat} {pl u l r : T} {x p g : Id}
    (H : St h0 hd xs h (plug k (.node .black sg (.node .red sp pl p (.node .red s l x r)) g u))) (hu : u.black) :
    ∃ h' s1 s2, rebalanceL h hd x = (h', p) ∧
      St h0 hd xs h' (plug k (.node .black sg (.node .red s1 pl p l) x (.node .red s2 r g u))) ∧
      h'.parent p = x ∧ h'.color x = .black := by
  have rg := H.read
  have rp := St.read (k := ⟨.left, .black, sg, g, u⟩ :: k) H
  have rx := St.read (k := ⟨.right, .red, sp, p, pl⟩ :: ⟨.left, .black, sg, g, u⟩ :: k) H
  simp only [root_node, ctxPar] at rg rp rx
  have hu' := not_red (k := k) (f := ⟨.right, .black, sg, g, .node .red sp pl p (.node .red s l x r)⟩) H hu
  obtain ⟨s1, H1⟩ := St.rotL (k := ⟨.left, .black, sg, g, u⟩ :: k) H
  have q1 := St.read (k := ⟨.left, .red, sp, x, r⟩ :: ⟨.left, .black, sg, g, u⟩ :: k) H1
  have q2 := St.read (k := ⟨.left, .black, sg, g, u⟩ :: k) H1
  simp only [root_node, ctxPar] at q1 q2
  have H2 := St.recolor (k := ⟨.left, .black, sg, g, u⟩ :: k) H1 .black
  have H3 := St.recolor (k := k) H2 .red
  obtain ⟨s', H4⟩ := St.rotR (k := k) H3
  have e : rebalanceL h hd x = (rotateRight (((rotateLeft h hd p).setColor x .black).setColor g .red) hd g, p) := by
    unfold rebalanceL
    simp only [rx.1, rp.1, rg.2.2.2.2.1]
    rw [if_neg hu', rp.2.2.2.2.1]
    simp [q1.1, q2.1]
  refine ⟨_, s1, s', e, H4, ?_, ?_⟩
  · exact (St.read (k := ⟨.left, .black, sg, x, _⟩ :: k) H4).1
  · exact (St.read (k := k) H4).2.1

theorem rebalanceR_mirror (h : Heap) (hd x : Id) :
    rebalanceR h hd x = ((rebalanceL h.mirror hd x).1.mirror, (rebalanceL h.mirror hd x).2) := by
  unfold rebalanceR rebalanceL
  by_cases h1 : h.left (h.parent (h.parent x)) ≠ 0 ∧ h.color (h.left (h.parent (h.parent x))) = .red
  · have h2 : h.mirror.right (h.mirror.parent (h.mirror.parent x)) ≠ 0 ∧
      h.mirror.color (h.mirror.right (h.mirror.parent (h.mirror.parent x))) = .red := h1
    simp only [if_pos h1, if_pos h2]
    rfl
  · have h2 : ¬ (h.mirror.right (h.mirror.parent (h.mirror.parent x)) ≠ 0 ∧
      h.mirror.color (h.mirror.right (h.mirror.parent (h.mirror.parent x))) = .red) := h1
    simp only [if_neg h1, if_neg h2]
    by_cases h3 : x = h.left (h.parent x)
    · have h4 : x = h.mirror.right (h.mirror.parent x) := h3
      simp only [if_pos h3, if_pos h4, rotateRight_mirror]
      simp only [rotateLeft_mirror, mirror_mirror]
      rfl
    · have h4 : ¬ x = h.mirror.right (h.mirror.parent x) := h3
      simp only [if_neg h3, if_neg h4, rotateRight_mirror]
      rfl

theorem rebalR_red {h0 : Heap} {hd : Id} {xs : List Id} {h : Heap} {k : Ctx} {sg sp su : Nat} {pl pr ul ur : T} {x p g u : Id}
    (H : St h0 hd xs h (plug k (.node .black sg (.node .red su ul u ur) g (.node .red sp pl p pr)))) (hx : h.parent x = p) :
    ∃ h', rebalanceR h hd x = (h', g) ∧
      St h0 hd xs h' (plug k (.node .red sg (.node .black su ul u ur) g (.node .black sp pl p pr))) := by
  have H' := H.mirror
  rw [plug_mirror] at H'
  simp only [T.mirror] at H'
  obtain ⟨h', e, H2⟩ := rebalL_red (x := x) H' hx
  refine ⟨h'.mirror, by rw [rebalanceR_mirror, e], ?_⟩
  have H3 := H2.mirror
  rw [plug_mirror] at H3
  simpa [T.mirror] using H3

theorem rebalR_out {h0 : Heap} {hd : Id} {xs : List Id} {h : Heap} {k : Ctx} {sg sp s : Nat} {pl u l r : T} {x p g : Id}
    (H : St h0 hd xs h (plug k (.node .black sg u g (.node .red sp pl p (.node .red s l x r))))) (hu : u.black) :
    ∃ h' s', rebalanceR h hd x = (h', x) ∧ St h0 hd xs h' (plug k (.node .black sg (.node .red s' u g pl) p (.node .red s l x r))) ∧
      h'.parent x = p ∧ h'.color p = .black := by
  have H' := H.mirror
  rw [plug_mirror] at H'
  simp only [T.mirror] at H'
  obtain ⟨h', s', e, H2, e1, e2⟩ := rebalL_out H' ((T.mirror_black u).2 hu)
  refine ⟨h'.mirror, s', by rw [rebalanceR_mirror, e], ?_, e1, e2⟩
  have H3 := H2.mirror
  rw [plug_mirror] at H3
  simpa [T.mirror] using H3

theorem rebalR_in {h0 : Heap} {hd : Id} {xs : List Id} {h : Heap} {k : Ctx} {sg sp s : Nat} {pr u l r : T} {x p g : Id}
    (H : St h0 hd xs h (plug k (.node .black sg u g (.node .red sp (.node .red s l x r) p pr)))) (hu : u.black) :
    ∃ h' s1 s2, rebalanceR h hd x = (h', p) ∧
      St h0 hd xs h' (plug k (.node .black sg (.node .red s1 u g l) x (.node .red s2 r p pr))) ∧
      h'.parent p = x ∧ h'.color x = .black := by
  have H' := H.mirror
  rw [plug_mirror] at H'
  simp only [T.mirror] at H'
  obtain ⟨h', s1, s2, e, H2, e1, e2⟩ := rebalL_in H' ((T.mirror_black u).2 hu)
  refine ⟨h'.mirror, s2, s1, by rw [rebalanceR_mirror, e], ?_, e1, e2⟩
  have H3 := H2.mirror
  rw [plug_mirror] at H3
  simpa [T.mirror] using H3

theorem black_or_red (t : T) : t.black ∨ ∃ s l x r, t = .node .red s l x r := by
  cases t with
  | nil => exact Or.inl trivial
  | node c s l x r =>
    cases c
    · exact Or.inr ⟨s, l, x, r, rfl⟩
    · exact Or.inl rfl

/-- The loop stops under a black parent. -/
theorem rebalanceGo_stop {h : Heap} {hd x p : Id} (N : Nat) (h1 : h.parent x = p) (h2 : h.color p = .black) :
    rebalanceGoS hd (N + 1) h x = some (h, 0) := by
  unfold rebalanceGoS
  rw [if_neg]
  rw [h1, h2]; simp

/-- What the rounds of the loop may add to the potential: nothing unless the parent is red. -/
def topRed : Ctx → Nat
  | ⟨_, .red, _, _, _⟩ :: _ => 3
  | _ => 0

theorem topRed_le (k : Ctx) : topRed k ≤ 3 := by
  rcases k with _ | ⟨⟨_, c, _, _, _⟩, k⟩
  · decide
  · cases c <;> simp [topRed]

/-- A new red root in the hole of a path that wanted a black one. -/
theorem topRed_step (k : Ctx) : topRed k + ctxPot k true ≤ ctxPot k false + 3 := by
  rcases k with _ | ⟨⟨sd, c, s, x, sib⟩, k⟩
  · simp [topRed, ctxPot]
  · cases c
    · have := ctxPot_must (k := ⟨sd, .red, s, x, sib⟩ :: k) rfl true false
      simp only [topRed]; omega
    · have := ctxPot_le (⟨sd, .black, s, x, sib⟩ :: k) true false
      simp only [topRed]; omega

theorem rebalanceGo_spec {h0 : Heap} {hd : Id} {xs : List Id} (m : Nat) : ∀ (k : Ctx), k.length ≤ m → ∀ {h : Heap} {N n s : Nat} {l r : T} {x : Id},
    St h0 hd xs h (plug k (.node .red s l x r)) → T.RB (.node .red s l x r) n → CRB k n → m + 2 ≤ N →
    ∃ h' t' n' c', rebalanceGoS hd N h x = some (h', c') ∧ St h0 hd xs h' t' ∧ t'.RB n' ∧ t' ≠ .nil ∧
      c' + t'.pot ≤ (plug k (.node .red s l x r)).pot + topRed k := by
  induction m using Nat.strongRecOn with
  | ind m ih =>
  intro k hk h N n s l r x H hrb hc hN
  obtain ⟨N, rfl⟩ : ∃ N', N = N' + 2 := ⟨N - 2, by omega⟩
  have hr := H.read
  cases k with
  | nil =>
    refine ⟨h, _, n, 0, ?_, H, hrb, by simp [plug], by omega⟩
    have : x = h.parent hd := (H.shape.root_iff (t := .node .red s l x r)).2 rfl
    unfold rebalanceGoS
    rw [if_neg (by rw [← this]; simp)]
  | cons f k =>
    rcases f with ⟨side, c, sp, p, sib⟩
    have hpx : h.parent x = p := hr.1
    have hpc : h.color p = c := by
      cases side
      · exact (St.read (k := k) (h := h) (x := p) H).2.1
      · exact (St.read (k := k) (h := h) (x := p) H).2.1
    cases c with
    | black =>
      have hb : RBTree (plug (⟨side, .black, sp, p, sib⟩ :: k) (.node .red s l x r)) :=
        (rb_plug _ _).2 ⟨n, hc, hrb, fun hm => by cases hm⟩
      obtain ⟨hb1, n', hb2⟩ := hb
      refine ⟨h, _, n', 0, rebalanceGo_stop _ hpx hpc, H, hb2, ?_, by omega⟩
      intro e
      have : (plug (⟨side, .black, sp, p, sib⟩ :: k) (.node .red s l x r)).ids = [] := by rw [e]; rfl
      rw [ids_plug] at this; simp [T.ids] at this
    | red =>
      obtain ⟨c1, c2, c3, c4⟩ := hc
      have rs := red_black c1
      have rl := red_black hrb.1
      have rr := red_black hrb.2.1
      cases k with
      | nil => exact absurd trivial c4
      | cons f k =>
        rcases f with ⟨gside, gc, sg, g, u⟩
        cases gc with
        | red => exact absurd rfl c4
        | black =>
        obtain ⟨d1, d2⟩ := c3
        have hxr : x ≠ h.parent hd := fun e => by
          have := (H.shape.root_iff (t := .node .red s l x r)).1 e
          cases this
        simp only [List.length_cons] at hk
        have hgo : ∀ (M : Nat) (h' : Heap) (x' p' : Id) (tr : T), h'.parent x' = p' → h'.color p' = .black →
            T.RB tr (n + 1) → tr.black → tr ≠ .nil → St h0 hd xs h' (plug k tr) →
            (plug k tr).pot ≤ (plug (⟨side, .red, sp, p, sib⟩ :: ⟨gside, .black, sg, g, u⟩ :: k) (.node .red s l x r)).pot + 2 →
            ∃ h'' t' n' c', tick (rebalanceGoS hd (M + 1) h' x') = some (h'', c') ∧ St h0 hd xs h'' t' ∧ t'.RB n' ∧ t' ≠ .nil ∧
              c' + t'.pot ≤ (plug (⟨side, .red, sp, p, sib⟩ :: ⟨gside, .black, sg, g, u⟩ :: k) (.node .red s l x r)).pot +
                topRed (⟨side, .red, sp, p, sib⟩ :: ⟨gside, .black, sg, g, u⟩ :: k) := by
          intro M h' x' p' tr e1 e2 e3 e4 e5 e6 e7
          obtain ⟨hb1, n', hb2⟩ := (rb_plug k tr).2 ⟨n + 1, d2, e3, fun _ => e4⟩
          refine ⟨h', _, n', 1, by rw [rebalanceGo_stop _ e1 e2]; rfl, e6, hb2, ?_, by simp only [topRed]; omega⟩
          intro e
          have : (plug k tr).ids = [] := by rw [e]; rfl
          rw [ids_plug] at this
          cases tr with
          | nil => exact e5 rfl
          | node => simp [T.ids] at this
        have hnext : ∀ (M : Nat) (h' : Heap) (s' : Nat) (l' r' : T), k.length ≤ m - 2 → m - 2 + 2 ≤ M →
            St h0 hd xs h' (plug k (.node .red s' l' g r')) → T.RB (.node .red s' l' g r') (n + 1) →
            l'.pot + r'.pot + ctxPot k false + 1 ≤ (plug (⟨side, .red, sp, p, sib⟩ :: ⟨gside, .black, sg, g, u⟩ :: k) (.node .red s l x r)).pot →
            ∃ h'' t' n' c', tick (rebalanceGoS hd M h' g) = some (h'', c') ∧ St h0 hd xs h'' t' ∧ t'.RB n' ∧ t' ≠ .nil ∧
              c' + t'.pot ≤ (plug (⟨side, .red, sp, p, sib⟩ :: ⟨gside, .black, sg, g, u⟩ :: k) (.node .red s l x r)).pot +
                topRed (⟨side, .red, sp, p, sib⟩ :: ⟨gside, .black, sg, g, u⟩ :: k) := by
          intro M h' s' l' r' e1 e2 e3 e4 e5
          obtain ⟨h'', t', n', c', q1, q2, q3, q4, q5⟩ := ih (m - 2) (by omega) k e1 e3 e4 d2 e2
          refine ⟨h'', t', n', c' + 1, by rw [q1]; rfl, q2, q3, q4, ?_⟩
          have e : (T.node .red s' l' g r').red = true := rfl
          have e' : (T.node .red s' l' g r').pot = l'.pot + r'.pot := by simp [T.pot, wt]
          rw [pot_plug k, e, e'] at q5
          have := topRed_step k
          simp only [topRed]
          omega
        cases gside
        · have hpg : h.parent p = g ∧ h.left g = p := by
            cases side
            · exact ⟨(St.read (k := ⟨.left, .black, sg, g, u⟩ :: k) (h := h) (x := p) H).1, (St.read (k := k) (h := h) (x := g) H).2.2.2.1⟩
            · exact ⟨(St.read (k := ⟨.left, .black, sg, g, u⟩ :: k) (h := h) (x := p) H).1, (St.read (k := k) (h := h) (x := g) H).2.2.2.1⟩
          have e0 : rebalanceGoS hd (N + 2) h x = tick (rebalanceGoS hd (N + 1) (rebalanceL h hd x).1 (rebalanceL h hd x).2) := by
            rw [rebalanceGoS, if_pos ⟨hxr, by rw [hpx, hpc]⟩, if_pos (by rw [hpx, hpg.1, hpg.2])]
          rw [e0]
          rcases black_or_red u with hu | ⟨su, ul, uu, ur, rfl⟩
          · have ru := red_black hu
            cases side
            · obtain ⟨h', s', e, H', p1, p2⟩ := rebalL_out (k := k) H hu
              rw [e]
              refine hgo N h' x p _ p1 p2 ?_ (by exact rfl) (by simp) H' (by simp only [plug, Fr.fill, pot_plug, T.pot, red_node, wt, rl, rr, rs, ru, decide_true, reduceCtorEq, decide_false]; omega)
              refine ⟨n, rfl, hrb, ?_⟩
              exact ⟨c1, hu, c2, d1⟩
            · obtain ⟨h', s1, s2, e, H', p1, p2⟩ := rebalL_in (k := k) H hu
              rw [e]
              obtain ⟨r1, r2, r3, r4⟩ := hrb
              refine hgo N h' p x _ p1 p2 ?_ (by exact rfl) (by simp) H' (by simp only [plug, Fr.fill, pot_plug, T.pot, red_node, wt, rl, rr, rs, ru, decide_true, reduceCtorEq, decide_false]; omega)
              refine ⟨n, rfl, ⟨c1, r1, c2, r3⟩, ⟨r2, hu, r4, d1⟩⟩
          · obtain ⟨u1, u2, u3, u4⟩ := d1
            have u1' := red_black u1
            have u2' := red_black u2
            cases side
            · obtain ⟨h', e, H'⟩ := rebalL_red (k := k) (x := x) H hpx
              rw [e]
              refine hnext (N + 1) h' _ _ _ (by omega) (by omega) H' ?_ (by simp only [plug, Fr.fill, pot_plug, T.pot, red_node, wt, rl, rr, rs, u1', u2', decide_true, reduceCtorEq, decide_false]; omega)
              exact ⟨rfl, rfl, ⟨n, rfl, hrb, c2⟩, ⟨n, rfl, u3, u4⟩⟩
            · obtain ⟨h', e, H'⟩ := rebalL_red (k := k) (x := x) H hpx
              rw [e]
              refine hnext (N + 1) h' _ _ _ (by omega) (by omega) H' ?_ (by simp only [plug, Fr.fill, pot_plug, T.pot, red_node, wt, rl, rr, rs, u1', u2', decide_true, reduceCtorEq, decide_false]; omega)
              exact ⟨rfl, rfl, ⟨n, rfl, c2, hrb⟩, ⟨n, rfl, u3, u4⟩⟩
        · have hpg : h.parent p = g ∧ h.left g = u.root ∧ p ≠ 0 := by
            cases side
            · exact ⟨(St.read (k := ⟨.right, .black, sg, g, u⟩ :: k) (h := h) (x := p) H).1, (St.read (k := k) (h := h) (x := g) H).2.2.2.1,
                (St.read (k := ⟨.right, .black, sg, g, u⟩ :: k) (h := h) (x := p) H).2.2.2.2.2.1⟩
            · exact ⟨(St.read (k := ⟨.right, .black, sg, g, u⟩ :: k) (h := h) (x := p) H).1, (St.read (k := k) (h := h) (x := g) H).2.2.2.1,
                (St.read (k := ⟨.right, .black, sg, g, u⟩ :: k) (h := h) (x := p) H).2.2.2.2.2.1⟩
          have hpu : p ≠ u.root := by
            intro e
            have hm : u.root ∈ u.ids := root_mem (by rw [← e]; exact hpg.2.2)
            refine St.ne_of_mem (k := ⟨.right, .black, sg, g, u⟩ :: k) (t := Fr.fill ⟨side, .red, sp, p, sib⟩ (.node .red s l x r)) H
              (x := p) (y := u.root) ?_ (by rw [ctxIds_cons]; exact Or.inr (Or.inl hm)) e
            cases side <;> simp [Fr.fill, T.ids]
          have e0 : rebalanceGoS hd (N + 2) h x = tick (rebalanceGoS hd (N + 1) (rebalanceR h hd x).1 (rebalanceR h hd x).2) := by
            rw [rebalanceGoS, if_pos ⟨hxr, by rw [hpx, hpc]⟩, if_neg (by rw [hpx, hpg.1, hpg.2.1]; exact hpu)]
          rw [e0]
          rcases black_or_red u with hu | ⟨su, ul, uu, ur, rfl⟩
          · have ru := red_black hu
            cases side
            · obtain ⟨h', s1, s2, e, H', p1, p2⟩ := rebalR_in (k := k) H hu
              rw [e]
              obtain ⟨r1, r2, r3, r4⟩ := hrb
              refine hgo N h' p x _ p1 p2 ?_ (by exact rfl) (by simp) H' (by simp only [plug, Fr.fill, pot_plug, T.pot, red_node, wt, rl, rr, rs, ru, decide_true, reduceCtorEq, decide_false]; omega)
              refine ⟨n, rfl, ⟨hu, r1, d1, r3⟩, ⟨r2, c1, r4, c2⟩⟩
            · obtain ⟨h', s', e, H', p1, p2⟩ := rebalR_out (k := k) H hu
              rw [e]
              refine hgo N h' x p _ p1 p2 ?_ (by exact rfl) (by simp) H' (by simp only [plug, Fr.fill, pot_plug, T.pot, red_node, wt, rl, rr, rs, ru, decide_true, reduceCtorEq, decide_false]; omega)
              refine ⟨n, rfl, ?_, hrb⟩
              exact ⟨hu, c1, d1, c2⟩
          · obtain ⟨u1, u2, u3, u4⟩ := d1
            have u1' := red_black u1
            have u2' := red_black u2
            cases side
            · obtain ⟨h', e, H'⟩ := rebalR_red (k := k) (x := x) H hpx
              rw [e]
              refine hnext (N + 1) h' _ _ _ (by omega) (by omega) H' ?_ (by simp only [plug, Fr.fill, pot_plug, T.pot, red_node, wt, rl, rr, rs, u1', u2', decide_true, reduceCtorEq, decide_false]; omega)
              exact ⟨rfl, rfl, ⟨n, rfl, u3, u4⟩, ⟨n, rfl, hrb, c2⟩⟩
            · obtain ⟨h', e, H'⟩ := rebalR_red (k := k) (x := x) H hpx
              rw [e]
              refine hnext (N + 1) h' _ _ _ (by omega) (by omega) H' ?_ (by simp only [plug, Fr.fill, pot_plug, T.pot, red_node, wt, rl, rr, rs, u1', u2', decide_true, reduceCtorEq, decide_false]; omega)
              exact ⟨rfl, rfl, ⟨n, rfl, u3, u4⟩, ⟨n, rfl, c2, hrb⟩⟩

theorem rb_blacken {c : Color} {s : Nat} {l r : T} {x : Id} {n : Nat} (h : T.RB (.node c s l x r) n) : RBTree (.node .black s l x r) := by
  cases c
  · exact ⟨rfl, n + 1, n, rfl, h.2.2.1, h.2.2.2⟩
  · exact ⟨rfl, n, h⟩

theorem pot_blacken (c : Color) (s : Nat) (l : T) (x : Id) (r : T) : (T.node .black s l x r).pot ≤ (T.node c s l x r).pot + 2 := by
  have := wt_le .black l.red r.red
  simp only [T.pot]; omega

/-- Rebalancing after a red leaf was added. -/
theorem rebalance_spec {h : Heap} {hd : Id} {k : Ctx} {N n : Nat} {c : Color} {x : Id}
    (hs : Shape h hd (plug k (.node c 1 .nil x .nil))) (hz : (plug k (.node c 1 .nil x .nil)).Sized) (hn : n = 0) (hc : CRB k n)
    (hN : k.length + 2 ≤ N) :
    ∃ h' t' f, rebalanceS N h hd x = some (h', f) ∧ St h hd (plug k (.node c 1 .nil x .nil)).ids h' t' ∧ RBTree t' ∧
      f + t'.pot ≤ (plug k .nil).pot + 5 ∧ f ≤ k.length + 1 := by
  have H := (St.start hs hz).recolor .red
  obtain ⟨h', t', n', f, e, H', hrb, hnil, hf⟩ := rebalanceGo_spec k.length k (Nat.le_refl _) H
    (n := n) ⟨trivial, trivial, hn, hn⟩ hc (Nat.le_refl _)
  obtain ⟨hfk, e⟩ := rebalanceGoS_bound hd e
  have e := e N hN
  cases t' with
  | nil => exact absurd rfl hnil
  | node c' s' l' x' r' =>
    refine ⟨h'.setColor (h'.parent hd) .black, _, f, by unfold rebalanceS; rw [e], ?_, rb_blacken hrb, ?_, by omega⟩
    · have := St.recolor (k := []) H' .black
      rw [H'.shape.root]
      exact this
    · have q := pot_blacken c' s' l' x' r'
      have w := topRed_step k
      rw [pot_plug] at hf ⊢
      have e1 : (T.node .red 1 .nil x .nil).pot = 0 := rfl
      have e2 : (T.node .red 1 .nil x .nil).red = true := rfl
      rw [e1, e2] at hf
      simp only [pot_nil, red_nil]
      omega

end MI.Ord
