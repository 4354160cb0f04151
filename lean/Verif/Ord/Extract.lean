import Verif.Ord.ExtractFix
/-! Removal of a node (helper lemmas). -/
namespace MI.Ord
open MI

theorem ctxL_append (k k' : Ctx) : ctxL (k ++ k') = ctxL k' ++ ctxL k := by
  induction k with
  | nil => simp [ctxL]
  | cons f k ih =>
    rcases f with ⟨side, c, s, x, sib⟩
    cases side <;> simp [ctxL, ih]

theorem ctxR_append (k k' : Ctx) : ctxR (k ++ k') = ctxR k ++ ctxR k' := by
  induction k with
  | nil => simp [ctxR]
  | cons f k ih =>
    rcases f with ⟨side, c, s, x, sib⟩
    cases side <;> simp [ctxR, ih]

/-- Paths that go left only. -/
def AllLeft (k : Ctx) : Prop := ∀ f ∈ k, f.side = .left

theorem allLeft_ctxL {k : Ctx} (h : AllLeft k) : ctxL k = [] := by
  induction k with
  | nil => rfl
  | cons f k ih =>
    have h1 := h f (by simp)
    have h2 := ih (fun g hg => h g (by simp [hg]))
    simp [ctxL, h1, h2]

theorem minimumS_spec {h : Heap} (t : T) : ∀ {p : Id} {N : Nat}, At h p t → 0 ∉ t.ids → t ≠ .nil → t.ids.length ≤ N →
    ∃ k c s y r, t = plug k (.node c s .nil y r) ∧ AllLeft k ∧ minimumS h N t.root = some (y, k.length) := by
  suffices H : ∀ (k0 : Ctx) {p : Id} {N : Nat}, AllLeft k0 → At h p t → 0 ∉ t.ids → t ≠ .nil → t.ids.length ≤ N →
      ∃ k c s y r w, plug k0 t = plug k (.node c s .nil y r) ∧ AllLeft k ∧ minimumS h N t.root = some (y, w) ∧ k.length = k0.length + w from by
    intro p N a b c d
    obtain ⟨k, c, s, y, r, w, e1, e2, e3, e4⟩ := H [] (by simp [AllLeft]) a b c d
    simp only [List.length_nil, Nat.zero_add] at e4
    exact ⟨k, c, s, y, r, e1, e2, by rw [e3, e4]⟩
  induction t with
  | nil => intro _ _ _ _ _ _ hn; exact absurd rfl hn
  | node c s l x r ihl ihr =>
    intro k0 p N hk ha h0 _ hN
    obtain ⟨a1, a2, a3, a4, a5, a6, a7⟩ := ha
    simp only [T.ids, List.length_append, List.length_cons, List.mem_append, List.mem_cons, not_or] at h0 hN
    obtain ⟨N, rfl⟩ : ∃ M, N = M + 1 := ⟨N - 1, by omega⟩
    rw [minimumS, root_node, a4]
    by_cases hl : l = .nil
    · subst hl
      exact ⟨k0, c, s, x, r, 0, rfl, hk, by simp, by simp⟩
    · rw [if_pos (fun e => hl ((root_zero h0.1).1 e))]
      obtain ⟨k, c', s', y, r', w, e1, e2, e3, e4⟩ := ihl (⟨.left, c, s, x, r⟩ :: k0) (by
        intro f hf
        simp only [List.mem_cons] at hf
        rcases hf with rfl | hf
        · rfl
        · exact hk f hf) a6 h0.1 hl (N := N) (by omega)
      refine ⟨k, c', s', y, r', w + 1, e1, e2, by rw [e3]; rfl, ?_⟩
      simp only [List.length_cons] at e4; omega

theorem minimum_spec {h : Heap} (t : T) {p : Id} {N : Nat} (ha : At h p t) (h0 : 0 ∉ t.ids) (ht : t ≠ .nil) (hN : t.ids.length ≤ N) :
    ∃ k c s y r, t = plug k (.node c s .nil y r) ∧ AllLeft k ∧ minimum h N t.root = some y := by
  obtain ⟨k, c, s, y, r, e1, e2, e3⟩ := minimumS_spec t ha h0 ht hN
  exact ⟨k, c, s, y, r, e1, e2, by rw [← minimumS_fst, e3]; rfl⟩

theorem minimum_mirror (h : Heap) (N : Nat) : ∀ x, maximum h N x = minimum h.mirror N x := by
  induction N with
  | zero => intro x; rfl
  | succ N ih =>
    intro x
    show (if h.right x ≠ 0 then maximum h N (h.right x) else some x) = (if h.right x ≠ 0 then minimum h.mirror N (h.right x) else some x)
    rw [ih]

theorem minimum_head {h : Heap} {t : T} {p : Id} {N : Nat} (ha : At h p t) (h0 : 0 ∉ t.ids) (ht : t ≠ .nil) (hN : t.ids.length ≤ N) (d : Id) :
    minimum h N t.root = some (hdOr d t.ids) := by
  obtain ⟨k, c, s, y, r, rfl, hk, e⟩ := minimum_spec t ha h0 ht hN
  rw [e, ids_plug, allLeft_ctxL hk]
  simp [T.ids, hdOr]

theorem maximum_last {h : Heap} {t : T} {p : Id} {N : Nat} (ha : At h p t) (h0 : 0 ∉ t.ids) (ht : t ≠ .nil) (hN : t.ids.length ≤ N) (d : Id) :
    maximum h N t.root = some (t.ids.getLastD d) := by
  rw [minimum_mirror]
  have := minimum_head (t := t.mirror) ((at_mirror t).2 ha) (by simpa using h0) (by cases t <;> simp_all [T.mirror]) (N := N) (by simpa using hN) d
  rw [T.mirror_root] at this
  rw [this]
  congr 1
  rw [T.mirror_ids, hdOr]
  simp [List.headD_eq_head?_getD, List.getLastD_eq_getLast?]

theorem first_par {hd : Id} {k : Ctx} (h : ctxL k = []) : hdOr hd (ctxR k) = ctxPar hd k := by
  cases k with
  | nil => rfl
  | cons f k =>
    rcases f with ⟨side, c, s, x, sib⟩
    cases side
    · rfl
    · simp [ctxL] at h

theorem last_par {hd : Id} {k : Ctx} (h : ctxR k = []) : (ctxL k).getLastD hd = ctxPar hd k := by
  cases k with
  | nil => rfl
  | cons f k =>
    rcases f with ⟨side, c, s, x, sib⟩
    cases side
    · simp [ctxR] at h
    · simp [ctxL, ctxPar]

theorem Shape.congr {h h' : Heap} {hd : Id} {t : T} (H : Shape h hd t) (hs : ∀ z ∈ t.ids, SameAt h h' z) (hp : h'.parent hd = h.parent hd) :
    Shape h' hd t := ⟨at_congr t hs H.at', hp.trans H.root, H.nodup, H.nz⟩

/-- The assignments that put the child `x` in place of `z`: ord_index_node.hpp:462-468. -/
def childUp (h : Heap) (hd z x : Id) : Heap := relinkL (if x ≠ 0 then h.setParent x (h.parent z) else h) hd z x

theorem childUp_spec {h : Heap} {hd : Id} {k : Ctx} {c : Color} {s : Nat} {l r ch : T} {z : Id}
    (H : Shape h hd (plug k (.node c s l z r))) (hch : (l = .nil ∧ ch = r) ∨ (r = .nil ∧ ch = l)) :
    let h2 := childUp h hd z ch.root
    Shape h2 hd (plug k ch) ∧ h2.color = h.color ∧ h2.size = h.size ∧ SameAt h h2 z ∧ h2.left hd = h.left hd ∧ h2.right hd = h.right hd ∧
    Frame h h2 (hd :: (plug k (.node c s l z r)).ids) ∧
    h2 = setHole (if ch.root ≠ 0 then h.setParent ch.root (ctxPar hd k) else h) hd k ch.root := by
  obtain ⟨⟨a1, a2, a3, a4, a5, a6, a7⟩, hc, hn0, h00⟩ := shape_plug.1 H
  have hchm : ∀ w ∈ ch.ids, w ∈ (T.node c s l z r).ids ∧ w ≠ z := by
    simp only [T.ids, List.nodup_cons, List.nodup_append, List.mem_append, List.mem_cons] at hn0
    intro w hw
    rcases hch with ⟨_, rfl⟩ | ⟨_, rfl⟩
    · refine ⟨by simp [T.ids, hw], ?_⟩; rintro rfl; grind
    · refine ⟨by simp [T.ids, hw], ?_⟩; rintro rfl; grind
  have hat : At h z ch := by rcases hch with ⟨_, rfl⟩ | ⟨_, rfl⟩ <;> assumption
  have hchids : (ctxL k ++ ch.ids ++ ctxR k).Sublist (ctxL k ++ (T.node c s l z r).ids ++ ctxR k) := by
    refine List.Sublist.append (List.Sublist.append (List.Sublist.refl _) ?_) (List.Sublist.refl _)
    rcases hch with ⟨_, rfl⟩ | ⟨_, rfl⟩
    · simp only [T.ids]
      exact ((List.sublist_cons_self z _).trans (List.sublist_append_right _ _))
    · simp only [T.ids]
      exact List.sublist_append_left _ _
  have hn' : (hd :: (ctxL k ++ ch.ids ++ ctxR k)).Nodup := (hchids.cons_cons hd).nodup hn0
  have h0' : 0 ∉ hd :: (ctxL k ++ ch.ids ++ ctxR k) := fun q => h00 ((hchids.cons_cons hd).mem q)
  have hn := hn0
  have hnc := hn'
  have h0 := h0'
  simp only [T.ids, List.nodup_cons, List.nodup_append, List.mem_append, List.mem_cons, not_or] at hn hnc h0
  have hz0 : z ≠ 0 := by rintro rfl; exact h00 (by simp [T.ids])
  have hzhd : z ≠ hd := by rintro rfl; grind
  have hzctx : z ∉ ctxIds k := by simp only [ctxIds, List.mem_append]; grind
  have hpm := ctxPar_mem (hd := hd) k
  have hpz : ctxPar hd k ≠ z := by
    rcases hpm with e | e
    · rw [e]; exact hzhd.symm
    · rintro q; rw [q] at e; exact hzctx e
  have hpch : ∀ w ∈ ch.ids, w ≠ ctxPar hd k ∧ w ≠ hd ∧ w ∉ ctxIds k := by
    intro w hw
    have h1 : w ∉ ctxIds k := by simp only [ctxIds, List.mem_append]; grind
    have h2 : w ≠ hd := by rintro rfl; grind
    refine ⟨?_, h2, h1⟩
    rcases hpm with e | e
    · rw [e]; exact h2
    · rintro q; rw [← q] at e; exact h1 e
  -- first assignment
  generalize hh1 : (if ch.root ≠ 0 then h.setParent ch.root (h.parent z) else h) = h1
  have f1 : ∀ w, (ch.root ≠ 0 → w ≠ ch.root) → SameAt h h1 w := by
    intro w hw
    rw [← hh1]; split
    · rename_i q; simp [SameAt, upd, hw q]
    · exact SameAt.refl _ _
  have hcr : ch.root ≠ 0 → ch.root ∈ ch.ids := root_mem
  have hz1 : SameAt h h1 z := f1 z (fun q e => (hchm _ (hcr q)).2 e.symm)
  have hc1 : AtCtx h1 hd k z := by
    refine atCtx_congr k (fun w hw => f1 w (fun q e => ?_)) (f1 hd (fun q e => ?_)).1 hc
    · exact (hpch _ (hcr q)).2.2 (e ▸ hw)
    · exact (hpch _ (hcr q)).2.1 e.symm
  have hrel := relinkL_eq ch.root hc1 (by rw [hz1.1, a1]) hz0 hzctx
  intro h2
  have e2 : h2 = setHole h1 hd k ch.root := by
    simp only [h2, childUp]; rw [hh1]; exact hrel
  have f2 : ∀ w, w ≠ ctxPar hd k → SameAt h1 h2 w := by intro w hw; rw [e2]; exact setHole_same hw
  have h2c : h2.color = h.color := by
    rw [e2, ← hh1]
    cases k with
    | nil => simp only [setHole, sp_color]; split <;> rfl
    | cons f k => rcases f with ⟨side, _, _, _, _⟩; cases side <;> simp only [setHole, sl_color, sr_color] <;> split <;> rfl
  have h2s : h2.size = h.size := by
    rw [e2, ← hh1]
    cases k with
    | nil => simp only [setHole, sp_size]; split <;> rfl
    | cons f k => rcases f with ⟨side, _, _, _, _⟩; cases side <;> simp only [setHole, sl_size, sr_size] <;> split <;> rfl
  have hfd : h2.left hd = h.left hd ∧ h2.right hd = h.right hd := by
    have g1 := f1 hd (fun q e => (hpch _ (hcr q)).2.1 e.symm)
    cases k with
    | nil => rw [e2]; exact ⟨g1.2.1, g1.2.2.1⟩
    | cons f k =>
      have hfx : hd ≠ ctxPar hd (f :: k) := by
        have := (ctxIds_cons (f := f) (k := k) f.x).2 (Or.inl rfl)
        simp only [ctxIds, List.mem_append] at this
        simp only [ctxPar]; rintro q; rw [← q] at this; grind
      have g2 := f2 hd hfx
      exact ⟨g2.2.1.trans g1.2.1, g2.2.2.1.trans g1.2.2.1⟩
  refine ⟨?_, h2c, h2s, hz1.trans (f2 z hpz.symm), hfd.1, hfd.2, ?_, ?_⟩
  · rw [shape_plug]
    refine ⟨?_, ?_, hn', h0'⟩
    · refine at_reparent (by grind) (fun w hw hr => ?_) (fun hb => ?_) (by grind) hat
      · exact (f1 w (fun _ => hr)).trans (f2 w (hpch w hw).1)
      · have g2 := f2 _ (hpch _ (hcr hb)).1
        have g1 : h1.parent ch.root = ctxPar hd k := by rw [← hh1, if_pos hb]; simp [a1]
        refine ⟨g2.1.trans g1, ?_, ?_, by rw [h2c], by rw [h2s]⟩
        · rw [g2.2.1, ← hh1]; split <;> rfl
        · rw [g2.2.2.1, ← hh1]; split <;> rfl
    · refine atCtx_hole (by
        simp only [List.nodup_cons, List.nodup_append, List.mem_append]; grind) (fun w hw hp => f2 w hp) ?_ ?_ hc1
      · intro hk
        refine (f2 hd ?_).1
        cases k with
        | nil => exact absurd rfl hk
        | cons f k =>
          have := (ctxIds_cons (f := f) (k := k) f.x).2 (Or.inl rfl)
          simp only [ctxIds, List.mem_append] at this
          simp only [ctxPar]; rintro q; rw [← q] at this; grind
      · cases k with
        | nil => simp only; rw [e2]; simp [setHole]
        | cons f k =>
          rcases f with ⟨side, fc, fs, fx, sib⟩
          cases side
          · simp only; rw [e2]; simp [setHole]
          · simp only; rw [e2]; simp [setHole]
  · intro w hw
    rw [ids_plug] at hw
    refine (f1 w (fun q e => ?_)).trans (f2 w ?_)
    · have := (hchm _ (hcr q)).1
      rw [← e] at this
      exact hw (by simp [this])
    · rcases hpm with e | e
      · rw [e]; rintro rfl; exact hw (by simp)
      · rintro rfl
        simp only [ctxIds, List.mem_append] at e
        exact hw (by simp only [List.mem_cons, List.mem_append]; tauto)
  · rw [e2, ← hh1, a1]

end MI.Ord
