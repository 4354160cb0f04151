import Verif.Ord.Extract
/-! Removal of a node, continued (helper lemmas). -/
namespace MI.Ord
open MI

theorem hdOr_ne {d z : Id} {u v : List Id} (hn : (u ++ z :: v).Nodup) (hu : u ≠ []) : hdOr d (u ++ z :: v) ≠ z := by
  cases u with
  | nil => exact absurd rfl hu
  | cons a u => simp only [List.cons_append, hdOr, List.headD_cons]; rintro rfl; simp at hn

theorem getLastD_ne {d z : Id} {u v : List Id} (hn : (u ++ z :: v).Nodup) (hv : v ≠ []) : (u ++ z :: v).getLastD d ≠ z := by
  rcases List.eq_nil_or_concat' v with rfl | ⟨l, a, rfl⟩
  · exact absurd rfl hv
  · rw [← List.cons_append, ← List.append_assoc, List.getLastD_concat]
    rintro rfl
    simp [List.nodup_append] at hn

theorem spliceOut_spec {h : Heap} {hd : Id} {k : Ctx} {c : Color} {s : Nat} {l r ch : T} {z : Id} {N : Nat}
    (H : Shape h hd (plug k (.node c s l z r))) (hch : (l = .nil ∧ ch = r) ∨ (r = .nil ∧ l ≠ .nil ∧ ch = l))
    (hf : h.left hd = hdOr hd (plug k (.node c s l z r)).ids) (hl : h.right hd = (plug k (.node c s l z r)).ids.getLastD hd)
    (hN : (plug k (.node c s l z r)).ids.length ≤ N) :
    ∃ h', spliceOut N h hd z ch.root = some (h', ctxPar hd k) ∧ Shape h' hd (plug k ch) ∧ h'.color = h.color ∧
      h'.left hd = hdOr hd (plug k ch).ids ∧ h'.right hd = (plug k ch).ids.getLastD hd ∧
      Frame h h' (hd :: (plug k (.node c s l z r)).ids) := by
  have hread := H.read
  obtain ⟨S2, c2, s2, sz, l2, r2, fr, _⟩ := childUp_spec H (ch := ch) (by tauto)
  generalize hh2 : childUp h hd z ch.root = h2 at S2 c2 s2 sz l2 r2 fr
  have hnod := (shape_plug.1 H).nodup
  have hz0 := (shape_plug.1 H).nz
  have hzz := shape_plug.1 S2
  have hch0 : 0 ∉ ch.ids := fun q => hzz.nz (by simp [q])
  rw [ids_plug] at hf hl hN
  simp only [T.ids, List.length_append, List.length_cons] at hf hl hN
  have hchl : ch.ids.length ≤ N := by
    rcases hch with ⟨rfl, rfl⟩ | ⟨rfl, _, rfl⟩ <;> omega
  have hndz : (ctxL k ++ l.ids ++ z :: (r.ids ++ ctxR k)).Nodup := by
    have := (List.nodup_cons.1 hnod).2
    simpa [T.ids] using this
  have hf' : h.left hd = hdOr hd (ctxL k ++ l.ids ++ z :: (r.ids ++ ctxR k)) := by rw [hf]; simp
  have hl' : h.right hd = (ctxL k ++ l.ids ++ z :: (r.ids ++ ctxR k)).getLastD hd := by rw [hl]; simp
  -- first
  have first : ∃ v, (if h2.left hd = z then
      if h2.right z = 0 then some (h2.setLeft hd (h2.parent z)) else (minimum h2 N ch.root).map (h2.setLeft hd)
      else some h2) = some (h2.setLeft hd v) ∧ v = hdOr hd (plug k ch).ids := by
    rw [l2, hf', ids_plug]
    by_cases hu : ctxL k ++ l.ids = []
    · have hul : ctxL k = [] ∧ l.ids = [] := by simpa using hu
      have hln : l = .nil := by
        cases l with
        | nil => rfl
        | node => simp [T.ids] at hul
      rw [hu]
      have hchr : ch = r := by
        rcases hch with ⟨_, h⟩ | ⟨_, h, _⟩
        · exact h
        · exact absurd hln h
      subst hchr
      rw [List.nil_append, if_pos (by rfl), sz.2.2.1, hread.2.2.2.2.1, sz.1, hread.1]
      by_cases hr : ch = .nil
      · subst hr
        rw [root_nil, if_pos rfl]
        refine ⟨_, rfl, ?_⟩
        rw [hul.1]; simp only [T.ids, List.nil_append]
        exact (first_par hul.1).symm
      · rw [if_neg (fun e => hr ((root_zero hch0).1 e)), minimum_head hzz.at' hch0 hr hchl hd]
        refine ⟨_, rfl, ?_⟩
        rw [hul.1]
        cases ch with
        | nil => exact absurd rfl hr
        | node c s a y b =>
          simp only [T.ids, List.nil_append]
          rcases a.ids with _ | ⟨q, qs⟩ <;> rfl
    · rw [if_neg (hdOr_ne hndz hu)]
      refine ⟨h2.left hd, ?_, ?_⟩
      · congr 1
        unfold Heap.setLeft
        have : upd h2.left hd (h2.left hd) = h2.left := by
          funext w; unfold upd; split
          · rename_i q; rw [q]
          · rfl
        rw [this]
      · rw [l2, hf']
        rcases hch with ⟨rfl, rfl⟩ | ⟨rfl, _, rfl⟩
        · rcases hq : ctxL k with _ | ⟨q, qs⟩
          · simp [hq, T.ids] at hu
          · rfl
        · rcases hq : ctxL k ++ ch.ids with _ | ⟨q, qs⟩
          · exact absurd hq hu
          · rfl
  obtain ⟨v, e1, hv⟩ := first
  -- last
  have last : ∃ v', (if (h2.setLeft hd v).right hd = z then
      if (h2.setLeft hd v).left z = 0 then some ((h2.setLeft hd v).setRight hd ((h2.setLeft hd v).parent z))
      else (maximum (h2.setLeft hd v) N ch.root).map ((h2.setLeft hd v).setRight hd)
      else some (h2.setLeft hd v)) = some ((h2.setLeft hd v).setRight hd v') ∧ v' = (plug k ch).ids.getLastD hd := by
    have q1 : (h2.setLeft hd v).right hd = h.right hd := by rw [sl_right, r2]
    have q2 : (h2.setLeft hd v).left z = l.root := by
      rw [sl_left, upd_other _ _ hread.2.2.2.2.2.2, sz.2.1, hread.2.2.2.1]
    have q3 : (h2.setLeft hd v).parent z = ctxPar hd k := by rw [sl_parent, sz.1, hread.1]
    rw [q1, q2, q3, hl', ids_plug]
    by_cases hu : r.ids ++ ctxR k = []
    · have hul : r.ids = [] ∧ ctxR k = [] := by simpa using hu
      have hrn : r = .nil := by
        cases r with
        | nil => rfl
        | node => simp [T.ids] at hul
      rw [hu, List.getLastD_concat, if_pos rfl]
      have hchl' : ch = l := by
        rcases hch with ⟨h1, h⟩ | ⟨_, _, h⟩
        · rw [h, h1, hrn]
        · exact h
      subst hchl'
      by_cases hr : ch = .nil
      · subst hr
        rw [root_nil, if_pos rfl]
        refine ⟨_, rfl, ?_⟩
        rw [hul.2]; simp only [T.ids, List.append_nil]
        exact (last_par hul.2).symm
      · have hat : At (h2.setLeft hd v) (ctxPar hd k) ch := by
          refine at_congr ch (fun w hw => ?_) hzz.at'
          have : w ≠ hd := by
            rintro rfl
            have := hzz.nodup
            simp [hw] at this
          simp [SameAt, upd, this]
        rw [if_neg (fun e => hr ((root_zero hch0).1 e)), maximum_last hat hch0 hr hchl hd]
        refine ⟨_, rfl, ?_⟩
        rw [hul.2, List.append_nil]
        rcases List.eq_nil_or_concat' ch.ids with hq | ⟨qs, q, hq⟩
        · cases ch with
          | nil => exact absurd rfl hr
          | node => simp [T.ids] at hq
        · rw [hq, ← List.append_assoc]; simp only [List.getLastD_concat]
    · rw [if_neg (getLastD_ne hndz hu)]
      refine ⟨h2.right hd, ?_, ?_⟩
      · congr 1
        unfold Heap.setRight
        have : upd (h2.setLeft hd v).right hd (h2.right hd) = (h2.setLeft hd v).right := by
          funext w; unfold upd; split
          · rename_i q; rw [q]; rfl
          · rfl
        rw [this]
      · rw [r2, hl']
        rcases hch with ⟨rfl, rfl⟩ | ⟨rfl, _, rfl⟩
        · rcases List.eq_nil_or_concat' (ch.ids ++ ctxR k) with hq | ⟨qs, q, hq⟩
          · exact absurd hq hu
          · rw [List.append_assoc (ctxL k) ch.ids (ctxR k), hq, ← List.append_assoc (ctxL k) qs, ← List.cons_append, ← List.append_assoc]
            simp only [List.getLastD_concat]
        · rcases List.eq_nil_or_concat' (ctxR k) with hq | ⟨qs, q, hq⟩
          · simp [hq, T.ids] at hu
          · rw [hq]; simp only [T.ids, List.nil_append]; rw [← List.append_assoc, ← List.cons_append, ← List.append_assoc]
            simp only [List.getLastD_concat]
  obtain ⟨v', e2, hv'⟩ := last
  refine ⟨(h2.setLeft hd v).setRight hd v', ?_, ?_, ?_, ?_, ?_, ?_⟩
  · unfold spliceOut
    have hh2' : relinkL (if ch.root ≠ 0 then h.setParent ch.root (h.parent z) else h) hd z ch.root = h2 := hh2
    simp only [hh2', e1, e2]
    rw [hread.1]
  · refine S2.congr (fun w hw => ?_) rfl
    have : w ≠ hd := by
      rintro rfl
      have := S2.nodup
      simp [hw] at this
    simp [SameAt, upd, this]
  · exact c2
  · rw [sr_left, sl_left, upd_same, hv]
  · rw [sr_right, upd_same, hv']
  · refine fr.trans (fun w hw => ?_)
    have : w ≠ hd := by rintro rfl; exact hw (by simp)
    simp [upd, this]

theorem minimumS_zero {h : Heap} {N : Nat} {x y : Id} {w : Nat} (e : minimumS h N x = some (y, w)) (h0 : h.left x = 0) : w = 0 := by
  cases N with
  | zero => cases e
  | succ N =>
    rw [minimumS, if_neg (by rw [h0]; simp)] at e
    cases e; rfl

theorem maximumS_zero {h : Heap} {N : Nat} {x y : Id} {w : Nat} (e : maximumS h N x = some (y, w)) (h0 : h.right x = 0) : w = 0 := by
  cases N with
  | zero => cases e
  | succ N =>
    rw [maximumS, if_neg (by rw [h0]; simp)] at e
    cases e; rfl

/-- No walking if the node that leaves has at most one child and no grandchildren. -/
theorem spliceOutS_walk {h : Heap} {hd : Id} {k : Ctx} {c : Color} {s : Nat} {l r ch : T} {z : Id} {N : Nat} {q : Heap × Id} {w : Nat}
    (H : Shape h hd (plug k (.node c s l z r))) (hch : (l = .nil ∧ ch = r) ∨ (r = .nil ∧ l ≠ .nil ∧ ch = l))
    (hleaf : ch.height ≤ 1) (e : spliceOutS N h hd z ch.root = some (q, w)) : w = 0 := by
  have hread := H.read
  have hne : (r ≠ .nil → ch ≠ .nil) ∧ (l ≠ .nil → ch ≠ .nil) := by
    rcases hch with ⟨rfl, rfl⟩ | ⟨rfl, h, rfl⟩
    · exact ⟨id, fun q => absurd rfl q⟩
    · exact ⟨fun q => absurd rfl q, id⟩
  obtain ⟨S2, c2, s2, sz, l2, r2, fr, _⟩ := childUp_spec H (ch := ch) (by tauto)
  have hz0 := (shape_plug.1 H).nz
  have hl0 : 0 ∉ l.ids := by simp only [T.ids, List.mem_cons, List.mem_append, not_or] at hz0; tauto
  have hr0 : 0 ∉ r.ids := by simp only [T.ids, List.mem_cons, List.mem_append, not_or] at hz0; tauto
  have hleaves : ch ≠ .nil → (childUp h hd z ch.root).left ch.root = 0 ∧ (childUp h hd z ch.root).right ch.root = 0 ∧ ch.root ≠ hd := by
    intro hc
    cases ch with
    | nil => exact absurd rfl hc
    | node c' s' a y b =>
      have hr' := S2.read
      simp only [T.height] at hleaf
      have ha : a = .nil := by cases a with
        | nil => rfl
        | node => simp only [T.height] at hleaf; omega
      have hb : b = .nil := by cases b with
        | nil => rfl
        | node => simp only [T.height] at hleaf; omega
      subst ha; subst hb
      exact ⟨hr'.2.2.2.1, hr'.2.2.2.2.1, hr'.2.2.2.2.2.2⟩
  unfold spliceOutS at e
  have hh2' : relinkL (if ch.root ≠ 0 then h.setParent ch.root (h.parent z) else h) hd z ch.root = childUp h hd z ch.root := rfl
  simp only [hh2'] at e
  generalize childUp h hd z ch.root = h2 at *
  have second : ∀ (g : Heap) (c0 : Nat) (o : Option (Heap × Nat)), (∀ x, g.right x = h2.right x) → (∀ x, x ≠ hd → g.left x = h2.left x) →
      o = (if g.right hd = z then
        if g.left z = 0 then some (g.setRight hd (g.parent z), 0) else (maximumS g N ch.root).map (fun (y, c) => (g.setRight hd y, c))
        else some (g, 0)) →
      (match o with
        | none => none
        | some (h', c') => some ((h', h.parent z), c0 + c')) = some (q, w) → w = c0 := by
    intro g c0 o hgr hgl ho
    subst ho
    by_cases h1 : g.right hd = z
    · simp only [h1, if_true]
      have q1 : g.left z = l.root := by rw [hgl z hread.2.2.2.2.2.2, sz.2.1, hread.2.2.2.1]
      by_cases h2' : g.left z = 0
      · simp only [h2', if_true, Option.some.injEq, Prod.mk.injEq]
        rintro ⟨-, rfl⟩; rfl
      · have hc : ch ≠ .nil := hne.2 (fun q => h2' (by rw [q1, q]; rfl))
        simp only [h2', if_false]
        intro e
        cases hm : maximumS g N ch.root with
        | none => rw [hm] at e; cases e
        | some y =>
          obtain ⟨y, w'⟩ := y
          rw [hm] at e
          have := maximumS_zero hm (by rw [hgr]; exact (hleaves hc).2.1)
          subst this
          simp only [Option.map_some, Option.some.injEq, Prod.mk.injEq] at e
          exact e.2.symm
    · simp only [h1, if_false, Option.some.injEq, Prod.mk.injEq]
      rintro ⟨-, rfl⟩; rfl
  by_cases h1 : h2.left hd = z
  · simp only [h1, if_true] at e
    by_cases h2' : h2.right z = 0
    · simp only [h2', if_true] at e
      exact second (h2.setLeft hd (h2.parent z)) 0 _ (fun _ => rfl) (fun x hx => by simp [upd, hx]) rfl e
    · have hc : ch ≠ .nil := hne.1 (fun q => h2' (by rw [sz.2.2.1, hread.2.2.2.2.1, q]; rfl))
      simp only [h2', if_false] at e
      cases hm : minimumS h2 N ch.root with
      | none => rw [hm] at e; cases e
      | some y =>
        obtain ⟨y, w'⟩ := y
        rw [hm] at e
        have := minimumS_zero hm (hleaves hc).1
        subst this
        exact second (h2.setLeft hd y) 0 _ (fun _ => rfl) (fun x hx => by simp [upd, hx]) rfl e
  · simp only [h1, if_false] at e
    exact second h2 0 _ (fun _ => rfl) (fun x hx => rfl) rfl e

/-- A node takes the place of another one. -/
theorem subst_shape {h h' : Heap} {hd : Id} {k : Ctx} {c : Color} {s : Nat} {l r : T} {z y : Id}
    (H : Shape h hd (plug k (.node c s l z r))) (hy : y ∉ hd :: (plug k (.node c s l z r)).ids) (hy0 : y ≠ 0)
    (hyf : h'.parent y = ctxPar hd k ∧ h'.color y = c ∧ h'.size y = s ∧ h'.left y = l.root ∧ h'.right y = r.root)
    (hlr : ∀ t : T, t = l ∨ t = r → t.root ≠ 0 → h'.parent t.root = y ∧ h'.left t.root = h.left t.root ∧
      h'.right t.root = h.right t.root ∧ h'.color t.root = h.color t.root ∧ h'.size t.root = h.size t.root)
    (hsame : ∀ w, (w ∈ l.ids ∧ w ≠ l.root ∨ w ∈ r.ids ∧ w ≠ r.root) → SameAt h h' w)
    (hctx : ∀ w ∈ ctxIds k, w ≠ ctxPar hd k → SameAt h h' w)
    (hp : k ≠ [] → h'.parent hd = h.parent hd)
    (hh : match k with
      | [] => h'.parent hd = y
      | f :: _ => h'.parent f.x = h.parent f.x ∧ h'.color f.x = h.color f.x ∧ h'.size f.x = h.size f.x ∧
        match f.side with
        | .left => h'.left f.x = y ∧ h'.right f.x = h.right f.x
        | .right => h'.left f.x = h.left f.x ∧ h'.right f.x = y) :
    Shape h' hd (plug k (.node c s l y r)) := by
  rw [shape_plug] at H ⊢
  obtain ⟨⟨a1, a2, a3, a4, a5, a6, a7⟩, hc, hn0, h00⟩ := H
  have hn := hn0
  rw [ids_plug] at hy
  simp only [T.ids, List.nodup_cons, List.nodup_append, List.mem_append, List.mem_cons, not_or] at hn hy h00
  refine ⟨⟨hyf.1, hyf.2.1, hyf.2.2.1, hyf.2.2.2.1, hyf.2.2.2.2, ?_, ?_⟩, ?_, ?_, ?_⟩
  · exact at_reparent (by grind) (fun w hw hr => hsame w (Or.inl ⟨hw, hr⟩)) (hlr l (Or.inl rfl)) (by grind) a6
  · exact at_reparent (by grind) (fun w hw hr => hsame w (Or.inr ⟨hw, hr⟩)) (hlr r (Or.inr rfl)) (by grind) a7
  · refine atCtx_hole (by
      simp only [List.nodup_cons, List.nodup_append, List.mem_append]; grind) hctx hp ?_ hc
    cases k <;> exact hh
  · simp only [T.ids, List.nodup_cons, List.nodup_append, List.mem_append, List.mem_cons, not_or]; grind
  · simp only [T.ids, List.mem_append, List.mem_cons, not_or]; grind

end MI.Ord
