import Verif.Ord.Extract2
/-! Removal of a node with two children (helper lemmas). -/
namespace MI.Ord
open MI

/-- End of `replaceBySucc`: ord_index_node.hpp:450-455. -/
def succTail (h : Heap) (hd z y : Id) : Heap :=
  let h := relinkL h hd z y
  let h := h.setParent y (h.parent z)
  let c := h.color y
  let h := h.setColor y (h.color z)
  h.setColor z c

theorem succTail_spec {h : Heap} {hd : Id} {k : Ctx} {z y : Id} (hc : AtCtx h hd k z) (hp : h.parent z = ctxPar hd k) (hz0 : z ≠ 0)
    (hzk : z ∉ ctxIds k) (hzhd : z ≠ hd) (hyk : y ∉ ctxIds k) (hyhd : y ≠ hd) (hyz : y ≠ z) (hk : hd ∉ ctxIds k) :
    let h' := succTail h hd z y
    (∀ w, w ≠ ctxPar hd k → w ≠ y → w ≠ z → SameAt h h' w) ∧
    (h'.parent y = ctxPar hd k ∧ h'.color y = h.color z ∧ h'.size y = h.size y ∧ h'.left y = h.left y ∧ h'.right y = h.right y) ∧
    h'.color z = h.color y ∧
    (k ≠ [] → h'.parent hd = h.parent hd) ∧
    (h'.left hd = h.left hd ∧ h'.right hd = h.right hd ∧ h'.color hd = h.color hd) ∧
    (match k with
      | [] => h'.parent hd = y
      | f :: _ => h'.parent f.x = h.parent f.x ∧ h'.color f.x = h.color f.x ∧ h'.size f.x = h.size f.x ∧
        match f.side with
        | .left => h'.left f.x = y ∧ h'.right f.x = h.right f.x
        | .right => h'.left f.x = h.left f.x ∧ h'.right f.x = y) := by
  intro h'
  have hrel := relinkL_eq y hc hp hz0 hzk
  have hpm := ctxPar_mem (hd := hd) k
  have hpz : z ≠ ctxPar hd k := by
    rcases hpm with e | e
    · rw [e]; exact hzhd
    · rintro q; rw [← q] at e; exact hzk e
  have hpy : y ≠ ctxPar hd k := by
    rcases hpm with e | e
    · rw [e]; exact hyhd
    · rintro q; rw [← q] at e; exact hyk e
  generalize hg : setHole h hd k y = g at hrel
  have e : h' = (((g.setParent y (g.parent z)).setColor y (g.color z)).setColor z (g.color y)) := by
    simp [h', succTail, hrel]
  have fg : ∀ w, w ≠ ctxPar hd k → SameAt h g w := by intro w hw; rw [← hg]; exact setHole_same hw
  have gz := fg z hpz
  have gy := fg y hpy
  refine ⟨?_, ⟨?_, ?_, ?_, ?_, ?_⟩, ?_, ?_, ⟨?_, ?_, ?_⟩, ?_⟩
  · intro w w1 w2 w3
    refine (fg w w1).trans ?_
    simp [e, SameAt, upd, w2, w3]
  · simp [e, upd, gz.1, hp]
  · simp [e, upd, hyz, gz.2.2.2.1]
  · simp [e, gy.2.2.2.2]
  · simp [e, gy.2.1]
  · simp [e, gy.2.2.1]
  · simp [e, upd, gy.2.2.2.1]
  · intro hk'
    have : hd ≠ ctxPar hd k := by
      cases k with
      | nil => exact absurd rfl hk'
      | cons f k => simp only [ctxPar]; rintro rfl; exact hk ((ctxIds_cons _).2 (Or.inl rfl))
    simp [e, upd, Ne.symm hyhd, (fg hd this).1]
  all_goals try (
    cases k with
    | nil => simp [e, upd, Ne.symm hyhd, Ne.symm hzhd, ← hg, setHole]
    | cons f k =>
      have : hd ≠ ctxPar hd (f :: k) := by simp only [ctxPar]; rintro rfl; exact hk ((ctxIds_cons _).2 (Or.inl rfl))
      have := fg hd this
      simp [e, upd, Ne.symm hyhd, Ne.symm hzhd, this.2.1, this.2.2.1, this.2.2.2.1])
  · cases k with
    | nil => simp [e, upd, ← hg, setHole, Ne.symm hyhd]
    | cons f k =>
      simp only [ctxPar] at hpz hpy
      rcases f with ⟨side, fc, fs, fx, sib⟩
      cases side <;> simp [e, upd, ← hg, setHole, Ne.symm hpz, Ne.symm hpy]

theorem plug_root_ne {k : Ctx} (hk : k ≠ []) (t t' : T) : (plug k t).root = (plug k t').root := by
  induction k generalizing t t' with
  | nil => exact absurd rfl hk
  | cons f k ih =>
    cases k with
    | nil => simp [plug, fill_root]
    | cons g k => exact ih (by simp) _ _

theorem SameAt.via {h a b : Heap} {w : Id} (x : SameAt h a w) (y : SameAt h b w) : SameAt a b w :=
  ⟨y.1.trans x.1.symm, y.2.1.trans x.2.1.symm, y.2.2.1.trans x.2.2.1.symm, y.2.2.2.1.trans x.2.2.2.1.symm, y.2.2.2.2.trans x.2.2.2.2.symm⟩

/-- Distinctness facts for a node `z` with left subtree `l` and successor `y`. -/
structure SuccPre (h : Heap) (hd : Id) (k k1 : Ctx) (c cy : Color) (s sy : Nat) (l ry : T) (z y : Id) : Prop where
  hz : h.parent z = ctxPar hd k ∧ h.color z = c ∧ h.size z = s ∧ h.left z = l.root ∧
    h.right z = (plug k1 (.node cy sy .nil y ry)).root ∧ z ≠ 0 ∧ z ≠ hd
  hy : h.parent y = ctxPar hd (k1 ++ ⟨.right, c, s, z, l⟩ :: k) ∧ h.color y = cy ∧ h.size y = sy ∧ h.left y = 0 ∧
    h.right y = ry.root ∧ y ≠ 0 ∧ y ≠ hd
  ctx : AtCtx h hd k z
  l0 : l.root ≠ 0
  yk : y ∉ ctxIds k
  zk : z ∉ ctxIds k
  hk : hd ∉ ctxIds k
  yz : y ≠ z
  rid : ∀ w ∈ ry.ids, w ≠ y ∧ w ≠ z ∧ w ≠ hd ∧ w ∉ ctxIds k ∧ w ∉ l.ids ∧ w ∉ ctxIds k1
  lid : ∀ w ∈ l.ids, w ≠ y ∧ w ≠ z ∧ w ≠ hd ∧ w ∉ ctxIds k
  kid : ∀ w ∈ ctxIds k1, w ≠ y ∧ w ≠ z ∧ w ≠ hd ∧ w ∉ ctxIds k ∧ w ∉ l.ids
  yfresh : y ∉ hd :: (plug k (.node c s l z (plug k1 ry))).ids

theorem succPre {h : Heap} {hd : Id} {k k1 : Ctx} {c cy : Color} {s sy : Nat} {l ry : T} {z y : Id}
    (H : Shape h hd (plug k (.node c s l z (plug k1 (.node cy sy .nil y ry))))) (hl : l ≠ .nil) :
    SuccPre h hd k k1 c cy s sy l ry z y := by
  have hz := H.read
  have HK : Shape h hd (plug (k1 ++ ⟨.right, c, s, z, l⟩ :: k) (.node cy sy .nil y ry)) := by
    rw [plug_append]; exact H
  have hy := HK.read
  obtain ⟨_, hctx, hn, h0⟩ := shape_plug.1 H
  simp only [T.ids, ids_plug, List.nil_append, List.nodup_cons, List.nodup_append, List.mem_append, List.mem_cons, not_or] at hn h0
  refine ⟨hz, hy, hctx, fun e => hl ((root_zero (by grind)).1 e), ?_, ?_, ?_, by grind, ?_, ?_, ?_, ?_⟩
  · simp only [ctxIds, List.mem_append]; grind
  · simp only [ctxIds, List.mem_append]; grind
  · simp only [ctxIds, List.mem_append]; grind
  · intro w hw
    refine ⟨?_, ?_, ?_, ?_, ?_, ?_⟩
    · rintro rfl; grind
    · rintro rfl; grind
    · rintro rfl; grind
    · simp only [ctxIds, List.mem_append]; grind
    · grind
    · simp only [ctxIds, List.mem_append]; grind
  · intro w hw
    refine ⟨?_, ?_, ?_, ?_⟩
    · rintro rfl; grind
    · rintro rfl; grind
    · rintro rfl; grind
    · simp only [ctxIds, List.mem_append]; grind
  · intro w hw
    simp only [ctxIds, List.mem_append] at hw
    refine ⟨?_, ?_, ?_, ?_, ?_⟩
    · rintro rfl; grind
    · rintro rfl; grind
    · rintro rfl; grind
    · simp only [ctxIds, List.mem_append]; grind
    · grind
  · simp only [ids_plug, T.ids, List.mem_cons, List.mem_append, not_or]; grind

theorem SuccPre.par_ne {h : Heap} {hd : Id} {k k1 : Ctx} {c cy : Color} {s sy : Nat} {l ry : T} {z y : Id}
    (_P : SuccPre h hd k k1 c cy s sy l ry z y) {w : Id} (w1 : w ≠ hd) (w2 : w ∉ ctxIds k) : w ≠ ctxPar hd k := by
  rcases ctxPar_mem (hd := hd) k with e | e
  · rw [e]; exact w1
  · rintro q; rw [← q] at e; exact w2 e

/-- Common end of the two cases. -/
theorem succ_close {h hc g : Heap} {hd : Id} {k k1 : Ctx} {c cy : Color} {s sy : Nat} {l ry : T} {z y : Id}
    (P : SuccPre h hd k k1 c cy s sy l ry z y)
    (S2 : Shape hc hd (plug k (.node c s l z (plug k1 ry))))
    (fg : ∀ w, w ≠ hd → w ≠ y → w ≠ z → w ≠ l.root → w ≠ (plug k1 ry).root → SameAt hc g w)
    (gl : g.parent l.root = y ∧ g.left l.root = hc.left l.root ∧ g.right l.root = hc.right l.root ∧ g.color l.root = hc.color l.root ∧
      g.size l.root = hc.size l.root)
    (gr : (plug k1 ry).root ≠ 0 → g.parent (plug k1 ry).root = y ∧ g.left (plug k1 ry).root = hc.left (plug k1 ry).root ∧
      g.right (plug k1 ry).root = hc.right (plug k1 ry).root ∧ g.color (plug k1 ry).root = hc.color (plug k1 ry).root ∧
      g.size (plug k1 ry).root = hc.size (plug k1 ry).root)
    (gy : g.size y = s ∧ g.left y = l.root ∧ g.right y = (plug k1 ry).root ∧ g.color y = cy)
    (gz : g.parent z = ctxPar hd k ∧ g.color z = c)
    (ghd : g.parent hd = hc.parent hd ∧ g.left hd = h.left hd ∧ g.right hd = h.right hd ∧ g.color hd = h.color hd)
    (fh : ∀ w, w ≠ y → w ≠ z → w ∉ l.ids → w ∉ (plug k1 ry).ids → w ∉ ctxIds k → w ≠ hd → SameAt h g w) :
    Shape (succTail g hd z y) hd (plug k (.node c s l y (plug k1 ry))) ∧ (succTail g hd z y).color z = cy ∧
      (succTail g hd z y).left hd = h.left hd ∧ (succTail g hd z y).right hd = h.right hd ∧ (succTail g hd z y).color hd = h.color hd ∧
      Frame h (succTail g hd z y) (hd :: (plug k (.node c s l z (plug k1 (.node cy sy .nil y ry)))).ids) := by
  have hlm := root_mem P.l0
  obtain ⟨ly, lz, lhd, lk⟩ := P.lid _ hlm
  have hr_in : ∀ w ∈ (plug k1 ry).ids, w ≠ y ∧ w ≠ z ∧ w ≠ hd ∧ w ∉ ctxIds k ∧ w ∉ l.ids := by
    intro w hw
    rw [ids_plug] at hw
    simp only [List.mem_append] at hw
    have hor : w ∈ ry.ids ∨ w ∈ ctxIds k1 := by simp only [ctxIds, List.mem_append]; tauto
    rcases hor with q | q
    · have := P.rid w q; tauto
    · exact P.kid w q
  have zz := shape_plug.1 S2
  have hctx1 : AtCtx g hd k z := by
    refine atCtx_congr k (fun w hw => fg w ?_ ?_ ?_ ?_ ?_) ghd.1 zz.ctx
    · rintro rfl; exact P.hk hw
    · rintro rfl; exact P.yk hw
    · rintro rfl; exact P.zk hw
    · rintro rfl; exact lk hw
    · intro e
      by_cases q : (plug k1 ry).root = 0
      · rw [q] at e
        subst e
        refine zz.nz ?_
        simp only [ctxIds, List.mem_append] at hw
        simp only [List.mem_cons, List.mem_append]; tauto
      · exact (hr_in _ (root_mem q)).2.2.2.1 (e ▸ hw)
  obtain ⟨t1, ⟨ty1, ty2, ty3, ty4, ty5⟩, tz, thd, ⟨thl, thr, thc⟩, th⟩ :=
    succTail_spec hctx1 gz.1 P.hz.2.2.2.2.2.1 P.zk P.hz.2.2.2.2.2.2 P.yk P.hy.2.2.2.2.2.2 P.yz P.hk
  have ctxne : ∀ w ∈ ctxIds k, w ≠ hd ∧ w ≠ y ∧ w ≠ z ∧ w ≠ l.root ∧ w ≠ (plug k1 ry).root := by
    intro w hw
    refine ⟨?_, ?_, ?_, ?_, ?_⟩
    · rintro rfl; exact P.hk hw
    · rintro rfl; exact P.yk hw
    · rintro rfl; exact P.zk hw
    · rintro rfl; exact lk hw
    · intro e
      by_cases q : (plug k1 ry).root = 0
      · rw [q] at e
        subst e
        refine zz.nz ?_
        simp only [ctxIds, List.mem_append] at hw
        simp only [List.mem_cons, List.mem_append]; tauto
      · exact (hr_in _ (root_mem q)).2.2.2.1 (e ▸ hw)
  refine ⟨?_, ?_, ?_, ?_, ?_, ?_⟩
  · refine subst_shape S2 P.yfresh P.hy.2.2.2.2.2.1 ⟨ty1, ?_, ?_, ?_, ?_⟩ ?_ ?_ ?_ ?_ ?_
    · rw [ty2, gz.2]
    · rw [ty3, gy.1]
    · rw [ty4, gy.2.1]
    · rw [ty5, gy.2.2.1]
    · rintro t (rfl | rfl) ht
      · have g := t1 t.root (P.par_ne lhd lk) ly lz
        exact ⟨g.1.trans gl.1, g.2.1.trans gl.2.1, g.2.2.1.trans gl.2.2.1, g.2.2.2.1.trans gl.2.2.2.1, g.2.2.2.2.trans gl.2.2.2.2⟩
      · have hm := hr_in _ (root_mem ht)
        have g := t1 _ (P.par_ne hm.2.2.1 hm.2.2.2.1) hm.1 hm.2.1
        have gr := gr ht
        exact ⟨g.1.trans gr.1, g.2.1.trans gr.2.1, g.2.2.1.trans gr.2.2.1, g.2.2.2.1.trans gr.2.2.2.1, g.2.2.2.2.trans gr.2.2.2.2⟩
    · rintro w (⟨w1, w2⟩ | ⟨w1, w2⟩)
      · have hm := P.lid w w1
        refine (fg w hm.2.2.1 hm.1 hm.2.1 w2 ?_).trans (t1 w (P.par_ne hm.2.2.1 hm.2.2.2) hm.1 hm.2.1)
        intro e
        by_cases q : (plug k1 ry).root = 0
        · rw [q] at e; subst e
          exact zz.nz (by simp [T.ids, w1])
        · exact (hr_in _ (root_mem q)).2.2.2.2 (e ▸ w1)
      · have hm := hr_in w w1
        exact (fg w hm.2.2.1 hm.1 hm.2.1 (fun e => hm.2.2.2.2 (e ▸ hlm)) w2).trans (t1 w (P.par_ne hm.2.2.1 hm.2.2.2.1) hm.1 hm.2.1)
    · intro w w1 w2
      obtain ⟨q0, q1, q2, q3, q4⟩ := ctxne w w1
      exact (fg w q0 q1 q2 q3 q4).trans (t1 w w2 q1 q2)
    · intro hk
      rw [thd hk, ghd.1]
    · cases k with
      | nil => exact th
      | cons f k =>
        obtain ⟨q0, q1, q2, q3, q4⟩ := ctxne f.x ((ctxIds_cons _).2 (Or.inl rfl))
        have g := fg f.x q0 q1 q2 q3 q4
        rcases f with ⟨side, fc', fs, fx, sib⟩
        cases side
        · exact ⟨by rw [th.1, g.1], by rw [th.2.1, g.2.2.2.1], by rw [th.2.2.1, g.2.2.2.2],
            th.2.2.2.1, by rw [th.2.2.2.2, g.2.2.1]⟩
        · exact ⟨by rw [th.1, g.1], by rw [th.2.1, g.2.2.2.1], by rw [th.2.2.1, g.2.2.2.2],
            by rw [th.2.2.2.1, g.2.1], th.2.2.2.2⟩
  · rw [tz, gy.2.2.2]
  · rw [thl, ghd.2.1]
  · rw [thr, ghd.2.2.1]
  · rw [thc, ghd.2.2.2]
  · intro w hw
    simp only [ids_plug, T.ids, List.mem_cons, List.mem_append, not_or] at hw
    have wk : w ∉ ctxIds k := by simp only [ctxIds, List.mem_append]; tauto
    refine (fh w (by tauto) (by tauto) (by tauto) ?_ wk hw.1).trans (t1 w (P.par_ne hw.1 wk) (by tauto) (by tauto))
    rw [ids_plug]; simp only [List.mem_append]; tauto

theorem replaceBySucc_spec {h : Heap} {hd : Id} {k k1 : Ctx} {c cy : Color} {s sy : Nat} {l ry : T} {z y : Id}
    (H : Shape h hd (plug k (.node c s l z (plug k1 (.node cy sy .nil y ry))))) (hl : l ≠ .nil) (hk1 : AllLeft k1) :
    let r := replaceBySucc h hd z y ry.root
    Shape r.1 hd (plug k (.node c s l y (plug k1 ry))) ∧ r.1.color z = cy ∧
      r.1.left hd = h.left hd ∧ r.1.right hd = h.right hd ∧ r.1.color hd = h.color hd ∧
      Frame h r.1 (hd :: (plug k (.node c s l z (plug k1 (.node cy sy .nil y ry)))).ids) ∧ r.2 = ctxPar y k1 := by
  have P := succPre H hl
  have HK : Shape h hd (plug (k1 ++ ⟨.right, c, s, z, l⟩ :: k) (.node cy sy .nil y ry)) := by
    rw [plug_append]; exact H
  obtain ⟨S2, c2, s2, sz, l2, r2, fr, e2⟩ := childUp_spec HK (ch := ry) (Or.inl ⟨rfl, rfl⟩)
  generalize hhc : childUp h hd y ry.root = hc at *
  have S2' : Shape hc hd (plug k (.node c s l z (plug k1 ry))) := by rw [plug_append] at S2; exact S2
  have hlm := root_mem P.l0
  obtain ⟨ly, lz, lhd, lk⟩ := P.lid _ hlm
  have hr0 : ry.root ≠ 0 → ry.root ≠ y ∧ ry.root ≠ z ∧ ry.root ≠ hd ∧ ry.root ∉ ctxIds k ∧ ry.root ∉ l.ids ∧ ry.root ∉ ctxIds k1 :=
    fun q => P.rid _ (root_mem q)
  have hrl : ry.root ≠ 0 → l.root ≠ ry.root := fun q e => (hr0 q).2.2.2.2.1 (e ▸ hlm)
  intro r
  cases k1 with
  | nil =>
    have hzr : h.right z = y := P.hz.2.2.2.2.1
    have eh : r = (succTail (((h.setSize y (h.size z)).setParent l.root y).setLeft y l.root) hd z y, y) := by
      simp only [r]
      unfold replaceBySucc succTail augCopy
      simp only [ss_left, P.hz.2.2.2.1, sp_left]
      rw [if_neg]
      simp [hzr]
    have ehc : hc = (if ry.root ≠ 0 then h.setParent ry.root z else h).setRight z ry.root := e2
    have fc : ∀ w, w ≠ z → (ry.root ≠ 0 → w ≠ ry.root) → SameAt h hc w := by
      intro w w1 w2; rw [ehc]; split
      · rename_i q; simp [SameAt, upd, w1, w2 q]
      · simp [SameAt, upd, w1]
    have hylp : y ≠ l.root := Ne.symm ly
    have hzy : z ≠ y := Ne.symm P.yz
    have hzl : z ≠ l.root := Ne.symm lz
    have hhy : hd ≠ y := Ne.symm P.hy.2.2.2.2.2.2
    have hhl : hd ≠ l.root := Ne.symm lhd
    have hhz : hd ≠ z := Ne.symm P.hz.2.2.2.2.2.2
    rw [eh]
    have close := succ_close (g := ((h.setSize y (h.size z)).setParent l.root y).setLeft y l.root) P S2' ?_ ?_ ?_ ?_ ?_ ?_ ?_
    · exact ⟨close.1, close.2.1, close.2.2.1, close.2.2.2.1, close.2.2.2.2.1, close.2.2.2.2.2, rfl⟩
    · intro w _ w1 w2 w3 w4
      refine (fc w w2 (fun _ => w4)).via ?_
      simp [SameAt, upd, w1, w3]
    · have gc := fc l.root lz hrl
      rw [gc.2.1, gc.2.2.1, gc.2.2.2.1, gc.2.2.2.2]
      simp [upd, ly]
    · intro q
      replace q : ry.root ≠ 0 := q
      have hm := hr0 q
      have e1 : h.parent ry.root = y := by
        cases ry with
        | nil => exact absurd rfl q
        | node c' s' l' x' r' => exact (Shape.read (k := ⟨.right, cy, sy, y, .nil⟩ :: ⟨.right, c, s, z, l⟩ :: k) (x := x') H).1
      have e3 : ry.root ≠ l.root := Ne.symm (hrl q)
      have e4 : hc.left ry.root = h.left ry.root ∧ hc.right ry.root = h.right ry.root := by
        rw [ehc, if_pos q]; simp [upd, hm.2.1]
      simp only [plug, e4.1, e4.2, c2, s2]
      simp [upd, hm.1, e3, e1]
    · refine ⟨?_, ?_, ?_, ?_⟩
      · simp [P.hz.2.2.1]
      · simp
      · simpa [plug] using P.hy.2.2.2.2.1
      · exact P.hy.2.1
    · simp [upd, hzl, P.hz.1, P.hz.2.1]
    · have gc := fc hd hhz (fun q => Ne.symm (hr0 q).2.2.1)
      rw [gc.1]
      simp [upd, hhl, hhy]
    · intro w w1 w2 w3 _ _ _
      have : w ≠ l.root := by rintro rfl; exact w3 hlm
      simp [SameAt, upd, w1, this]
  | cons f0 k1 =>
    have hf0 : f0.side = .left := hk1 f0 (by simp)
    rcases f0 with ⟨side, c0, s0, p0, sib0⟩
    simp only at hf0
    subst hf0
    have hp0 : p0 ∈ ctxIds (⟨.left, c0, s0, p0, sib0⟩ :: k1) := (ctxIds_cons _).2 (Or.inl rfl)
    have ehc : hc = (if ry.root ≠ 0 then h.setParent ry.root p0 else h).setLeft p0 ry.root := e2
    have hyp : h.parent y = p0 := P.hy.1
    have hroot : (plug (⟨.left, c0, s0, p0, sib0⟩ :: k1) (.node cy sy .nil y ry)).root = (plug (⟨.left, c0, s0, p0, sib0⟩ :: k1) ry).root :=
      plug_root_ne (by simp) _ _
    have hzr : h.right z = (plug (⟨.left, c0, s0, p0, sib0⟩ :: k1) ry).root := by rw [← hroot]; exact P.hz.2.2.2.2.1
    -- the root of the right subtree is on the path
    have hrr : (plug (⟨.left, c0, s0, p0, sib0⟩ :: k1) ry).root ∈ ctxIds (⟨.left, c0, s0, p0, sib0⟩ :: k1) := by
      have gen : ∀ (k : Ctx) (f : Fr) (t : T), (plug (f :: k) t).root ∈ ctxIds (f :: k) := by
        intro k
        induction k with
        | nil => intro f t; rw [plug, plug, fill_root, ctxIds_cons]; exact Or.inl rfl
        | cons g k ih => intro f t; rw [plug, ctxIds_cons]; exact Or.inr (Or.inr (ih g _))
      exact gen _ _ _
    generalize hrrd : (plug (⟨.left, c0, s0, p0, sib0⟩ :: k1) ry).root = rr at *
    obtain ⟨ry1, ry2, ry3, ry4, ry5⟩ := P.kid rr hrr
    obtain ⟨p1, p2, p3, p4, p5⟩ := P.kid p0 hp0
    have rl : rr ≠ l.root := fun e => ry5 (e ▸ hlm)
    have pl : p0 ≠ l.root := fun e => p5 (e ▸ hlm)
    have hr6 : ry.root ≠ 0 → rr ≠ ry.root := fun q e => (hr0 q).2.2.2.2.2 (e ▸ hrr)
    have hylp : y ≠ l.root := Ne.symm ly
    have hzy : z ≠ y := Ne.symm P.yz
    have hzl : z ≠ l.root := Ne.symm lz
    have hhy : hd ≠ y := Ne.symm P.hy.2.2.2.2.2.2
    have hhl : hd ≠ l.root := Ne.symm lhd
    have hhz : hd ≠ z := Ne.symm P.hz.2.2.2.2.2.2
    have hyr : y ≠ rr := Ne.symm ry1
    have hyp0 : y ≠ p0 := Ne.symm p1
    obtain ⟨g, eg⟩ : ∃ g : Heap, g =
      ((((if ry.root ≠ 0 then (((h.setSize y (h.size z)).setParent l.root y).setLeft y l.root).setParent ry.root p0
        else ((h.setSize y (h.size z)).setParent l.root y).setLeft y l.root).setLeft p0 ry.root).setRight y rr).setParent rr y) := ⟨_, rfl⟩
    have eh : r = (succTail g hd z y, p0) := by
      simp only [r]
      unfold replaceBySucc succTail augCopy
      simp only [ss_left, P.hz.2.2.2.1, sp_left]
      have e1 : (((h.setSize y (h.size z)).setParent l.root y).setLeft y l.root).right z = rr := by simp [hzr]
      have e3 : (((h.setSize y (h.size z)).setParent l.root y).setLeft y l.root).parent y = p0 := by simp [upd, hylp, hyp]
      rw [e1, if_pos hyr, e3]
      by_cases q : ry.root ≠ 0
      · have qy := Ne.symm (hr0 q).1
        simp only [if_pos q]
        rw [eg, if_pos q]
        simp [upd, qy, hylp, hyp, hzr, hzy]
      · simp only [if_neg q]
        rw [eg, if_neg q]
        simp [upd, hylp, hyp, hzr, hzy]
    have gpar : ∀ w, w ≠ l.root → w ≠ rr → g.parent w = hc.parent w := by
      intro w w1 w2
      rw [eg, ehc]
      by_cases q : ry.root ≠ 0
      · rw [if_pos q, if_pos q]; simp [upd, w1, w2]
      · rw [if_neg q, if_neg q]; simp [upd, w1, w2]
    have gleft : ∀ w, w ≠ y → g.left w = hc.left w := by
      intro w w1
      rw [eg, ehc]
      by_cases q : ry.root ≠ 0
      · rw [if_pos q, if_pos q]; simp [upd, w1]
      · rw [if_neg q, if_neg q]; simp [upd, w1]
    have gright : ∀ w, w ≠ y → g.right w = hc.right w := by
      intro w w1
      rw [eg, ehc]
      by_cases q : ry.root ≠ 0
      · rw [if_pos q, if_pos q]; simp [upd, w1]
      · rw [if_neg q, if_neg q]; simp [upd, w1]
    have gcol : g.color = h.color := by rw [eg]; by_cases q : ry.root ≠ 0 <;> simp [q]
    have gsize : ∀ w, w ≠ y → g.size w = h.size w := by
      intro w w1; rw [eg]; by_cases q : ry.root ≠ 0 <;> simp [q, upd, w1]
    have hcp : hc.parent z = h.parent z ∧ hc.parent hd = h.parent hd := by
      rw [ehc]
      by_cases q : ry.root ≠ 0
      · have := hr0 q
        rw [if_pos q]; simp [upd, Ne.symm this.2.1, Ne.symm this.2.2.1]
      · rw [if_neg q]; simp
    rw [eh]
    have close := succ_close (g := g) P S2' ?_ ?_ ?_ ?_ ?_ ?_ ?_
    · exact ⟨close.1, close.2.1, close.2.2.1, close.2.2.2.1, close.2.2.2.2.1, close.2.2.2.2.2, rfl⟩
    · intro w _ w1 w2 w3 w4
      exact ⟨gpar w w3 (by rw [← hrrd]; exact w4), gleft w w1, gright w w1, by rw [gcol, c2], by rw [gsize w w1, s2]⟩
    · refine ⟨?_, gleft _ ly, gright _ ly, by rw [gcol, c2], by rw [gsize _ ly, s2]⟩
      rw [eg]
      by_cases q : ry.root ≠ 0
      · rw [if_pos q]; simp [upd, Ne.symm rl, hrl q]
      · rw [if_neg q]; simp [upd, Ne.symm rl]
    · intro _
      rw [hrrd]
      refine ⟨by rw [eg]; simp, gleft _ ry1, gright _ ry1, by rw [gcol, c2], by rw [gsize _ ry1, s2]⟩
    · rw [hrrd]
      refine ⟨?_, ?_, ?_, ?_⟩
      · rw [eg]; by_cases q : ry.root ≠ 0 <;> simp [q, P.hz.2.2.1]
      · rw [eg]; by_cases q : ry.root ≠ 0 <;> simp [q, upd, hyp0]
      · rw [eg]; simp
      · rw [gcol]; exact P.hy.2.1
    · rw [gpar z hzl (Ne.symm ry2), hcp.1, gcol]; exact ⟨P.hz.1, P.hz.2.1⟩
    · rw [gpar hd hhl (Ne.symm ry3), gleft hd hhy, gright hd hhy, gcol, l2, r2]; exact ⟨rfl, rfl, rfl, rfl⟩
    · intro w w1 w2 w3 w4 w5 w6
      have q1 : w ≠ l.root := by rintro rfl; exact w3 hlm
      have qin : ∀ v ∈ ctxIds (⟨.left, c0, s0, p0, sib0⟩ :: k1), w ≠ v := by
        rintro v hv rfl
        apply w4; rw [ids_plug]
        simp only [ctxIds, List.mem_append] at hv ⊢; tauto
      have q2 := qin rr hrr
      have q3 := qin p0 hp0
      have q4 : ry.root ≠ 0 → w ≠ ry.root := by
        rintro q rfl; apply w4; rw [ids_plug]; have := root_mem q; simp [this]
      rw [eg]
      by_cases q : ry.root ≠ 0
      · rw [if_pos q]; simp [SameAt, upd, w1, q1, q2, q3, q4 q]
      · rw [if_neg q]; simp [SameAt, upd, w1, q1, q2, q3]

end MI.Ord
