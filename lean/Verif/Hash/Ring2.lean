import Verif.Hash.Ring
set_option linter.unnecessarySeqFocus false
set_option linter.unusedTactic false
set_option linter.unreachableTactic false
set_option linter.unusedSimpArgs false
/-! Effect of the node algorithms of hashed indices on whole indices: groups. -/
namespace MI.Hash
open MI
attribute [local simp] St.asgP St.asgN Heap.setPrior Heap.setNext

theorem getLastD_append_ne {α : Type _} (a : α) : ∀ (u v : List α), v ≠ [] → (u ++ v).getLastD a = v.getLastD a := by
  intro u v h
  obtain ⟨w, z, rfl⟩ := (List.eq_nil_or_concat' v).resolve_left h
  rw [← List.append_assoc, List.getLastD_concat, List.getLastD_concat]

/-- Result of the first half of `link(x,first,last)`. -/
def leftRes (h : Heap) (p x f : Id) : Option Id → Heap
  | none => (((h.setPrior x p).setNext x f).setNext p x)
  | some b => (((h.setPrior x p).setNext x f).setPrior b x)

/-- The first half of `link(x,first,last)`. -/
theorem linkLeft_eq {h : Heap} {p x : Id} {ob : Option Id} {f : Id} (j : Join h p ob f) (fp : f ≠ p) (xf : x ≠ f) (xp : x ≠ p)
    (xb : ∀ b, ob = some b → x ≠ b) :
    N.linkLeft h x f = leftRes h p x f ob := by
  obtain ⟨j1, j2, j3⟩ := j
  cases ob with
  | none =>
    simp only [Option.getD_none] at j2
    have : N.isFirstOfBucket ((h.setPrior x p).setNext x f) f = false := by
      simp [N.isFirstOfBucket, upd, j1, j2, Ne.symm xf, Ne.symm xp, Ne.symm fp]
    simp only [N.linkLeft, j1, this]
    simp [leftRes]
  | some b =>
    simp only [Option.getD_some] at j2
    have j3 := j3 b rfl
    have xb := xb b rfl
    have : N.isFirstOfBucket ((h.setPrior x p).setNext x f) f = true := by
      simp [N.isFirstOfBucket, upd, j1, j2, j3, Ne.symm xf, Ne.symm xp, Ne.symm fp, Ne.symm xb]
    simp only [N.linkLeft, j1, this]
    simp [leftRes, j2, upd, Ne.symm xp]

/-- `link(x,first,last)` puts the node at the beginning of the group. -/
theorem N.linkGroup_cut {h : Heap} {p x f' : Id} {ob ob' : Option Id} {g : Grp} (lc : Loc h p ob g ob' f')
    (xp : x ≠ p) (xg : x ∉ g.toList) (xf : x ≠ f') (xb : ∀ b, ob = some b → x ≠ b) (xb' : ∀ b, ob' = some b → x ≠ b) :
    Agree h (N.linkGroup h x g.first g.last) (x :: (g.toList ++ ob.toList)) (x :: p :: g.toList) ∧
      Join (N.linkGroup h x g.first g.last) p ob x ∧ Inner (N.linkGroup h x g.first g.last) (g.cons x) ∧
      Join (N.linkGroup h x g.first g.last) g.last ob' f' := by
  have fp : g.first ≠ p := fun k => lc.pg (k ▸ g.first_mem)
  have xf1 : x ≠ g.first := fun k => xg (k ▸ g.first_mem)
  have e := linkLeft_eq lc.join1 fp xf1 xp xb
  unfold N.linkGroup
  rw [e]
  obtain ⟨⟨j1, j2, j3⟩, inn, ⟨k1, k2, k3⟩, nd, nz, f0, pg, fg, ob1, ob2, ob3, -, -, -⟩ := lc
  obtain ⟨h1, eh1⟩ : ∃ h1, h1 = leftRes h p x g.first ob := ⟨_, rfl⟩
  rw [← eh1]
  have ag1 : Agree h h1 (x :: ob.toList) [x, p] := by
    rw [eh1]
    cases ob with
    | none => exact ((((Agree.refl h _ _).setPrior _ _ (by simp)).setNext _ _ (by simp)).setNext _ _ (by simp))
    | some b => exact ((((Agree.refl h _ _).setPrior _ _ (by simp)).setNext _ _ (by simp)).setPrior _ _ (by simp))
  have gp1 : ∀ a ∈ g.toList, h1.prior a = h.prior a := by
    intro a ha
    apply ag1.1
    have a1 : a ≠ x := fun k => xg (k ▸ ha)
    cases ob with
    | none => simp [a1]
    | some b =>
      have : a ≠ b := fun k => (ob1 b rfl).1 (k ▸ ha)
      simp [a1, this]
  have gn1 : ∀ a ∈ g.toList, h1.next a = h.next a := by
    intro a ha
    apply ag1.2
    have a1 : a ≠ x := fun k => xg (k ▸ ha)
    have a2 : a ≠ p := fun k => pg (k ▸ ha)
    simp [a1, a2]
  have hx1 : h1.prior x = p ∧ h1.next x = g.first ∧ h1.next p = ob.getD x ∧ ∀ b, ob = some b → h1.prior b = x := by
    rw [eh1]
    cases ob with
    | none => simp [leftRes, upd, xp]
    | some b =>
      have := xb b rfl
      simp only [Option.getD_some] at j2
      simp [leftRes, upd, this, Ne.symm xp, j2]
  clear eh1
  obtain ⟨x1, x2, x3, x4⟩ := hx1
  have hf' : h1.prior f' = g.last := by
    rw [ag1.1 f' ?_, k1]
    cases ob with
    | none => simp [Ne.symm xf]
    | some b => simp [Ne.symm xf, Ne.symm (ob1 b rfl).2.2.1]
  have hob' : ∀ b, ob' = some b → h1.prior b = f' := by
    intro b hb
    rw [ag1.1 b ?_, k3 b hb]
    have a1 := Ne.symm (xb' b hb)
    cases ob with
    | none => simp [a1]
    | some b1 => simp [a1, Ne.symm (ob3 b1 rfl b hb)]
  cases g with
  | one y =>
    simp only [Grp.first_one, Grp.last_one, Grp.toList_one, List.mem_singleton] at *
    have e : N.linkRight h1 x y y = h1.setPrior y x := by simp [N.linkRight]
    rw [e]
    refine ⟨?_, ⟨?_, ?_, ?_⟩, ?_, ?_, ?_, ?_⟩
    · exact (ag1.mono (by intro a; simp; tauto) (by intro a; simp; tauto)).setPrior _ _ (by simp)
    · simp [upd, xg, x1]
    · simp [x3]
    · intro b hb; simp [upd, (ob1 b hb).1, x4 b hb]
    · simp [Grp.cons, Inner, Line, x2]
    · simp [upd, fg, hf']
    · simp [gn1, k2]
    · intro b hb; simp [upd, (ob2 b hb).1, hob' b hb]
  | many f mid l =>
    simp only [Grp.first_many, Grp.last_many] at *
    have fl : f ≠ l := by
      intro k
      subst k
      simp [List.nodup_cons] at nd
    have xl : x ≠ l := by rintro rfl; simp at xg
    have fm : f ∈ (Grp.many f mid l).toList := by simp
    have lm : l ∈ (Grp.many f mid l).toList := by simp
    obtain ⟨i1, i2, i3, i4⟩ := inn
    have bo : ∀ b, ob = some b → b ≠ f ∧ b ≠ l ∧ b ∉ mid := by
      intro b hb
      have := (ob1 b hb).1
      simp only [Grp.toList_many, List.mem_cons, List.mem_append, List.not_mem_nil, or_false, not_or] at this
      exact ⟨this.1, this.2.2, this.2.1⟩
    have bo' : ∀ b, ob' = some b → b ≠ f ∧ b ≠ l ∧ b ∉ mid := by
      intro b hb
      have := (ob2 b hb).1
      simp only [Grp.toList_many, List.mem_cons, List.mem_append, List.not_mem_nil, or_false, not_or] at this
      exact ⟨this.1, this.2.2, this.2.1⟩
    simp only [Grp.toList_many, List.mem_cons, List.mem_append, List.not_mem_nil, or_false, not_or] at xg fg pg
    cases mid with
    | nil =>
      simp only [List.headD_nil, List.getLastD_nil] at i1 i2
      have e : N.linkRight h1 x f l = (h1.setPrior f l).setNext f x := by
        simp [N.linkRight, fl, gn1 f fm, i1]
      rw [e]
      refine ⟨?_, ⟨?_, ?_, ?_⟩, ?_, ?_, ?_, ?_⟩
      · exact ((ag1.mono (by intro a; simp; tauto) (by intro a; simp; tauto)).setPrior _ _ (by simp)).setNext _ _ (by simp)
      · simp [upd, xf1, x1]
      · simp [upd, Ne.symm fp, x3]
      · intro b hb; simp [upd, (bo b hb).1, x4 b hb]
      · simp [Grp.cons, Inner, Line, upd, xf1, Ne.symm fl, x2, gp1 l lm, i2]
      · simp [upd, fg.1, hf']
      · simp [upd, Ne.symm fl, gn1 l lm, k2]
      · intro b hb; simp [upd, (bo' b hb).1, hob' b hb]
    | cons s r =>
      simp only [List.headD_cons] at i1
      obtain ⟨i4, i5⟩ := i4 (by simp)
      simp only [List.headD_cons] at i4
      obtain ⟨w, hw⟩ : ∃ w, (s :: r).getLastD f = w := ⟨_, rfl⟩
      have wm : w ∈ s :: r := hw ▸ getLastD_mem f (s :: r) (by simp)
      have wm' : w ∈ (Grp.many f (s :: r) l).toList := by
        simp only [Grp.toList_many, List.mem_cons, List.mem_append]; right; left; simpa using wm
      rw [hw] at i2 i5
      simp only [Grp.toList_many] at nd
      rw [List.nodup_cons] at nd
      obtain ⟨nf, nd⟩ := nd
      have nl := (List.nodup_append.1 nd).2.2
      have sm : s ∈ (Grp.many f (s :: r) l).toList := by simp
      have sl : s ≠ l := nl s (by simp) l (by simp)
      have sf : s ≠ f := by rintro rfl; simp at nf
      have wl : w ≠ l := nl w wm l (by simp)
      have wf : w ≠ f := by rintro rfl; exact nf (by simp only [List.mem_append]; exact Or.inl wm)
      have xs : x ≠ s := by rintro rfl; simp at xg
      have xw : x ≠ w := by rintro rfl; exact xg.2.1 wm
      have pw : p ≠ w := by rintro rfl; exact pg.2.1 wm
      have fs' : f' ≠ s := by rintro rfl; simp at fg
      have fw' : f' ≠ w := by rintro rfl; exact fg.2.1 wm
      have e : N.linkRight h1 x f l = (((h1.setPrior s f).setPrior f l).setNext w x) := by
        simp [N.linkRight, fl, gn1 f fm, i1, sl, upd, gp1 l lm, i2, Ne.symm fl, Ne.symm sl]
      rw [e]
      have ag : Agree h1 (((h1.setPrior s f).setPrior f l).setNext w x) [s, f] [w] :=
        (((Agree.refl _ _ _).setPrior _ _ (by simp)).setPrior _ _ (by simp)).setNext _ _ (by simp)
      refine ⟨?_, ⟨?_, ?_, ?_⟩, ?_, ?_, ?_, ?_⟩
      · refine (((ag1.mono (by intro a; simp; tauto) (by intro a; simp; tauto)).setPrior _ _ (by simp)).setPrior _ _ (by simp)).setNext _ _ ?_
        exact List.mem_cons_of_mem _ (List.mem_cons_of_mem _ wm')
      · simp [upd, xf1, xs, x1]
      · simp [upd, pw, x3]
      · intro b hb
        have := bo b hb
        have bs : b ≠ s := by rintro rfl; simp at this
        simp [upd, this, bs, x4 b hb]
      · refine ⟨?_, ?_, ⟨?_, ?_⟩, fun _ => ⟨?_, ?_⟩⟩
        · simp [upd, xw, x2]
        · rw [List.getLastD_cons, hw]
          simp [upd, Ne.symm fl, Ne.symm sl, gp1 l lm, i2]
        · intro b hb
          simp only [List.head?_cons, Option.mem_def, Option.some.injEq] at hb
          subst hb
          simp [upd, Ne.symm wf, sf, gn1 f fm, i1]
        · refine i3.congr (fun a ha => ?_) (fun a ha => ?_)
          · have am : a ∈ (Grp.many f (s :: r) l).toList := by
              simp only [List.tail_cons] at ha
              simp [ha]
            rw [ag.1 a ?_, gp1 a am]
            simp only [List.tail_cons] at ha
            have a1 : a ≠ s := by
              rintro rfl
              have := (List.nodup_append.1 nd).1
              rw [List.nodup_cons] at this
              exact this.1 ha
            have a2 : a ≠ f := by
              rintro rfl
              exact nf (by simp [ha])
            simp [a1, a2]
          · have am := List.dropLast_subset _ ha
            have am' : a ∈ (Grp.many f (s :: r) l).toList := by
              simp only [Grp.toList_many, List.mem_cons, List.mem_append]; right; left; simpa using am
            rw [ag.2 a ?_, gn1 a am']
            simp only [List.mem_singleton]
            rintro rfl
            obtain ⟨u, z, hu⟩ := (List.eq_nil_or_concat' (s :: r)).resolve_left (by simp)
            have hz : z = a := by rw [hu, List.getLastD_concat] at hw; exact hw
            have := (List.nodup_append.1 nd).1
            rw [hu, hz] at this ha
            exact notin_dropLast this ha
        · simp [upd]
        · rw [List.getLastD_cons, hw]; simp
      · simp [upd, fg.1, fs', hf']
      · simp [upd, Ne.symm wl, gn1 l lm, k2]
      · intro b hb
        have := bo' b hb
        have bs : b ≠ s := by rintro rfl; simp at this
        simp [upd, this, bs, hob' b hb]

/-- Effect of `link(x,first,last)` on an index. -/
theorem ring_linkGroup {h : Heap} {hd eb x : Id} {fs pre : List Seg} {ob ob' : Option Id} {g g' : Grp} {post : List Seg}
    (sp : Sep hd eb fs) (c : Ring h hd eb fs) (e : close hd eb fs = pre ++ (ob, g) :: (ob', g') :: post)
    (fr : x ∉ nodesS (close hd eb fs) ++ bucks (close hd eb fs)) :
    Chain (N.linkGroup h x g.first g.last) hd (pre ++ (ob, g.cons x) :: (ob', g') :: post) ∧
      Agree h (N.linkGroup h x g.first g.last) (x :: (g.toList ++ ob.toList)) (x :: lastOf hd pre :: g.toList) := by
  have lc := ring_loc sp c e
  have fr' := fr
  rw [e] at fr'
  obtain ⟨w, hw⟩ := close_last (pre := pre ++ [(ob, g)]) (ob := ob') (g := g') (post := post) (by rw [e]; simp)
  have hdin : hd ∈ g'.toList ++ nodesS post := by rw [hw]; simp
  simp only [nodesS_append, bucks_append, nodesS_cons, bucks_cons, List.mem_append, not_or] at fr'
  obtain ⟨⟨f1, f2, f3, f4⟩, f5, f6, f7, f8⟩ := fr'
  have r := N.linkGroup_cut lc (x := x)
    (by rintro rfl
        rcases List.mem_cons.1 (lastOf_mem hd pre) with k | k
        · rw [k] at f3 f4
          rcases List.mem_append.1 hdin with k | k
          · exact f3 k
          · exact f4 k
        · exact f1 k) f2
    (by rintro rfl; exact f3 g'.first_mem)
    (by rintro b hb rfl; subst hb; simp at f6)
    (by rintro b hb rfl; subst hb; simp at f7)
  obtain ⟨ag, r1, r2, r3⟩ := r
  refine ⟨?_, ag⟩
  have e2 : close hd eb fs = pre ++ [(ob, g)] ++ (ob', g') :: post := by rw [e]; simp
  have := ring_splice (M' := [(ob, g.cons x)]) (ob' := ob') sp c e2 ag (fr := [x]) (by simpa using fr)
    (by intro a ha
        simp only [nodesS_cons, nodesS_nil, bucks_cons, bucks_nil, List.append_nil, List.mem_cons, List.mem_append] at ha ⊢
        simp only [List.not_mem_nil, or_false]
        tauto)
    (by intro a ha
        simp only [nodesS_cons, nodesS_nil, bucks_cons, bucks_nil, List.append_nil, List.mem_cons, List.mem_append] at ha ⊢
        simp only [List.not_mem_nil, or_false]
        tauto)
    ⟨by simpa using r1, r2, trivial⟩ (by simpa using r3)
  simpa using this

/-- A group of two has the same links as two groups of one. -/
theorem chain_pair {h : Heap} {p : Id} {ob : Option Id} {a b : Id} {post : List Seg} :
    Chain h p ((ob, .many a [] b) :: post) ↔ Chain h p ((ob, .one a) :: (none, .one b) :: post) := by
  simp [Chain, Inner, Join, Line]
  tauto

/-- The groups as the node algorithms see them: groups of two are taken apart. -/
def Grp.parts : Grp → List Grp
  | .many a [] b => [.one a, .one b]
  | g => [g]

theorem Grp.parts_toList (g : Grp) : g.parts.flatMap Grp.toList = g.toList := by
  cases g with
  | one _ => rfl
  | many f mid l => cases mid <;> simp [Grp.parts]

/-- A group which is not of two elements. -/
def Grp.Solid : Grp → Prop
  | .many _ [] _ => False
  | _ => True

theorem Grp.parts_solid (g : Grp) : ∀ q ∈ g.parts, q.Solid := by
  cases g with
  | one _ => simp [Grp.parts, Grp.Solid]
  | many f mid l => cases mid <;> simp [Grp.parts, Grp.Solid]

/-- Segments with groups of two taken apart. -/
def segParts (s : Seg) : List Seg :=
  match s with
  | (ob, .many a [] b) => [(ob, .one a), (none, .one b)]
  | s => [s]

def partsS (fs : List Seg) : List Seg := fs.flatMap segParts

theorem chain_parts {h : Heap} : ∀ {fs : List Seg} {p : Id}, Chain h p (partsS fs) ↔ Chain h p fs
  | [], _ => Iff.rfl
  | (ob, .one a) :: r, p => by
    simp only [partsS, List.flatMap_cons, segParts, List.singleton_append, Chain]
    exact and_congr_right fun _ => and_congr_right fun _ => chain_parts
  | (ob, .many a (s :: m) b) :: r, p => by
    simp only [partsS, List.flatMap_cons, segParts, List.singleton_append, Chain]
    exact and_congr_right fun _ => and_congr_right fun _ => chain_parts
  | (ob, .many a [] b) :: r, p => by
    rw [chain_pair]
    show Chain h p ((ob, .one a) :: (none, .one b) :: partsS r) ↔ _
    simp only [Chain]
    exact and_congr_right fun _ => and_congr_right fun _ => and_congr_right fun _ => and_congr_right fun _ => chain_parts

theorem nodes_parts (fs : List Seg) : nodesS (partsS fs) = nodesS fs := by
  induction fs with
  | nil => rfl
  | cons s r ih =>
    obtain ⟨ob, g⟩ := s
    simp only [partsS, List.flatMap_cons, nodesS_append, nodesS_cons] at ih ⊢
    rw [ih]
    cases g with
    | one _ => rfl
    | many f mid l => cases mid <;> simp [segParts]

theorem bucks_parts (fs : List Seg) : bucks (partsS fs) = bucks fs := by
  induction fs with
  | nil => rfl
  | cons s r ih =>
    obtain ⟨ob, g⟩ := s
    simp only [partsS, List.flatMap_cons, bucks_append, bucks_cons] at ih ⊢
    rw [ih]
    cases g with
    | one _ => simp [segParts, bucks_cons]
    | many f mid l => cases mid <;> simp [segParts, bucks_cons]

theorem partsS_append (a b : List Seg) : partsS (a ++ b) = partsS a ++ partsS b := by simp [partsS]

theorem close_parts (hd eb : Id) (fs : List Seg) : close hd eb (partsS fs) = partsS (close hd eb fs) := by
  simp [close, partsS, segParts]

theorem ring_parts {h : Heap} {hd eb : Id} {fs : List Seg} : Ring h hd eb (partsS fs) ↔ Ring h hd eb fs := by
  unfold Ring
  rw [close_parts, chain_parts]

theorem sep_parts {hd eb : Id} {fs : List Seg} : Sep hd eb (partsS fs) ↔ Sep hd eb fs := by
  unfold Sep
  rw [close_parts, nodes_parts, bucks_parts]

/-- `unlink_last_group` takes the last group (half of it, for groups of two) out. -/
theorem ring_unlinkLastGroup {h : Heap} {hd eb : Id} {fs : List Seg} {ob : Option Id} {g : Grp}
    (sp : Sep hd eb (fs ++ [(ob, g)])) (c : Ring h hd eb (fs ++ [(ob, g)])) (so : g.Solid) :
    h.prior hd = g.last ∧ (N.unlinkLastGroup h hd).2 = (g.first, ob.isSome) ∧
      Ring (N.unlinkLastGroup h hd).1 hd eb fs ∧ Inner (N.unlinkLastGroup h hd).1 g ∧
      Agree h (N.unlinkLastGroup h hd).1 (hd :: ob.toList) [lastOf hd fs] ∧
      ∀ b, ob = some b → (N.unlinkLastGroup h hd).1.prior b = 0 := by
  have e0 : close hd eb (fs ++ [(ob, g)]) = fs ++ (ob, g) :: (some eb, .one hd) :: [] := by simp [close]
  have lc := ring_loc sp c e0
  have e2 : close hd eb (fs ++ [(ob, g)]) = fs ++ [(ob, g)] ++ (some eb, .one hd) :: [] := by simp [close]
  have gl := ring_end sp c
  rw [lastOf_append, lastOf_one] at gl
  obtain ⟨e1, -, -, e4, e5, e6, -, -⟩ := gl
  obtain ⟨q, hq⟩ : ∃ q, lastOf hd fs = q := ⟨_, rfl⟩
  rw [hq] at lc ⊢
  obtain ⟨⟨j1, j2, j3⟩, inn, ⟨k1, k2, k3⟩, nd, nz, f0, pg, fg, ob1, ob2, ob3, -, -, -⟩ := lc
  simp only [Grp.first_one, Option.getD_some] at k1 k2 k3 f0 fg ob1 ob2 ob3
  have k3 := k3 eb rfl
  have ob2 := ob2 eb rfl
  have qb : ∀ b, ob = some b → b ≠ q := fun b hb => (ob1 b hb).2.1
  -- the resulting heap
  have res : ∃ h', h' = (match ob with
      | none => (h.setNext q eb).setPrior hd q
      | some b => ((h.setPrior b 0).setNext q eb).setPrior hd q) ∧
      N.unlinkLastGroup h hd = (h', g.first, ob.isSome) := by
    refine ⟨_, rfl, ?_⟩
    have fq : g.first ≠ q := fun k => pg (k ▸ g.first_mem)
    have lq : g.last ≠ q := fun k => pg (k ▸ g.last_mem)
    cases g with
    | one y =>
      simp only [Grp.first_one, Grp.last_one] at j1 j2 j3 k1 k2 e1 fq lq ⊢
      cases ob with
      | none =>
        simp only [Option.getD_none] at j2
        simp [N.unlinkLastGroup, e1, j1, j2, upd, k2, fq]
      | some b =>
        simp only [Option.getD_some] at j2
        have j3 := j3 b rfl
        have o := ob1 b rfl
        simp only [Grp.toList_one, List.mem_singleton] at o
        simp [N.unlinkLastGroup, e1, j1, j2, j3, upd, k2, fq, o.1, Ne.symm o.1]
    | many f mid l =>
      cases mid with
      | nil => exact absurd so id
      | cons s r =>
        obtain ⟨i1, i2, i3, i4⟩ := inn
        obtain ⟨i4, i5⟩ := i4 (by simp)
        simp only [List.headD_cons] at i1 i4
        obtain ⟨w, hw⟩ : ∃ w, (s :: r).getLastD f = w := ⟨_, rfl⟩
        have wm : w ∈ s :: r := hw ▸ getLastD_mem f (s :: r) (by simp)
        rw [hw] at i2 i5
        simp only [Grp.first_many, Grp.last_many] at j1 j2 j3 k1 k2 e1 fq lq ⊢
        simp only [Grp.toList_many] at nd pg fg
        have fl : f ≠ l := by rintro rfl; simp at nd
        have lf' : q ≠ f := Ne.symm fq
        cases ob with
        | none =>
          simp only [Option.getD_none] at j2
          have c2 : h.prior f ≠ l := by rw [j1]; exact Ne.symm lq
          simp [N.unlinkLastGroup, e1, i2, i5, fl, j1, Ne.symm lq, j2, upd, k2, fq, lq]
        | some b =>
          simp only [Option.getD_some] at j2
          have j3 := j3 b rfl
          have o := ob1 b rfl
          simp only [Grp.toList_many, List.mem_cons, List.mem_append, not_or] at o
          have bf := o.1.1
          have bf' := Ne.symm bf
          simp [N.unlinkLastGroup, e1, i2, i5, fl, j1, Ne.symm lq, j2, j3, upd, k2, fq, lq, bf, bf', o.1]
  obtain ⟨h', eh, er⟩ := res
  rw [er]
  have ag : Agree h h' (hd :: ob.toList) [q] := by
    rw [eh]
    cases ob with
    | none => exact ((Agree.refl h _ _).setNext _ _ (by simp)).setPrior _ _ (by simp)
    | some b => exact (((Agree.refl h _ _).setPrior _ _ (by simp)).setNext _ _ (by simp)).setPrior _ _ (by simp)
  refine ⟨e1, rfl, ?_, ?_, ag, ?_⟩
  · have := ring_splice (M' := []) (ob' := some eb) sp c e2 ag (fr := []) (by simp)
      (by intro a ha
          simp only [nodesS_cons, nodesS_nil, bucks_cons, bucks_nil, List.append_nil, List.mem_cons, List.mem_append,
            Grp.first_one] at ha ⊢
          tauto)
      (by rw [hq]; intro a ha; simp at ha; simp [ha]) trivial
      (by rw [hq]
          show Join h' q (some eb) hd
          rw [eh]
          have o2 := ob2.2.2.1
          cases ob with
          | none => refine ⟨by simp, by simp, ?_⟩; rintro b' ⟨⟩; simp [upd, o2, k3]
          | some b =>
            refine ⟨by simp, by simp, ?_⟩; rintro b' ⟨⟩; simp [upd, o2, Ne.symm (ob3 b rfl eb rfl), k3])
    simpa [Ring, close] using this
  · refine inn.congr (fun a ha => ag.1 a ?_) (fun a ha => ag.2 a ?_)
    · have := List.mem_of_mem_tail ha
      have a1 : a ≠ hd := fun k => fg (k ▸ this)
      cases ob with
      | none => simp [a1]
      | some b =>
        have : a ≠ b := fun k => (ob1 b rfl).1 (k ▸ this)
        simp [a1, this]
    · have := List.dropLast_subset _ ha
      have : a ≠ q := fun k => pg (k ▸ this)
      simp [this]
  · rintro b rfl
    rw [eh]
    have := (ob1 b rfl).2.2.1
    simp [upd, this]

/-- `unlink_last` of unique indices does the same as `unlink_last_group`. -/
theorem unlinkLast_eq {h : Heap} {hd eb x : Id} {fs : List Seg} {ob : Option Id}
    (sp : Sep hd eb (fs ++ [(ob, .one x)])) (c : Ring h hd eb (fs ++ [(ob, .one x)])) :
    U.unlinkLast h hd = ((N.unlinkLastGroup h hd).1, (N.unlinkLastGroup h hd).2.2) := by
  have e0 : close hd eb (fs ++ [(ob, .one x)]) = fs ++ (ob, .one x) :: (some eb, .one hd) :: [] := by simp [close]
  have lc := ring_loc sp c e0
  have gl := ring_end sp c
  rw [lastOf_append, lastOf_one] at gl
  have e1 := gl.1
  have j := lc.join1
  obtain ⟨j1, j2, j3⟩ := j
  simp only [Grp.first_one, Grp.last_one] at j1 j2 j3 e1
  cases ob with
  | none =>
    simp only [Option.getD_none] at j2
    simp [U.unlinkLast, N.unlinkLastGroup, e1, j1, j2]
  | some b =>
    simp only [Option.getD_some] at j2
    have j3 := j3 b rfl
    have o := (lc.obg b rfl).1
    simp only [Grp.toList_one, List.mem_singleton] at o
    simp [U.unlinkLast, N.unlinkLastGroup, e1, j1, j2, j3, o]

/-- `unlink_range` takes a whole group out. -/
theorem N.unlinkRange_cut {h : Heap} {p f' : Id} {ob ob' : Option Id} {g : Grp} (lc : Loc h p ob g ob' f') (so : g.Solid) :
    Agree h (N.unlinkRange h g.first g.last) (f' :: ob.toList) [p] ∧
      Join (N.unlinkRange h g.first g.last) p (mergeB ob ob') f' ∧
      ∀ b, ob = some b → ob'.isSome → (N.unlinkRange h g.first g.last).prior b = 0 := by
  obtain ⟨⟨j1, j2, j3⟩, inn, ⟨k1, k2, k3⟩, nd, nz, f0, pg, fg, ob1, ob2, ob3, -, -, -⟩ := lc
  have fp : g.first ≠ p := fun k => pg (k ▸ g.first_mem)
  have fl' : f' ≠ g.last := fun k => fg (k ▸ g.last_mem)
  have fp' : g.last ≠ p := fun k => pg (k ▸ g.last_mem)
  cases ob with
  | none =>
    simp only [Option.getD_none] at j2
    have c1 : N.isFirstOfBucket h g.first = false := by
      simp [N.isFirstOfBucket, j1, j2, Ne.symm fp]
    cases ob' with
    | none =>
      simp only [Option.getD_none] at k2
      have c2 : N.isLastOfBucket h g.last = false := by
        have : h.prior g.last ≠ g.last := by
          cases g with
          | one y => simp only [Grp.first_one, Grp.last_one] at *; rw [j1]; exact Ne.symm fp
          | many f mid l =>
            simp only [Grp.last_many]
            rw [inn.2.1]
            simp only [Grp.toList_many] at nd
            cases mid with
            | nil => simp at nd ⊢; exact nd
            | cons s r =>
              have := getLastD_mem f (s :: r) (by simp)
              intro k
              rw [k] at this
              simp only [List.nodup_cons, List.nodup_append] at nd
              exact nd.2.2.2 l this l (by simp) rfl
        simp [N.isLastOfBucket, k2, k1, this]
      have e : N.unlinkRange h g.first g.last = (h.setNext p f').setPrior f' p := by
        simp [N.unlinkRange, c1, c2, j1, k2, upd, fp']
      rw [e]
      exact ⟨((Agree.refl h _ _).setNext _ _ (by simp)).setPrior _ _ (by simp),
        ⟨by simp, by simp [mergeB], by intro b hb; simp [mergeB] at hb⟩, by rintro b ⟨⟩⟩
    | some b' =>
      simp only [Option.getD_some] at k2
      have k3 := k3 b' rfl
      have o2 := ob2 b' rfl
      have c2 : N.isLastOfBucket h g.last = true := by
        simp [N.isLastOfBucket, k2, k3, k1]
      have e : N.unlinkRange h g.first g.last = (h.setNext p b').setPrior f' p := by
        simp [N.unlinkRange, c1, c2, j1, k2, upd, fp', k3]
      rw [e]
      refine ⟨((Agree.refl h _ _).setNext _ _ (by simp)).setPrior _ _ (by simp),
        ⟨by simp, by simp [mergeB], ?_⟩, by rintro b ⟨⟩⟩
      intro b hb
      simp [mergeB] at hb
      subst hb
      simp [upd, o2, k3]
  | some b =>
    simp only [Option.getD_some] at j2
    have j3 := j3 b rfl
    have o := ob1 b rfl
    have c1 : N.isFirstOfBucket h g.first = true := by
      simp [N.isFirstOfBucket, j1, j2, j3]
    cases ob' with
    | none =>
      simp only [Option.getD_none] at k2
      have c2 : N.isLastOfBucket h g.last = false := by
        have : h.prior g.last ≠ g.last := by
          cases g with
          | one y => simp only [Grp.first_one, Grp.last_one] at *; rw [j1]; exact Ne.symm fp
          | many f mid l =>
            simp only [Grp.last_many]
            rw [inn.2.1]
            simp only [Grp.toList_many] at nd
            cases mid with
            | nil => simp at nd ⊢; exact nd
            | cons s r =>
              have := getLastD_mem f (s :: r) (by simp)
              intro k
              rw [k] at this
              simp only [List.nodup_cons, List.nodup_append] at nd
              exact nd.2.2.2 l this l (by simp) rfl
        simp [N.isLastOfBucket, k2, k1, this]
      have fb : g.first ≠ b := fun k => o.1 (k ▸ g.first_mem)
      have e : N.unlinkRange h g.first g.last = (h.setPrior b f').setPrior f' p := by
        simp [N.unlinkRange, c1, c2, j1, j2, k2, upd, fb]
      rw [e]
      refine ⟨((Agree.refl h _ _).setPrior _ _ (by simp)).setPrior _ _ (by simp),
        ⟨by simp, by simp [mergeB, j2], ?_⟩, ?_⟩
      · intro b1 hb
        simp [mergeB] at hb
        subst hb
        simp [upd, o]
      · rintro b1 - hh; simp at hh
    | some b' =>
      simp only [Option.getD_some] at k2
      have k3 := k3 b' rfl
      have o2 := ob2 b' rfl
      have bb := ob3 b rfl b' rfl
      have c2 : N.isLastOfBucket h g.last = true := by
        simp [N.isLastOfBucket, k2, k3, k1]
      have fb : g.first ≠ b := fun k => o.1 (k ▸ g.first_mem)
      have e : N.unlinkRange h g.first g.last = ((h.setPrior b 0).setNext p b').setPrior f' p := by
        simp [N.unlinkRange, c1, c2, j1, j2, k2, upd, fp', k3, fb, Ne.symm bb]
      rw [e]
      refine ⟨(((Agree.refl h _ _).setPrior _ _ (by simp)).setNext _ _ (by simp)).setPrior _ _ (by simp),
        ⟨by simp, by simp [mergeB], ?_⟩, ?_⟩
      · intro b1 hb
        simp [mergeB] at hb
        subst hb
        simp [upd, o2, Ne.symm bb, k3]
      · rintro b1 ⟨⟩ -
        simp [upd, o]

/-- Effect of `unlink_range` on an index. -/
theorem ring_unlinkRange {h : Heap} {hd eb : Id} {fs pre : List Seg} {ob ob' : Option Id} {g g' : Grp} {post : List Seg}
    (sp : Sep hd eb fs) (c : Ring h hd eb fs) (e : close hd eb fs = pre ++ (ob, g) :: (ob', g') :: post) (so : g.Solid) :
    Chain (N.unlinkRange h g.first g.last) hd (pre ++ (mergeB ob ob', g') :: post) ∧
      Inner (N.unlinkRange h g.first g.last) g ∧
      Agree h (N.unlinkRange h g.first g.last) (g'.first :: ob.toList) [lastOf hd pre] ∧
      ∀ b, ob = some b → ob'.isSome → (N.unlinkRange h g.first g.last).prior b = 0 := by
  have lc := ring_loc sp c e
  obtain ⟨ag, r1, r2⟩ := N.unlinkRange_cut lc so
  refine ⟨?_, ?_, ag, r2⟩
  · have e2 : close hd eb fs = pre ++ [(ob, g)] ++ (ob', g') :: post := by rw [e]; simp
    have := ring_splice (M' := []) (ob' := mergeB ob ob') sp c e2 ag (fr := []) (by simp)
      (by intro a ha
          simp only [nodesS_cons, nodesS_nil, bucks_cons, bucks_nil, List.append_nil, List.mem_cons, List.mem_append] at ha ⊢
          tauto)
      (by intro a ha; simp at ha; simp [ha]) trivial r1
    simpa using this
  · refine lc.inner.congr (fun a ha => ag.1 a ?_) (fun a ha => ag.2 a ?_)
    · have := List.mem_of_mem_tail ha
      have a1 : a ≠ g'.first := fun k => lc.fg (k ▸ this)
      cases ob with
      | none => simp [a1]
      | some b =>
        have : a ≠ b := fun k => (lc.obg b rfl).1 (k ▸ this)
        simp [a1, this]
    · have := List.dropLast_subset _ ha
      have : a ≠ lastOf hd pre := fun k => lc.pg (k ▸ this)
      simp [this]

end MI.Hash
