import Verif.Hash.Unlink
/-! `unlink` of hashed indices: effect on the links. -/
set_option linter.unnecessarySeqFocus false
set_option linter.unusedTactic false
set_option linter.unreachableTactic false
namespace MI.Hash
open MI

/-- The bucket mark of the segment after a removed segment. -/
def mergeB : Option Id → Option Id → Option Id
  | some b, none => some b
  | _, o => o

/-- The group without `x`. -/
def Grp.remove (x : Id) : Grp → Option Grp
  | .one _ => none
  | .many f mid l =>
    if x = f then
      match mid with
      | [] => some (.one l)
      | s :: r => some (.many s r l)
    else if x = l then
      match mid with
      | [] => some (.one f)
      | s :: r => some (.many f (s :: r).dropLast ((s :: r).getLastD s))
    else some (.many f (mid.erase x) l)

/-- Effect on the links of taking a node out of the group `g`, of which `o` remains. -/
def Cut (h h' : Heap) (p : Id) (ob : Option Id) (g : Grp) (ob' : Option Id) (f' : Id) (o : Option Grp) : Prop :=
  Agree h h' (f' :: (g.toList ++ ob.toList)) (p :: g.toList) ∧
  match o with
  | none => Join h' p (mergeB ob ob') f' ∧ ∀ b ∈ ob, ob'.isSome → h'.prior b = 0
  | some g1 => Join h' p ob g1.first ∧ Inner h' g1 ∧ Join h' g1.last ob' f'

attribute [local simp] St.asgP St.asgN Heap.setPrior Heap.setNext

theorem U.cut_one {h : Heap} {p x f' : Id} {ob ob' : Option Id} (l : Loc h p ob (.one x) ob' f') :
    Cut h (U.unlink h x) p ob (.one x) ob' f' none := by
  obtain ⟨⟨j1, j2, j3⟩, -, ⟨k1, k2, k3⟩, -, nz, f0, pg, fg, ob1, ob2, ob3, -, -, -⟩ := l
  simp only [Grp.toList_one, List.mem_singleton, Grp.first_one, Grp.last_one] at *
  cases ob with
  | none =>
    simp only [Option.getD_none] at j2
    have c1 : U.isFirstOfBucket h x = false := by simp [U.isFirstOfBucket, j1, j2]
    cases ob' with
    | none =>
      simp only [Option.getD_none] at k2
      have c2 : U.isLastOfBucket h x = false := by simp [U.isLastOfBucket, k1, k2]
      have e : U.unlink h x = (h.setNext p f').setPrior f' p := by
        simp [U.unlink, U.unlinkA, c1, c2, j1, k2, upd, Ne.symm pg]
      rw [e]
      refine ⟨((Agree.refl h _ _).setNext _ _ (by simp)).setPrior _ _ (by simp), ?_⟩
      simp [Join, mergeB]
    | some b' =>
      have k3 := k3 b' rfl
      simp only [Option.getD_some] at k2
      have q := ob2 b' rfl
      have c2 : U.isLastOfBucket h x = true := by simp [U.isLastOfBucket, k2, k3, fg]
      have e : U.unlink h x = (h.setNext p b').setPrior f' p := by
        simp [U.unlink, U.unlinkA, c1, c2, j1, k2, k3, upd, Ne.symm pg]
      rw [e]
      refine ⟨((Agree.refl h _ _).setNext _ _ (by simp)).setPrior _ _ (by simp), ?_⟩
      simp [Join, mergeB, upd, q, k3]
  | some b =>
    have j3 := j3 b rfl
    simp only [Option.getD_some] at j2
    have q := ob1 b rfl
    have c1 : U.isFirstOfBucket h x = true := by simp [U.isFirstOfBucket, j1, j2, q]
    cases ob' with
    | none =>
      simp only [Option.getD_none] at k2
      have c2 : U.isLastOfBucket h x = false := by simp [U.isLastOfBucket, k1, k2]
      have e : U.unlink h x = (h.setPrior b f').setPrior f' p := by
        simp [U.unlink, U.unlinkA, c1, c2, j1, j2, k2, upd, Ne.symm q.1]
      rw [e]
      refine ⟨((Agree.refl h _ _).setPrior _ _ (by simp)).setPrior _ _ (by simp), ?_⟩
      simp [Join, mergeB, upd, q, j2]
    | some b' =>
      have k3 := k3 b' rfl
      simp only [Option.getD_some] at k2
      have q' := ob2 b' rfl
      have qq := ob3 b rfl b' rfl
      have c2 : U.isLastOfBucket h x = true := by simp [U.isLastOfBucket, k2, k3, fg]
      have e : U.unlink h x = ((h.setPrior b 0).setNext p b').setPrior f' p := by
        simp [U.unlink, U.unlinkA, c1, c2, j1, j2, k2, k3, upd, Ne.symm pg, Ne.symm q.1, Ne.symm qq]
      rw [e]
      refine ⟨(((Agree.refl h _ _).setPrior _ _ (by simp)).setNext _ _ (by simp)).setPrior _ _ (by simp), ?_⟩
      simp [Join, mergeB, upd, q, q', k3, Ne.symm qq]

theorem N.cut_one {h : Heap} {p x f' : Id} {ob ob' : Option Id} (l : Loc h p ob (.one x) ob' f') :
    Cut h (N.unlink h x) p ob (.one x) ob' f' none := by
  obtain ⟨⟨j1, j2, j3⟩, -, ⟨k1, k2, k3⟩, -, nz, f0, pg, fg, ob1, ob2, ob3, -, -, -⟩ := l
  simp only [Grp.toList_one, List.mem_singleton, Grp.first_one, Grp.last_one] at *
  cases ob with
  | none =>
    simp only [Option.getD_none] at j2
    cases ob' with
    | none =>
      simp only [Option.getD_none] at k2
      have e : N.unlink h x = (h.setNext p f').setPrior f' p := by
        simp [N.unlink, N.unlinkA, N.leftUnlink, N.rightUnlink, j1, j2, k1, k2, upd, Ne.symm pg]
      rw [e]
      refine ⟨((Agree.refl h _ _).setNext _ _ (by simp)).setPrior _ _ (by simp), ?_⟩
      simp [Join, mergeB]
    | some b' =>
      have k3 := k3 b' rfl
      simp only [Option.getD_some] at k2
      have q := ob2 b' rfl
      have e : N.unlink h x = (h.setNext p b').setPrior f' p := by
        simp [N.unlink, N.unlinkA, N.leftUnlink, N.rightUnlinkLastOfBucket, j1, j2, k1, k2, k3, upd, Ne.symm pg, fg]
      rw [e]
      refine ⟨((Agree.refl h _ _).setNext _ _ (by simp)).setPrior _ _ (by simp), ?_⟩
      simp [Join, mergeB, upd, q, k3]
  | some b =>
    have j3 := j3 b rfl
    simp only [Option.getD_some] at j2
    have q := ob1 b rfl
    cases ob' with
    | none =>
      simp only [Option.getD_none] at k2
      have e : N.unlink h x = (h.setPrior b f').setPrior f' p := by
        simp [N.unlink, N.unlinkA, N.leftUnlinkFirstOfBucket, N.rightUnlink, j1, j2, j3, k1, k2, upd, Ne.symm q.1, q]
      rw [e]
      refine ⟨((Agree.refl h _ _).setPrior _ _ (by simp)).setPrior _ _ (by simp), ?_⟩
      simp [Join, mergeB, upd, q, j2]
    | some b' =>
      have k3 := k3 b' rfl
      simp only [Option.getD_some] at k2
      have q' := ob2 b' rfl
      have qq := ob3 b rfl b' rfl
      have e : N.unlink h x = ((h.setPrior b 0).setNext p b').setPrior f' p := by
        simp [N.unlink, N.unlinkA, j1, j2, j3, k1, k2, k3, upd, Ne.symm pg, Ne.symm q.1, Ne.symm qq, q, fg]
      rw [e]
      refine ⟨(((Agree.refl h _ _).setPrior _ _ (by simp)).setNext _ _ (by simp)).setPrior _ _ (by simp), ?_⟩
      simp [Join, mergeB, upd, q, q', k3, Ne.symm qq]

/-! ### Groups of two -/

theorem N.cut_pair_first {h : Heap} {p x y f' : Id} {ob ob' : Option Id} (l : Loc h p ob (.many x [] y) ob' f') :
    Cut h (N.unlink h x) p ob (.many x [] y) ob' f' (some (.one y)) := by
  obtain ⟨⟨j1, j2, j3⟩, i, ⟨k1, k2, k3⟩, nd, nz, f0, pg, fg, ob1, ob2, ob3, -, -, -⟩ := l
  simp [Inner, Line] at i
  obtain ⟨i1, i2⟩ := i
  simp at *
  have py : p ≠ y := by tauto
  cases ob with
  | none =>
    simp at j2
    have e : N.unlink h x = (h.setNext p y).setPrior y p := by
      simp [N.unlink, N.unlinkA, N.leftUnlink, N.rightUnlink, j1, j2, i1, i2, upd, Ne.symm pg.1]
    rw [e]
    refine ⟨((Agree.refl h _ _).setNext _ _ (by simp)).setPrior _ _ (by simp), ?_⟩
    refine ⟨by simp [Join], trivial, ?_⟩
    refine ⟨by simp [upd, k1, fg], by simp [upd, Ne.symm py, k2], ?_⟩
    intro b hb
    have := (ob2 b hb)
    simp [upd, this, k3 b hb]
  | some b =>
    simp at j2
    have q := ob1 b rfl
    have j3 := j3 b rfl
    have e : N.unlink h x = (h.setPrior b y).setPrior y p := by
      simp [N.unlink, N.unlinkA, N.leftUnlinkFirstOfBucket, N.rightUnlink, j1, j2, j3, i1, i2, upd, q, Ne.symm q.1.1]
    rw [e]
    refine ⟨((Agree.refl h _ _).setPrior _ _ (by simp)).setPrior _ _ (by simp), ?_⟩
    refine ⟨by simp [Join, upd, q, j2], trivial, ?_⟩
    refine ⟨by simp [upd, k1, fg, Ne.symm q.2.2.1], by simp [k2], ?_⟩
    intro b' hb
    have := (ob2 b' hb)
    simp [upd, this, k3 b' hb, Ne.symm (ob3 b rfl b' hb)]

theorem N.cut_pair_last {h : Heap} {p x y f' : Id} {ob ob' : Option Id} (l : Loc h p ob (.many y [] x) ob' f') :
    Cut h (N.unlink h x) p ob (.many y [] x) ob' f' (some (.one y)) := by
  obtain ⟨⟨j1, j2, j3⟩, i, ⟨k1, k2, k3⟩, nd, nz, f0, pg, fg, ob1, ob2, ob3, -, -, -⟩ := l
  simp [Inner, Line] at i
  obtain ⟨i1, i2⟩ := i
  simp at *
  have py : p ≠ y := by tauto
  cases ob' with
  | none =>
    simp at k2
    have e : N.unlink h x = (h.setNext y f').setPrior f' y := by
      simp [N.unlink, N.unlinkA, N.leftUnlink, N.rightUnlink, k1, k2, i1, i2, upd, Ne.symm nd]
    rw [e]
    refine ⟨((Agree.refl h _ _).setNext _ _ (by simp)).setPrior _ _ (by simp), ?_⟩
    refine ⟨⟨by simp [upd, Ne.symm fg.1, j1], by simp [upd, py, j2], ?_⟩, trivial, by simp [Join]⟩
    intro b hb
    have := ob1 b hb
    simp [upd, this, j3 b hb]
  | some b' =>
    simp at k2
    have q := ob2 b' rfl
    have k3 := k3 b' rfl
    have e : N.unlink h x = (h.setNext y b').setPrior f' y := by
      simp [N.unlink, N.unlinkA, N.leftUnlink, N.rightUnlinkLastOfBucket, k1, k2, k3, i1, i2, upd, Ne.symm nd, fg]
    rw [e]
    refine ⟨((Agree.refl h _ _).setNext _ _ (by simp)).setPrior _ _ (by simp), ?_⟩
    refine ⟨⟨by simp [upd, Ne.symm fg.1, j1], by simp [upd, py, j2], ?_⟩, trivial, by simp [Join, upd, q, k3]⟩
    intro b hb
    have := ob1 b hb
    simp [upd, this, j3 b hb]

/-! ### Larger groups -/

theorem Line.append {h : Heap} {u v : List Id} {w x : Id} :
    Line h (u ++ w :: x :: v) ↔ Line h (u ++ [w]) ∧ h.next w = x ∧ h.prior x = w ∧ Line h (x :: v) := by
  induction u with
  | nil => simp [Line, and_assoc]
  | cons a r ih =>
    have e : (a :: r ++ w :: x :: v) = a :: (r ++ w :: x :: v) := rfl
    have e' : (a :: r ++ [w]) = a :: (r ++ [w]) := rfl
    have k : (r ++ w :: x :: v).head? = (r ++ [w]).head? := by cases r <;> rfl
    rw [e, e']
    simp only [Line, k, ih] at *
    tauto

theorem Join.frame {h h' : Heap} {p : Id} {ob : Option Id} {f : Id} (j : Join h p ob f)
    {P N : List Id} (ag : Agree h h' P N) (hf : f ∉ P) (hb : ∀ b, ob = some b → b ∉ P) (hp : p ∉ N) : Join h' p ob f := by
  refine j.congr (ag.1 f hf) (fun b hb' => ag.1 b (hb b ?_)) (ag.2 p hp)
  cases ob with
  | none => simp at hb'
  | some c => simp at hb' ⊢; exact hb'.symm

/-- The last element of a list without repetitions. -/
theorem last_facts {z : Id} {t : Id} {r : List Id} (nd : (t :: r).Nodup) :
    ∃ m, (t :: r).getLastD z = m ∧ m ∈ t :: r ∧ m ∉ (t :: r).dropLast ∧ t ∉ r := by
  refine ⟨_, rfl, getLastD_mem _ _ (by simp), ?_, (List.nodup_cons.1 nd).1⟩
  obtain ⟨v, m, e⟩ := (List.eq_nil_or_concat' (t :: r)).resolve_left (by simp)
  rw [e] at nd ⊢
  rw [List.getLastD_concat]
  exact notin_dropLast nd

theorem N.cut_first3 {h : Heap} {p x s l f' : Id} {ob ob' : Option Id} (lc : Loc h p ob (.many x [s] l) ob' f') :
    Cut h (N.unlink h x) p ob (.many x [s] l) ob' f' (some (.many s [] l)) := by
  obtain ⟨⟨j1, j2, j3⟩, i, jj, nd, nz, f0, pg, fg, ob1, ob2, ob3, pri, nxtpri, nxtf⟩ := lc
  simp [Inner, Line] at i
  obtain ⟨i1, i2, i3, i4⟩ := i
  simp at *
  cases ob with
  | none =>
    simp at j2
    have e : N.unlink h x = ((h.setNext p s).setNext s l).setPrior s p := by
      simp [N.unlink, N.unlinkA, N.leftUnlink, N.rightUnlinkFirstOfGroup, j1, j2, i1, i2, i3, i4, upd]
      grind
    rw [e]
    have ag : Agree h (((h.setNext p s).setNext s l).setPrior s p) [s] [p, s] :=
      (((Agree.refl h _ _).setNext _ _ (by simp)).setNext _ _ (by simp)).setPrior _ _ (by simp)
    refine ⟨ag.mono (by simp) (by simp), ?_, ?_, ?_⟩
    · simp [Join, upd] <;> grind
    · simp [Inner, Line, upd] <;> grind
    · refine jj.frame ag ?_ ?_ ?_ <;> grind
  | some b =>
    simp at j2
    have q := ob1 b rfl
    have j3 := j3 b rfl
    have e : N.unlink h x = ((h.setPrior b s).setNext s l).setPrior s p := by
      simp [N.unlink, N.unlinkA, N.leftUnlinkFirstOfBucket, N.rightUnlinkFirstOfGroup, j1, j2, j3, i1, i2, i3, i4, upd]
      grind
    rw [e]
    have ag : Agree h (((h.setPrior b s).setNext s l).setPrior s p) [s, b] [s] :=
      (((Agree.refl h _ _).setPrior _ _ (by simp)).setNext _ _ (by simp)).setPrior _ _ (by simp)
    refine ⟨ag.mono (by simp) (by simp), ?_, ?_, ?_⟩
    · simp [Join, upd] <;> grind
    · simp [Inner, Line, upd] <;> grind
    · refine jj.frame ag ?_ ?_ ?_ <;> grind

theorem N.cut_first {h : Heap} {p x s t l f' : Id} {r : List Id} {ob ob' : Option Id}
    (lc : Loc h p ob (.many x (s :: t :: r) l) ob' f') :
    Cut h (N.unlink h x) p ob (.many x (s :: t :: r) l) ob' f' (some (.many s (t :: r) l)) := by
  obtain ⟨⟨j1, j2, j3⟩, i, jj, nd, nz, f0, pg, fg, ob1, ob2, ob3, pri, nxtpri, nxtf⟩ := lc
  obtain ⟨i1, i2, ⟨i3, i4⟩, i5⟩ := i
  have i3 := i3 t rfl
  have i5 := i5 (by simp)
  have nd' : (t :: r).Nodup := by
    have := nd
    simp at this ⊢
    grind
  obtain ⟨m, m1, m2, m3, m4⟩ := last_facts (z := x) nd'
  have m1' : (s :: t :: r).getLastD x = m := by rw [← m1]; rfl
  have jj : Join h l ob' f' := jj
  have m1'' : (t :: r).getLastD s = m := by rw [← m1, List.getLastD_cons, List.getLastD_cons]
  rw [m1'] at i2 i5
  simp only [List.headD_cons] at i1 i2 i5
  have ms : m ≠ s := by rintro rfl; simp at nd; grind
  have ml : m ≠ l := by rintro rfl; simp at nd; grind
  have mx : m ≠ x := by rintro rfl; simp at nd; grind
  have mp : p ≠ m := by rintro rfl; simp at pg; grind
  have mf : f' ≠ m := by rintro rfl; simp at fg; grind
  have pr : p ∉ t :: r := by simp at pg; grind
  have sr : s ∉ t :: r := by simp at nd; grind
  have lr : l ∉ t :: r := by simp at nd; grind
  have xr : x ∉ t :: r := by simp at nd; grind
  simp at j1 j2 j3 nd nz pg fg ob1 ob2 ob3 pri nxtpri nxtf sr pr lr
  cases ob with
  | none =>
    simp at j2
    have e : N.unlink h x = (((h.setNext p s).setNext m s).setPrior t l).setPrior s p := by
      simp [N.unlink, N.unlinkA, N.leftUnlink, N.rightUnlinkFirstOfGroup, j1, j2, i1, i2, i3, i5, upd]
      grind
    rw [e]
    have ag : Agree h ((((h.setNext p s).setNext m s).setPrior t l).setPrior s p) [s, t] [p, m] :=
      ((((Agree.refl h _ _).setNext _ _ (by simp)).setNext _ _ (by simp)).setPrior _ _ (by simp)).setPrior _ _ (by simp)
    refine ⟨ag.mono (by simp) (by simp at m2 ⊢; grind), ?_, ?_, ?_⟩
    · simp [Join, upd] <;> grind
    · refine ⟨?_, ?_, i4.congr (fun a ha => ag.1 a ?_) (fun a ha => ag.2 a ?_), fun _ => ?_⟩
      · simp [upd] <;> grind
      · rw [m1'']; simp [upd] <;> grind
      · have ha : a ∈ r := ha
        grind
      · have := List.dropLast_subset _ ha
        grind
      · rw [m1'']; simp [upd] <;> grind
    · refine jj.frame ag ?_ ?_ ?_ <;> grind
  | some b =>
    simp at j2
    have q := ob1 b rfl
    have j3 := j3 b rfl
    have e : N.unlink h x = (((h.setPrior b s).setNext m s).setPrior t l).setPrior s p := by
      simp [N.unlink, N.unlinkA, N.leftUnlinkFirstOfBucket, N.rightUnlinkFirstOfGroup, j1, j2, j3, i1, i2, i3, i5, upd]
      grind
    rw [e]
    have ag : Agree h ((((h.setPrior b s).setNext m s).setPrior t l).setPrior s p) [b, s, t] [m] :=
      ((((Agree.refl h _ _).setPrior _ _ (by simp)).setNext _ _ (by simp)).setPrior _ _ (by simp)).setPrior _ _ (by simp)
    refine ⟨ag.mono (by simp) (by simp at m2 ⊢; grind), ?_, ?_, ?_⟩
    · simp [Join, upd] <;> grind
    · refine ⟨?_, ?_, i4.congr (fun a ha => ag.1 a ?_) (fun a ha => ag.2 a ?_), fun _ => ?_⟩
      · simp [upd] <;> grind
      · rw [m1'']; simp [upd] <;> grind
      · have ha : a ∈ r := ha
        grind
      · have := List.dropLast_subset _ ha
        grind
      · rw [m1'']; simp [upd] <;> grind
    · refine jj.frame ag ?_ ?_ ?_ <;> grind

theorem N.cut_last3 {h : Heap} {p x m f f' : Id} {ob ob' : Option Id} (lc : Loc h p ob (.many f [m] x) ob' f') :
    Cut h (N.unlink h x) p ob (.many f [m] x) ob' f' (some (.many f [] m)) := by
  obtain ⟨jj, i, ⟨k1, k2, k3⟩, nd, nz, f0, pg, fg, ob1, ob2, ob3, pri, nxtpri, nxtf⟩ := lc
  have j1 := jj.1
  simp [Inner, Line] at i
  obtain ⟨i1, i2, i3, i4⟩ := i
  simp at *
  cases ob' with
  | none =>
    simp at k2
    have e : N.unlink h x = ((h.setPrior m f).setNext m f').setPrior f' m := by
      simp [N.unlink, N.unlinkA, N.leftUnlinkLastOfGroup, N.rightUnlink, j1, k1, k2, i1, i2, i3, i4, upd]
      grind
    rw [e]
    have ag : Agree h (((h.setPrior m f).setNext m f').setPrior f' m) [f', m] [m] :=
      (((Agree.refl h _ _).setPrior _ _ (by simp)).setNext _ _ (by simp)).setPrior _ _ (by simp)
    refine ⟨ag.mono (by simp) (by simp), ?_, ?_, ?_⟩
    · refine jj.frame ag ?_ ?_ ?_ <;> simp <;> grind
    · simp [Inner, Line, upd] <;> grind
    · simp [Join, upd]
  | some b =>
    simp at k2
    have q := ob2 b rfl
    have k3 := k3 b rfl
    have e : N.unlink h x = ((h.setPrior m f).setNext m b).setPrior f' m := by
      simp [N.unlink, N.unlinkA, N.leftUnlinkLastOfGroup, N.rightUnlinkLastOfBucket, j1, k1, k2, k3, i1, i2, i3, i4, upd]
      grind
    rw [e]
    have ag : Agree h (((h.setPrior m f).setNext m b).setPrior f' m) [f', m] [m] :=
      (((Agree.refl h _ _).setPrior _ _ (by simp)).setNext _ _ (by simp)).setPrior _ _ (by simp)
    refine ⟨ag.mono (by simp) (by simp), ?_, ?_, ?_⟩
    · refine jj.frame ag ?_ ?_ ?_ <;> simp <;> grind
    · simp [Inner, Line, upd] <;> grind
    · simp [Join, upd] <;> grind

end MI.Hash
