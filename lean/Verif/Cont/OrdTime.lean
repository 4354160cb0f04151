import Verif.Cont.Container
import Verif.Cont.CascadeSpec
import Verif.Ord.ActsLemmas2
/-!
# Containers with one ordered index

The operations of `Verif/Ord/Acts.lean`, which count rounds of loops, do what the operations of `Verif/Cont/Container.lean` do on a container with one ordered index.
-/
namespace MI.Cont
open MI

variable {V : Type} {lt : V → V → Bool} {u : Bool} {hd : Id} {xs : List Id}

/-- An operation of the container, without failures: `insert` (multi_index_container.hpp:690-712, 816-843), `erase` (951-956), `replace` (1022-1030), `modify` with a
modifier that leaves the value `v` (1032-1058). -/
def Container.act (m : Mem V) (c : Container V) (e : Nat → Env) : Ord.Act V → Out (Res V)
  | .insert x v hint => c.insert m v x {} hint e
  | .erase x => c.erase m x
  | .replace x v => c.replace m x v false e
  | .modify x v => c.modify m x (fun _ => (v, false)) e

/-- The container with an ordered index only. -/
def Container.ofIdx (lt : V → V → Bool) (u : Bool) (hd : Id) (s : Ord.Idx V) : Container V := ⟨hd, [.ord u lt s.h], s.count⟩

theorem deleteNode_val {m : Mem V} {x : Id} (h1 : x ∈ m.alloc) (h2 : x ∈ m.cons) : ∃ m', m.deleteNode x = some m' ∧ m'.val = m.val := by
  unfold Mem.deleteNode Mem.destroy
  rw [if_pos h2]
  simp only
  unfold Mem.deallocate
  simp only
  rw [if_pos h1]
  exact ⟨_, rfl, rfl⟩

theorem act_container (sw : StrictWeak lt) {m : Mem V} {h : Ord.Heap} {count : Nat} {a : Ord.Act V} {e : Nat → Env}
    (w : Ord.Idx.Holds lt u hd ⟨m.val, h, count⟩ xs) (hl : a.Legal hd xs) (hm : ∀ x ∈ xs, x ∈ m.alloc ∧ x ∈ m.cons) (hq : (e 0).Quiet)
    {s' : Ord.Idx V} {r : Ord.Rounds} (ha : Ord.act lt u (count + 4) hd ⟨m.val, h, count⟩ a = some (s', r)) :
    ∃ R, (Container.ofIdx lt u hd ⟨m.val, h, count⟩).act m e a = .ok R ∧ R.c = Container.ofIdx lt u hd s' ∧ R.m.val = s'.key := by
  obtain ⟨hr, ho, hc⟩ := w
  have hnz := Ord.rep_nz hr
  obtain ⟨q1, q2, q3, q4⟩ := hq
  cases a with
  | insert x v hint =>
    obtain ⟨hx0, hx, hh⟩ := hl
    have ho' : Ord.OrderedBy lt u (upd m.val x v) xs := ho.congr (fun z hz => upd_other _ _ (fun e => hx (by rw [← e]; simp [hz])))
    obtain ⟨p, w, e1, -, q⟩ := Ord.pointS_spec sw (k := v) hr ho' (n := count + 4) (by simp only at hc; omega) hh
    have e2 := congrArg (Option.map (·.1)) e1
    rw [Ord.pointS_fst] at e2
    simp only [Ord.act, e1] at ha
    simp only [Container.act, Container.insert, Container.ofIdx, insertC, Layer.reserve, Layer.point, q3, Bool.false_eq_true, if_false, upd_same, Container.budget]
    simp only at e2
    rw [e2]
    rcases q with ⟨side, pos, a, b, rfl, -⟩ | ⟨q, rfl, hq⟩
    · simp only at ha
      rcases e3 : Ord.linkS (count + 4) h x side pos hd with _ | ⟨h', f⟩
      · rw [e3] at ha; cases ha
      · rw [e3] at ha; cases ha
        have e4 := congrArg (Option.map (·.1)) e3
        rw [Ord.linkS_fst] at e4
        simp only [Option.map_some, baseInsert, Bool.false_eq_true, if_false, if_true, Layer.link, e4]
        exact ⟨_, rfl, rfl, rfl⟩
    · cases ha
      have hq0 : q ≠ 0 := by rintro rfl; exact hnz (by simp [hq])
      simp only [Option.map_some, hq0, if_false]
      exact ⟨_, rfl, rfl, rfl⟩
  | erase x =>
    obtain ⟨h1, h2⟩ := hm x hl
    simp only [Ord.act] at ha
    rcases e1 : Ord.incrementS h (count + 4) x with _ | ⟨y, w⟩
    · rw [e1] at ha; cases ha
    rw [e1] at ha
    simp only at ha
    rcases e2 : Ord.extractS (count + 4) h hd x with _ | ⟨h', r'⟩
    · rw [e2] at ha; cases ha
    rw [e2] at ha; cases ha
    have e3 := congrArg (Option.map (·.1)) e2
    rw [Ord.extractS_fst] at e3
    obtain ⟨m', e4, e5⟩ := deleteNode_val h1 h2
    simp only [Container.act, Container.erase, Container.unlinkAll, Container.ofIdx, if_pos h1, extractC, Layer.unlink, Container.budget, e3, Option.map_some, e4]
    exact ⟨_, rfl, rfl, e5⟩
  | replace x v =>
    simp only [Ord.act] at ha
    simp only [Container.act, Container.replace, Container.ofIdx, replaceC, Layer.keyed, Bool.true_eq_false, if_false, Layer.keeps, Layer.inPlace, q4,
      Bool.false_eq_true, upd_same, Container.budget]
    rw [← Ord.inPlaceS_fst]
    rcases e1 : Ord.inPlaceS (upd m.val x v) lt u (count + 4) h hd v x with _ | ⟨_ | _, w⟩
    · rw [e1] at ha; cases ha
    · rw [e1] at ha
      simp only at ha
      simp only [Option.map_some, Layer.takeOut]
      rw [← Ord.incrementS_fst]
      rcases e2 : Ord.incrementS h (count + 4) x with _ | ⟨y, w'⟩
      · rw [e2] at ha; cases ha
      rw [e2] at ha
      simp only at ha
      simp only [Option.map_some]
      rw [← Ord.extractS_fst]
      rcases e3 : Ord.extractS (count + 4) h hd x with _ | ⟨h', r'⟩
      · rw [e3] at ha; cases ha
      rw [e3] at ha
      simp only [Ord.relink] at ha
      simp only [Option.map_some, Layer.point, q3, Bool.false_eq_true, if_false, upd_same]
      rw [← Ord.pointS_fst]
      rcases e4 : Ord.pointS (upd m.val x v) lt u (count + 4) h' hd v none with _ | ⟨⟨side, pos⟩ | q, w3⟩
      · rw [e4] at ha; cases ha
      · rw [e4] at ha
        simp only at ha
        simp only [Option.map_some, Layer.link]
        rw [← Ord.linkS_fst]
        rcases e5 : Ord.linkS (count + 4) h' x side pos hd with _ | ⟨h2, f⟩
        · rw [e5] at ha; cases ha
        · rw [e5] at ha; cases ha
          exact ⟨_, rfl, rfl, rfl⟩
      · rw [e4] at ha
        simp only at ha
        simp only [Option.map_some, Layer.putBack]
        rw [← Ord.restoreS_fst]
        rcases e5 : Ord.restoreS (count + 4) h' x y hd with _ | ⟨h2, r2⟩
        · rw [e5] at ha; cases ha
        · rw [e5] at ha; cases ha
          exact ⟨_, rfl, rfl, rfl⟩
    · rw [e1] at ha; cases ha
      exact ⟨_, rfl, rfl, rfl⟩
  | modify x v =>
    obtain ⟨h1, h2⟩ := hm x hl
    simp only [Ord.act] at ha
    simp only [Container.act, Container.modify, Container.ofIdx, modifyC, Layer.inPlace, q4, Bool.false_eq_true, if_false, Container.budget, Mem.assign, upd_same]
    rw [← Ord.inPlaceS_fst]
    rcases e1 : Ord.inPlaceS (upd m.val x v) lt u (count + 4) h hd v x with _ | ⟨_ | _, w⟩
    · rw [e1] at ha; cases ha
    · rw [e1] at ha
      simp only at ha
      simp only [Option.map_some, Layer.unlink, Bool.false_eq_true, if_false]
      rw [← Ord.extractS_fst]
      rcases e3 : Ord.extractS (count + 4) h hd x with _ | ⟨h', r'⟩
      · rw [e3] at ha; cases ha
      rw [e3] at ha
      simp only [Ord.relink] at ha
      simp only [Option.map_some, Layer.point, q3, Bool.false_eq_true, if_false, upd_same]
      rw [← Ord.pointS_fst]
      rcases e4 : Ord.pointS (upd m.val x v) lt u (count + 4) h' hd v none with _ | ⟨⟨side, pos⟩ | q, w3⟩
      · rw [e4] at ha; cases ha
      · rw [e4] at ha
        simp only at ha
        simp only [Option.map_some, Layer.link]
        rw [← Ord.linkS_fst]
        rcases e5 : Ord.linkS (count + 4) h' x side pos hd with _ | ⟨h2, f⟩
        · rw [e5] at ha; cases ha
        · rw [e5] at ha; cases ha
          exact ⟨_, rfl, rfl, rfl⟩
      · rw [e4] at ha
        simp only at ha
        cases ha
        obtain ⟨m', e5, e6⟩ := deleteNode_val (m := m.assign x v) h1 h2
        simp only [Mem.assign] at e5 e6
        simp only [Option.map_some, extractC, Container.deleteCount, e5]
        exact ⟨_, rfl, rfl, e6⟩
    · rw [e1] at ha; cases ha
      exact ⟨_, rfl, rfl, rfl⟩

end MI.Cont
