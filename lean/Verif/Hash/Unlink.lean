import Verif.Hash.Loc
/-! `unlink` of hashed indices: effect on the links, and undoing. -/
namespace MI.Hash
open MI

/-! ## Undo -/

/-- Undoing brings back the links `h`. -/
def Undoes (h : Heap) (s : St) : Prop :=
  (undoP s.log.ptrs s.h).prior = h.prior ∧ (undoN s.log.bptrs s.h).next = h.next

theorem undoP_next (l : List (Id × Id)) (h : Heap) : (undoP l h).next = h.next := by
  induction l generalizing h with
  | nil => rfl
  | cons a r ih => exact ih _

theorem undoN_prior (l : List (Id × Id)) (h : Heap) : (undoN l h).prior = h.prior := by
  induction l generalizing h with
  | nil => rfl
  | cons a r ih => exact ih _

theorem undoP_congr (l : List (Id × Id)) {h h' : Heap} (e : h.prior = h'.prior) :
    (undoP l h).prior = (undoP l h').prior := by
  induction l generalizing h h' with
  | nil => exact e
  | cons a r ih => exact ih (by show upd h.prior _ _ = upd h'.prior _ _; rw [e])

theorem undoN_congr (l : List (Id × Id)) {h h' : Heap} (e : h.next = h'.next) :
    (undoN l h).next = (undoN l h').next := by
  induction l generalizing h h' with
  | nil => exact e
  | cons a r ih => exact ih (by show upd h.next _ _ = upd h'.next _ _; rw [e])

theorem upd_upd {β : Type _} (f : Id → β) (a : Id) (b c : β) : upd (upd f a b) a c = upd f a c := by
  funext x; by_cases e : x = a <;> simp [upd, e]

theorem upd_self {β : Type _} (f : Id → β) (a : Id) : upd f a (f a) = f := by
  funext x; by_cases e : x = a <;> simp [upd, e]

theorem Undoes.asgP {h : Heap} {s : St} (u : Undoes h s) (a v : Id) : Undoes h (s.asgP a v) := by
  refine ⟨?_, ?_⟩
  · rw [← u.1]
    show (undoP s.log.ptrs ((s.h.setPrior a v).setPrior a (s.h.prior a))).prior = _
    apply undoP_congr
    show upd (upd s.h.prior a v) a (s.h.prior a) = s.h.prior
    rw [upd_upd, upd_self]
  · rw [← u.2]; exact undoN_congr _ rfl

theorem Undoes.asgN {h : Heap} {s : St} (u : Undoes h s) (a v : Id) : Undoes h (s.asgN a v) := by
  refine ⟨?_, ?_⟩
  · rw [← u.1]; exact undoP_congr _ rfl
  · rw [← u.2]
    show (undoN s.log.bptrs ((s.h.setNext a v).setNext a (s.h.next a))).next = _
    apply undoN_congr
    show upd (upd s.h.next a v) a (s.h.next a) = s.h.next
    rw [upd_upd, upd_self]

theorem Undoes.init (h : Heap) : Undoes h { h := h } := ⟨rfl, rfl⟩

theorem Undoes.undo {h : Heap} {s : St} (u : Undoes h s) : s.undo = h := by
  have e1 : s.undo.prior = h.prior := by unfold St.undo; rw [undoN_prior]; exact u.1
  have e2 : s.undo.next = h.next := by
    unfold St.undo
    rw [← u.2]
    exact undoN_congr _ (undoP_next _ _)
  cases h; cases hs : s.undo; rw [hs] at e1 e2
  cases e1; cases e2; rfl

theorem U.unlinkA_undoes (h : Heap) (x : Id) : Undoes h (U.unlinkA { h := h } x) := by
  have i := Undoes.init h
  unfold U.unlinkA
  split
  · split
    · exact ((i.asgP _ _).asgN _ _).asgP _ _
    · exact (i.asgP _ _).asgP _ _
  · split
    · exact (i.asgN _ _).asgP _ _
    · exact (i.asgN _ _).asgP _ _

theorem N.rufg_undoes {h : Heap} {s : St} (i : Undoes h s) (x : Id) : Undoes h (N.rightUnlinkFirstOfGroup s x) := by
  unfold N.rightUnlinkFirstOfGroup
  dsimp only
  split
  · exact (i.asgN _ _).asgP _ _
  · exact ((i.asgN _ _).asgP _ _).asgP _ _

theorem N.lulg_undoes {h : Heap} {s : St} (i : Undoes h s) (x : Id) : Undoes h (N.leftUnlinkLastOfGroup s x) := by
  unfold N.leftUnlinkLastOfGroup
  dsimp only
  split
  · exact (i.asgP _ _).asgN _ _
  · exact ((i.asgP _ _).asgN _ _).asgN _ _

theorem N.unlinkA_undoes (h : Heap) (x : Id) : Undoes h (N.unlinkA { h := h } x) := by
  have i := Undoes.init h
  unfold N.unlinkA
  split
  · split
    · exact (i.asgN _ _).asgP _ _
    split
    · exact (i.asgN _ _).asgP _ _
    split
    · exact N.rufg_undoes (i.asgN _ _) _
    · unfold N.unlinkLastButOneOfGroup
      dsimp only
      split
      · exact (i.asgP _ _).asgN _ _
      · exact (i.asgP _ _).asgN _ _
  split
  · split
    · exact (i.asgP _ _).asgP _ _
    split
    · exact ((i.asgP _ _).asgN _ _).asgP _ _
    · exact N.rufg_undoes (i.asgP _ _) _
  split
  · exact (N.lulg_undoes i _).asgP _ _
  split
  · unfold N.unlinkSecondOfGroup
    dsimp only
    split
    · exact (i.asgN _ _).asgP _ _
    · exact (i.asgN _ _).asgP _ _
  · exact (N.lulg_undoes i _).asgP _ _

/-- `k` and `l` further assignments can be tracked. -/
def Log.room (lg : Log) (k l : Nat) : Prop := lg.ptrs.length + k ≤ 3 ∧ lg.bptrs.length + l ≤ 2

theorem room_P {s : St} {k l : Nat} (r : s.log.room (k + 1) l) (a v : Id) : (s.asgP a v).log.room k l := by
  obtain ⟨r1, r2⟩ := r
  refine ⟨?_, r2⟩
  show s.log.ptrs.length + 1 + k ≤ 3
  omega

theorem room_N {s : St} {k l : Nat} (r : s.log.room k (l + 1)) (a v : Id) : (s.asgN a v).log.room k l := by
  obtain ⟨r1, r2⟩ := r
  refine ⟨r1, ?_⟩
  show s.log.bptrs.length + 1 + l ≤ 2
  omega

theorem room_weaken {lg : Log} {k l k' l' : Nat} (r : lg.room k l) (a : k' ≤ k) (b : l' ≤ l) : lg.room k' l' := by
  obtain ⟨r1, r2⟩ := r
  exact ⟨by omega, by omega⟩

theorem room_init (h : Heap) : ({ h := h } : St).log.room 3 2 := ⟨Nat.le_refl _, Nat.le_refl _⟩

theorem U.unlinkA_fits (h : Heap) (x : Id) : (U.unlinkA { h := h } x).log.fits := by
  have i := room_init h
  suffices ∃ k l, (U.unlinkA { h := h } x).log.room k l by
    obtain ⟨k, l, r1, r2⟩ := this; exact ⟨by omega, by omega⟩
  unfold U.unlinkA
  split
  · split
    · exact ⟨_, _, room_P (room_N (room_P i _ _) _ _) _ _⟩
    · exact ⟨_, _, room_P (room_P i _ _) _ _⟩
  · split
    · exact ⟨_, _, room_P (room_N i _ _) _ _⟩
    · exact ⟨_, _, room_P (room_N i _ _) _ _⟩

theorem N.rufg_room {s : St} (i : s.log.room 2 1) (x : Id) : (N.rightUnlinkFirstOfGroup s x).log.room 0 0 := by
  unfold N.rightUnlinkFirstOfGroup
  dsimp only
  split
  · exact room_weaken (room_P (room_N i _ _) _ _) (by omega) (by omega)
  · exact room_P (room_P (room_N i _ _) _ _) _ _

theorem N.lulg_room {s : St} (i : s.log.room 3 2) (x : Id) : (N.leftUnlinkLastOfGroup s x).log.room 2 0 := by
  unfold N.leftUnlinkLastOfGroup
  dsimp only
  split
  · exact room_weaken (room_N (room_P i _ _) _ _) (by omega) (by omega)
  · exact room_N (room_N (room_P i _ _) _ _) _ _

theorem N.unlinkA_fits (h : Heap) (x : Id) : (N.unlinkA { h := h } x).log.fits := by
  have i := room_init h
  suffices ∃ k l, (N.unlinkA { h := h } x).log.room k l by
    obtain ⟨k, l, r1, r2⟩ := this; exact ⟨by omega, by omega⟩
  unfold N.unlinkA
  split
  · split
    · exact ⟨_, _, room_P (room_N i _ _) _ _⟩
    split
    · exact ⟨_, _, room_P (room_N i _ _) _ _⟩
    split
    · exact ⟨_, _, N.rufg_room (room_weaken (room_N i _ _) (by omega) (by omega)) _⟩
    · unfold N.unlinkLastButOneOfGroup
      dsimp only
      split
      · exact ⟨_, _, room_N (room_P i _ _) _ _⟩
      · exact ⟨_, _, room_N (room_P i _ _) _ _⟩
  split
  · split
    · exact ⟨_, _, room_P (room_P i _ _) _ _⟩
    split
    · exact ⟨_, _, room_P (room_N (room_P i _ _) _ _) _ _⟩
    · exact ⟨_, _, N.rufg_room (room_weaken (room_P i _ _) (by omega) (by omega)) _⟩
  split
  · exact ⟨_, _, room_P (N.lulg_room i _) _ _⟩
  split
  · unfold N.unlinkSecondOfGroup
    dsimp only
    split
    · exact ⟨_, _, room_P (room_N i _ _) _ _⟩
    · exact ⟨_, _, room_P (room_N i _ _) _ _⟩
  · exact ⟨_, _, room_P (N.lulg_room i _) _ _⟩

end MI.Hash
