import Verif.Prelude
/-!
# Threads and safe mode: what is expected

What iterators look like from outside, what each operation does to them when no other thread interferes, and which operations may overlap
in time: doc/release_notes.html, Boost 1.33.1: *"Concurrent access to different containers is safe. Concurrent read-only access to the same container is
safe."*, in safe mode too.
-/
namespace MI.Mt
open MI

/-- A thread. -/
abbrev Tid := Nat

/-- An iterator object as its user sees it: the (safe container of the) index it is valid for, 0 if it is not valid, and the position together with the mark of
iterators loaded from an archive. -/
structure View where
  cont : Nat
  val : Id × Bool
  deriving DecidableEq

/-- What threads do with iterator objects (`it`, `a`, `b`, `tmp`: addresses of such objects) and indices (`s`, `d`). -/
inductive Op
  /-- An index returns an iterator to the element `x`: `begin()`, `find(k)`… -/
  | make (it s : Nat) (x : Id)
  /-- Default construction. -/
  | blank (it : Nat) (x : Id)
  /-- Copy construction. -/
  | copy (it a : Nat)
  /-- `it=a` -/
  | assign (it a : Nat)
  /-- `it` is loaded from an archive. -/
  | load (it : Nat) (x : Id)
  /-- Destruction of an iterator. -/
  | drop (it : Nat)
  /-- `a==b` -/
  | compare (a b : Nat)
  /-- `*a`, which compares with a temporary `tmp`, to `end()` -/
  | deref (a tmp : Nat) (hd : Id)
  /-- The element `x` of the index `s` is erased, with the help of a local iterator. -/
  | erase (it s : Nat) (x : Id)
  /-- All elements are erased; `hd`: the position of `end()`. -/
  | clear (tmp s : Nat) (hd : Id)
  /-- The element `x` is transferred from `s` to an index `d` of the same type, `hd`: the position of its `end()`. -/
  | transfer (it it2 tmp s d : Nat) (hd x : Id)
  /-- The container with index `s` is destroyed. -/
  | destroy (s : Nat)
  /-- `swap` -/
  | swap (s d : Nat)

/-- The effect of an operation. -/
def Op.effect (V : Nat → View) : Op → Nat → View
  | .make it s x => upd V it ⟨s, (x, false)⟩
  | .blank it x => upd V it ⟨0, (x, false)⟩
  | .copy it a => upd V it (V a)
  | .assign it a => upd V it (V a)
  | .load it x => upd V it ⟨0, (x, true)⟩
  | .drop it => upd V it { V it with cont := 0 }
  | .compare _ _ => V
  | .deref a tmp hd => if (V a).cont = 0 then V else upd V tmp ⟨0, (hd, false)⟩
  | .erase it s x => upd (fun y => if (V y).cont = s ∧ (V y).val.1 = x then { V y with cont := 0 } else V y) it ⟨0, (x, false)⟩
  | .clear tmp s hd => upd (fun y => if (V y).cont = s ∧ (V y).val.1 ≠ hd then { V y with cont := 0 } else V y) tmp ⟨0, (hd, false)⟩
  | .transfer it it2 tmp s d hd x =>
    upd (upd (upd (fun y => if (V y).cont = s ∧ (V y).val.1 = x then { V y with cont := d } else V y) it ⟨0, (x, false)⟩) it2 ⟨0, (x, false)⟩) tmp ⟨0, (hd, false)⟩
  | .destroy s => fun y => if (V y).cont = s then { V y with cont := 0 } else V y
  | .swap s d => fun y => if (V y).cont = s then { V y with cont := d } else if (V y).cont = d then { V y with cont := s } else V y

/-- A valid iterator, or one loaded from an archive. -/
def View.Usable (v : View) : Prop := v.cont ≠ 0 ∨ v.val.2 = true

instance (v : View) : Decidable v.Usable := by unfold View.Usable; infer_instance

/-- What an operation presupposes. Objects being constructed are not valid iterators yet; an iterator operated on is one that may be operated on. -/
def Op.Legal (V : Nat → View) : Op → Prop
  | .make it s _ => it ≠ 0 ∧ (V it).cont = 0 ∧ s ≠ 0
  | .blank it _ => it ≠ 0 ∧ (V it).cont = 0
  | .copy it a => it ≠ 0 ∧ (V it).cont = 0 ∧ a ≠ it
  | .assign it a => it ≠ 0 ∧ (V a).Usable
  | .load it _ => it ≠ 0
  | .drop it => it ≠ 0
  | .compare a b => (V a).Usable ∧ (V b).Usable ∧ ((V a).cont = (V b).cont ∨ (V a).val.2 = true ∨ (V b).val.2 = true)
  | .deref a tmp _ => (V a).Usable ∧ tmp ≠ 0 ∧ (V tmp).cont = 0 ∧ a ≠ tmp
  | .erase it s _ => it ≠ 0 ∧ (V it).cont = 0 ∧ s ≠ 0
  | .clear tmp s _ => tmp ≠ 0 ∧ (V tmp).cont = 0 ∧ s ≠ 0
  | .transfer it it2 tmp s d _ _ =>
    it ≠ 0 ∧ it2 ≠ 0 ∧ tmp ≠ 0 ∧ it ≠ it2 ∧ it ≠ tmp ∧ it2 ≠ tmp ∧ (V it).cont = 0 ∧ (V it2).cont = 0 ∧ (V tmp).cont = 0 ∧ s ≠ 0 ∧ d ≠ 0 ∧ s ≠ d
  | .destroy s => s ≠ 0
  | .swap s d => s ≠ 0 ∧ d ≠ 0 ∧ s ≠ d

instance (V : Nat → View) (o : Op) : Decidable (o.Legal V) := by cases o <;> unfold Op.Legal <;> infer_instance

/-- What an operation uses: iterator objects it changes and iterator objects it only reads, indices it reads and indices it changes. -/
structure Use where
  wIt : List Nat
  rIt : List Nat
  rC : List Nat
  wC : List Nat

/-- Using an iterator is reading the index it is valid for. -/
def Op.use (V : Nat → View) : Op → Use
  | .make it s _ => ⟨[it], [], [s], []⟩
  | .blank it _ => ⟨[it], [], [], []⟩
  | .copy it a => ⟨[it], [a], [(V a).cont], []⟩
  | .assign it a => ⟨[it], [a], [(V it).cont, (V a).cont], []⟩
  | .load it _ => ⟨[it], [], [(V it).cont], []⟩
  | .drop it => ⟨[it], [], [(V it).cont], []⟩
  | .compare a b => ⟨[], [a, b], [(V a).cont, (V b).cont], []⟩
  | .deref a tmp _ => ⟨[tmp], [a], [(V a).cont], []⟩
  | .erase it s _ => ⟨[it], [], [], [s]⟩
  | .clear tmp s _ => ⟨[tmp], [], [], [s]⟩
  | .transfer it it2 tmp s d _ _ => ⟨[it, it2, tmp], [], [], [s, d]⟩
  | .destroy s => ⟨[], [], [], [s]⟩
  | .swap s d => ⟨[], [], [], [s, d]⟩

/-- One operation does not change what the other uses. -/
def Use.Spares (u v : Use) : Prop :=
  (∀ y ∈ u.wIt, y ∉ v.wIt ∧ y ∉ v.rIt) ∧ ∀ s ∈ u.wC, s ∉ v.rC ∧ s ∉ v.wC

/-- Two operations may overlap in time: they access different containers or only read, and neither changes an iterator object the other uses. -/
def Use.Compat (u v : Use) : Prop := u.Spares v ∧ v.Spares u

instance (u v : Use) : Decidable (u.Compat v) := by unfold Use.Compat Use.Spares; infer_instance

end MI.Mt
