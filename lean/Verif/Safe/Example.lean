import Verif.Safe.Reach
import Verif.Safe.Spec
import Verif.Cont.Example
/-!
A concrete program in safe mode, used to show that the hypotheses of the theorems can be met.
-/
set_option linter.unusedVariables false
namespace MI.Safe
open MI MI.Cont
variable {V : Type}

/-- A check of `World.Compatible`. -/
def compatB (w : World V) : Op V → Bool
  | .transfer i j _ _ => decide ((w.cs[i]?).map (·.ls.length) = (w.cs[j]?).map (·.ls.length))
  | _ => true

theorem compatB_sound {w : World V} {o : Op V} (h : compatB w o = true) : World.Compatible w o := by
  cases o with
  | transfer i j x e =>
    simp only [compatB, decide_eq_true_eq] at h
    intro c d hi hj
    rw [hi, hj] at h
    exact (Option.some.inj h).symm
  | _ => exact trivial

instance (s : State V) (t : Nat) : Decidable (s.NewIt t) := by unfold State.NewIt; infer_instance

/-- A check of `State.Legal`, for the operations used in examples. -/
def slegalB (s : State V) : SOp V → Bool
  | .lib o t ids => legalB s.w o && compatB s.w o && decide (∀ a ∈ [t.a, t.b, t.c], s.NewIt a) && decide ([t.a, t.b, t.c].Nodup) && decide (ids.length = World.newIndices s.w o) &&
      decide ids.Nodup && decide (∀ a ∈ ids, a ≠ 0 ∧ a ∉ s.sid.flatten)
  | .it (.make it i k x) => decide (s.NewIt it) && decide (∃ c, s.w.cs[i]? = some c ∧ k < c.ls.length ∧ x ∈ c.hd :: c.elems)
  | .it (.blank it _) => decide (s.NewIt it)
  | .it (.copy it a) => decide (s.NewIt it ∧ a ∈ s.live)
  | .it (.assign it a) => decide (it ∈ s.live ∧ a ∈ s.live ∧ s.reg.checkValid a = true)
  | .it (.drop it) => decide (it ∈ s.live)
  | .it (.load it _) => decide (it ∈ s.live)
  | _ => false

theorem slegalB_sound {s : State V} {o : SOp V} (h : slegalB s o = true) : s.Legal o := by
  cases o with
  | lib o t ids =>
    simp only [slegalB, Bool.and_eq_true, decide_eq_true_eq] at h
    obtain ⟨⟨⟨⟨⟨⟨h1, h2⟩, h3⟩, h4⟩, h5⟩, h6⟩, h7⟩ := h
    exact ⟨legalB_sound h1, compatB_sound h2, h3, h4, h5, h6, h7⟩
  | it o =>
    cases o with
    | make => simp only [slegalB, Bool.and_eq_true, decide_eq_true_eq] at h; exact h
    | move => exact nomatch h
    | _ => simp only [slegalB, decide_eq_true_eq] at h; exact h

/-- The state after a legal step. -/
def snext (s : State V) (o : SOp V) : Option (State V) :=
  if slegalB s o then
    match s.step o with
    | .ok s' => some s'
    | .threw s' => some s'
    | _ => none
  else none

theorem snext_sound {s s' : State V} {o : SOp V} (h : snext s o = some s') : s.Legal o ∧ (s.step o = .ok s' ∨ s.step o = .threw s') := by
  unfold snext at h
  split at h
  · rename_i l
    refine ⟨slegalB_sound l, ?_⟩
    split at h
    · rename_i k; obtain rfl := Option.some.inj h; exact Or.inl k
    · rename_i k; obtain rfl := Option.some.inj h; exact Or.inr k
    · exact nomatch h
  · exact nomatch h

/-- Executes legal steps. -/
def sruns : State V → List (SOp V) → Option (State V)
  | s, [] => some s
  | s, o :: os => (snext s o).bind (sruns · os)

theorem sruns_reach : ∀ {os : List (SOp V)} {s s' : State V}, SReach s → sruns s os = some s' → SReach s'
  | [], s, s', r, h => by obtain rfl := Option.some.inj h; exact r
  | o :: os, s, s', r, h => by
    obtain ⟨s1, h1, h2⟩ := Option.bind_eq_some_iff.1 h
    obtain ⟨l, k⟩ := snext_sound h1
    exact sruns_reach (.step r l k) h2

namespace Ex
open MI.Cont.Ex

def tmp : Tmp := ⟨301, 302, 303⟩
def reg0 : Reg := ⟨fun _ => 0, fun _ => 0, fun _ => false, fun _ => 0, fun _ => 0⟩

/-- Two containers, with the `safe` members of their indices at 201-204 and 211-214. -/
def s2 : State Val := ⟨w2, newR [211, 212, 213, 214] (newR [201, 202, 203, 204] reg0), [], [[201, 202, 203, 204], [211, 212, 213, 214]]⟩

theorem s2_reach : SReach s2 := by
  have r0 : SReach (⟨w0, reg0, [], []⟩ : State Val) := .init _ _ (fun _ => rfl)
  have r1 : SReach (⟨⟨⟨fun _ => (0, 0), [1], []⟩, [Container.new 1 7 (is1 1000)], []⟩, newR [201, 202, 203, 204] reg0, [], [[201, 202, 203, 204]]⟩ : State Val) :=
    .step (o := .lib (.new 1 7 (is1 1000)) tmp [201, 202, 203, 204]) r0
      ⟨⟨⟨by decide, by decide, by decide⟩, by simp [is1], init_ok _ (by decide) (by decide)⟩, trivial, by decide, by decide, rfl, by decide, by decide⟩ (Or.inl rfl)
  exact .step (o := .lib (.new 2 7 (is1 2000)) tmp [211, 212, 213, 214]) r1
    ⟨⟨⟨by decide, by decide, by decide +kernel⟩, by simp [is1], init_ok _ (by decide) (by decide)⟩, trivial, by decide, by decide, rfl, by decide, by decide⟩ (Or.inl rfl)

/-- Elements 11 and 12 in container 0, 16 in container 1. Iterators: 101 and 102 to 12, from indices 0 and 3; 103 to 11; 104 to the end of index 2; 105 to 16, in
container 1; 106 a copy of 101; 107 default constructed. -/
def sops : List (SOp Val) :=
  [.lib (.insert 0 (3, 7) 11 {} none env) tmp [], .lib (.insert 0 (1, 5) 12 {} none env) tmp [], .lib (.insert 1 (2, 2) 16 {} none env) tmp [],
   .it (.make 101 0 0 12), .it (.make 102 0 3 12), .it (.make 103 0 0 11), .it (.make 104 0 2 1), .it (.make 105 1 2 16), .it (.copy 106 101), .it (.blank 107 0)]

def s3 : State Val := (sruns s2 sops).getD s2

theorem s3_reach : SReach s3 := by
  obtain ⟨s', h⟩ := Option.isSome_iff_exists.1 (by decide +kernel : (sruns s2 sops).isSome = true)
  have : s3 = s' := by unfold s3; rw [h]; rfl
  rw [this]
  exact sruns_reach s2_reach h

instance (c : Container Val) (z : Id) : Decidable (Has c z) := by unfold Has; infer_instance
instance (s : State Val) (it : Nat) : Decidable (s.Checked it) := by unfold State.Checked; infer_instance
instance (s : State Val) (it : Nat) : Decidable (s.Invalid it) := by unfold State.Invalid; infer_instance

theorem s3_checked : ∀ it ∈ [101, 102, 103, 104, 105, 106, 107], s3.Checked it := by decide +kernel
theorem s3_valid : ∀ it ∈ [101, 102, 103, 104, 105, 106], ¬ s3.Invalid it := by decide +kernel
theorem s3_nodes : [101, 102, 103, 104, 105, 106].map s3.reg.node = [12, 12, 11, 1, 16, 12] := by decide +kernel

/-- A step from `s3` and the state it leads to. -/
theorem s3_step {o : SOp Val} (h : (snext s3 o).isSome = true) : ∃ s', s3.Legal o ∧ (s3.step o = .ok s' ∨ s3.step o = .threw s') := by
  obtain ⟨s', k⟩ := Option.isSome_iff_exists.1 h
  exact ⟨s', snext_sound k⟩

end Ex
end MI.Safe
